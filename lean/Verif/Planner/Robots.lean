import Verif.Planner.TurnsOptimize
import Verif.Path.Joints
set_option linter.unusedSectionVars false

/-!
# Robots with translations, unbounded rotations and ball joints meet the assumptions of `Turns` (C138)
-/
namespace Verif.Turns
open Verif.PathV Verif.CV Verif.Planner Verif.Joints
open Verif.EndToEnd (Mode)

variable {ι : Type} [Fintype ι]

/-- Norm of tangent vectors of a joint (solid-solid-collision.cc:82); `part`: less than all of a displacement is not half a turn. -/
structure Normed (j : Joint) where
  nrm : j.V → ℝ
  nonneg : ∀ v, 0 ≤ nrm v
  smul : ∀ (s : ℝ) v, nrm (s • v) = |s| * nrm v
  zero : ∀ v, nrm v = 0 → v = 0
  part : ∀ g (c : ℝ), 0 ≤ c → c < 1 → j.short (c • j.log g)

theorem Normed.log_one {j : Joint} (N : Normed j) : j.log 1 = 0 := by
  have h0 : j.short 0 := by simpa using N.part 1 0 le_rfl zero_lt_one
  have := j.log_exp 0 h0
  rwa [j.exp_zero] at this

variable (J : ι → Joint) (N : (i : ι) → Normed (J i))

abbrev Config := (i : ι) → (J i).G

/-- Norm of the displacement of each joint. -/
def move (a b : Config J) (i : ι) : ℝ := (N i).nrm ((J i).log ((a i)⁻¹ * b i))

/-- A problem for such a robot. -/
def world (metric : Config J → Config J → ℝ) (pairs : List (BodyPair ℝ (Config J) ι)) (mode : Mode) (step : ℝ) (bounds : Option (Config J → Bool)) (vmax : ι → ℝ) : World ℝ (Config J) ι :=
  ⟨robot J, move J N, Short J, metric, pairs, mode, step, bounds, vmax⟩

variable {J}

theorem rel_interp (a b : Config J) (u v : ℝ) (i : ι) :
    ((robot J).interp a b u i)⁻¹ * (robot J).interp a b v i = (J i).exp ((v - u) • (J i).log ((a i)⁻¹ * b i)) := by
  show (a i * (J i).exp (u • _))⁻¹ * (a i * (J i).exp (v • _)) = _
  rw [mul_inv_rev, mul_assoc, inv_mul_cancel_left, Joint.exp_neg, ← Joint.exp_add]
  congr 2; ring

variable {N}

theorem log_interp (N : (i : ι) → Normed (J i)) (a b : Config J) {u v : ℝ} (h0 : 0 ≤ u) (h1 : u ≤ v) (h2 : v ≤ 1) (i : ι) :
    (J i).log (((robot J).interp a b u i)⁻¹ * (robot J).interp a b v i) = (v - u) • (J i).log ((a i)⁻¹ * b i) := by
  rw [rel_interp]
  rcases lt_or_eq_of_le (show v - u ≤ 1 by linarith) with h | h
  · exact (J i).log_exp _ ((N i).part _ _ (by linarith) h)
  · rw [h, one_smul, (J i).exp_log]

/-- C138: robots whose joints are translations, unbounded rotations and ball joints satisfy what is assumed of segments; what remains is assumed of the metric, of the answers of the
collision library, and of the velocity of the bodies. -/
theorem world_ok (metric : Config J → Config J → ℝ) (pairs : List (BodyPair ℝ (Config J) ι)) (mode : Mode) (step : ℝ) (bounds : Option (Config J → Bool)) (vmax : ι → ℝ)
    (nonneg : ∀ a b, 0 ≤ metric a b) (zero : ∀ a b, metric a b = 0 → a = b) (tol : mode ≠ .discretized → ∀ c ∈ pairs, 0 < c.tol) (coef : ∀ c ∈ pairs, ∀ j, 0 ≤ c.coef j)
    (lower : ∀ c ∈ pairs, ∀ o ∈ c.objs, ∀ q d, o.collide q = some d → 0 < d ∧ d ≤ o.dist q)
    (lip : ∀ c ∈ pairs, ∀ o ∈ c.objs, ∀ a b u v, 0 ≤ u → u ≤ 1 → 0 ≤ v → v ≤ 1 →
      |o.dist ((robot J).interp a b u) - o.dist ((robot J).interp a b v)| ≤ (∑ j, c.coef j * |move J N a b j|) * |u - v|)
    (disc : mode = .discretized → 0 < step ∧ (∀ j, 0 ≤ vmax j) ∧ (∀ a b j, |move J N a b j| ≤ vmax j * metric a b) ∧
      ∀ f ∈ bounds, ∀ a b u v w, 0 ≤ u → u ≤ w → w ≤ v → v ≤ 1 → f ((robot J).interp a b u) = true → f ((robot J).interp a b v) = true → f ((robot J).interp a b w) = true) :
    (world J N metric pairs mode step bounds vmax).Ok where
  nonneg := nonneg
  zero := zero
  tol := tol
  coef := coef
  lower := lower
  lip := lip
  disc := disc
  self a i := by
    show (J i).short ((J i).log ((a i)⁻¹ * a i))
    rw [inv_mul_cancel, (N i).log_one]
    simpa using (N i).part 1 0 le_rfl zero_lt_one
  fwd a b u v w h0 h1 h2 w0 w1 := by
    funext i
    show (robot J).interp a b u i * (J i).exp (w • (J i).log (((robot J).interp a b u i)⁻¹ * (robot J).interp a b v i)) = a i * (J i).exp (_ • _)
    rw [log_interp N a b h0 h1 h2 i]
    show a i * (J i).exp (u • _) * _ = _
    rw [smul_smul, mul_assoc, ← Joint.exp_add]
  back a b w hs w0 w1 := by
    have := C128_joints_partial J a b hs 1 0 w zero_le_one le_rfl le_rfl zero_le_one w0 w1
    rw [(robot J).one, (robot J).zero] at this
    refine this.trans ?_
    show (robot J).interp a b _ = (robot J).interp a b _
    congr 1
    ring
  diff_fwd a b u v j h0 h1 h2 := by
    show |(N j).nrm ((J j).log (((robot J).interp a b u j)⁻¹ * (robot J).interp a b v j))| ≤ (v - u) * |(N j).nrm _|
    rw [log_interp N a b h0 h1 h2 j, (N j).smul, abs_mul, abs_abs, abs_of_nonneg (show 0 ≤ v - u by linarith)]
  diff_back a b j hs := by
    show |(N j).nrm ((J j).log ((b j)⁻¹ * a j))| ≤ |(N j).nrm ((J j).log ((a j)⁻¹ * b j))|
    have hj := hs j
    have e : (b j)⁻¹ * a j = (J j).exp ((-1 : ℝ) • (J j).log ((a j)⁻¹ * b j)) := by
      rw [← Joint.exp_neg, one_smul, (J j).exp_log]; group
    rw [e, (J j).log_exp _ ((J j).short_smul _ _ hj (by simp)), (N j).smul]
    simp

/-! ## The three kinds of joints -/

def lineN : Normed Joints.line where
  nrm v := |(v : ℝ)|
  nonneg _ := abs_nonneg _
  smul s v := abs_mul s v
  zero := fun (v : ℝ) (h : |v| = 0) => (abs_eq_zero.1 h : v = 0)
  part _ _ _ _ := trivial

noncomputable def circleN : Normed circle where
  nrm v := |(v : ℝ)|
  nonneg v := abs_nonneg _
  smul s v := abs_mul s v
  zero := fun (v : ℝ) (h : |v| = 0) => (abs_eq_zero.1 h : v = 0)
  part g c h0 h1 := by
    show |c * (Multiplicative.toAdd g : Real.Angle).toReal| < Real.pi
    have h := Real.Angle.abs_toReal_le_pi (Multiplicative.toAdd g)
    rw [abs_mul, abs_of_nonneg h0]
    nlinarith [Real.pi_pos, abs_nonneg (Multiplicative.toAdd g : Real.Angle).toReal]

open Verif.SplineOpt Verif.Ball

noncomputable def ballN (log : SO3 → Fin 3 → ℝ) (h1 : ∀ g, expR (log g) = g) (h2 : ∀ g, ang (Joints.ext (log g)) ≤ Real.pi) : Normed (ball log h1 h2) where
  nrm v := ang (Joints.ext v)
  nonneg v := ang_nonneg _
  smul s v := ang_smul s v
  zero v h := ang_zero h
  part g c h0 h1' := by
    show ang (Joints.ext (c • log g)) < Real.pi
    rw [ang_smul, abs_of_nonneg h0]
    nlinarith [Real.pi_pos, ang_nonneg (Joints.ext (log g)), h2 g]

noncomputable def theBallN : Normed theBall := ballN _ _ _

/-! ## A base that translates, with two arms: one on a rotation, one on a ball joint -/

namespace Arms
open scoped Quaternion

theorem rot_neg (q x : ℍ[ℝ]) : rot (-q) x = rot q x := by simp [rot]

/-- First coordinate of the tip of the second arm with respect to the base. -/
noncomputable def tip : SO3 → ℝ := Quotient.lift (fun q : U => (rot q qi).imI) (by
  intro a b hab
  have h : (QuotientGroup.mk a : SO3) = QuotientGroup.mk b := Quotient.sound hab
  rcases (mk_eq a b).1 h with e | e
  · show (rot (a : ℍ[ℝ]) qi).imI = (rot (b : ℍ[ℝ]) qi).imI
    rw [e]
  · show (rot (a : ℍ[ℝ]) qi).imI = (rot (b : ℍ[ℝ]) qi).imI
    rw [e, rot_neg])

theorem imI_le (x : ℍ[ℝ]) : |x.imI| ≤ ‖x‖ := by
  have h : ‖x‖ * ‖x‖ = x.re ^ 2 + x.imI ^ 2 + x.imJ ^ 2 + x.imK ^ 2 := by rw [← Quaternion.normSq_eq_norm_mul_self, Quaternion.normSq_def']
  refine abs_le_of_sq_le_sq ?_ (norm_nonneg _)
  nlinarith [sq_nonneg x.re, sq_nonneg x.imJ, sq_nonneg x.imK]

theorem tip_lip (g : SO3) (l : Fin 3 → ℝ) (u v : ℝ) : |tip (g * expR (u • l)) - tip (g * expR (v • l))| ≤ ang (Joints.ext l) * |u - v| := by
  induction g using QuotientGroup.induction_on with
  | _ q =>
    have e : ∀ s : ℝ, tip ((QuotientGroup.mk q : SO3) * expR (s • l)) = (rot (integrateSO3 (q : ℍ[ℝ]) (Joints.ext (s • l))) qi).imI := fun s => rfl
    rw [e, e, ← Quaternion.imI_sub]
    refine (imI_le _).trans ((integrate_sub (q : ℍ[ℝ]) (norm_U q) _ _ qi).trans (le_of_eq ?_))
    rw [qi_norm, mul_one, mul_comm, ← ang_smul]
    unfold dist3
    congr 1
    funext d
    rw [sub_smul]
    unfold Joints.ext
    split <;> simp

noncomputable def norms : (i : Fin 3) → Normed (mixed i)
  | 0 => lineN
  | 1 => circleN
  | 2 => theBallN

abbrev Q := Config mixed

/-- Position of the base, angle of the first arm, orientation of the second. -/
noncomputable def base (q : Q) : ℝ := Multiplicative.toAdd (show Multiplicative ℝ from q 0)
noncomputable def angle (q : Q) : Real.Angle := Multiplicative.toAdd (show Multiplicative Real.Angle from q 1)
def orient (q : Q) : SO3 := q 2

/-- Distances of the tips to the half-space of first coordinate at most -5. -/
noncomputable def first : Obj ℝ Q := ⟨fun q => base q + (angle q).cos + 5, fun q => open Classical in if 0 < base q + (angle q).cos + 5 then some (base q + (angle q).cos + 5) else none⟩
noncomputable def second : Obj ℝ Q := ⟨fun q => base q + tip (orient q) + 5, fun q => open Classical in if 0 < base q + tip (orient q) + 5 then some (base q + tip (orient q) + 5) else none⟩

noncomputable def pairs : List (BodyPair ℝ Q (Fin 3)) := [⟨[first], ![1, 1, 0], 1 / 100⟩, ⟨[second], ![1, 0, 1], 1 / 100⟩]

/-- The base stays between -20 and 20. -/
noncomputable def inside (q : Q) : Bool := open Classical in decide (-20 ≤ base q ∧ base q ≤ 20)

noncomputable def problem (m : Mode) : World ℝ Q (Fin 3) := world mixed norms (fun a b => ∑ j, move mixed norms a b j) pairs m (1 / 20) (some inside) (fun _ => 1)

theorem move_nonneg (a b : Q) (j : Fin 3) : 0 ≤ move mixed norms a b j := (norms j).nonneg _

theorem base_interp (a b : Q) (u : ℝ) : base ((robot mixed).interp a b u) = base a + u * (base b - base a) := by
  show base a + u * (-base a + base b) = _
  ring

theorem ok (m : Mode) : (problem m).Ok := by
  refine world_ok _ _ _ _ _ _ ?_ ?_ ?_ ?_ ?_ ?_ ?_
  · exact fun a b => Finset.sum_nonneg fun j _ => move_nonneg a b j
  · intro a b h
    funext j
    have := (Finset.sum_eq_zero_iff_of_nonneg fun j _ => move_nonneg a b j).1 h j (Finset.mem_univ j)
    have e := (mixed j).exp_log ((a j)⁻¹ * b j)
    rw [(norms j).zero _ this, (mixed j).exp_zero] at e
    exact (inv_mul_eq_one.1 e.symm)
  · intro _ c hc
    simp only [pairs, List.mem_cons, List.not_mem_nil, or_false] at hc
    rcases hc with rfl | rfl <;> norm_num
  · intro c hc j
    simp only [pairs, List.mem_cons, List.not_mem_nil, or_false] at hc
    rcases hc with rfl | rfl <;> fin_cases j <;> norm_num
  · intro c hc o ho q d h
    simp only [pairs, List.mem_cons, List.not_mem_nil, or_false] at hc
    rcases hc with rfl | rfl
    · obtain rfl := List.mem_singleton.1 ho
      simp only [first] at h ⊢
      split at h
      · next h1 => obtain rfl := Option.some.inj h; exact ⟨h1, le_rfl⟩
      · cases h
    · obtain rfl := List.mem_singleton.1 ho
      simp only [second] at h ⊢
      split at h
      · next h1 => obtain rfl := Option.some.inj h; exact ⟨h1, le_rfl⟩
      · cases h
  · intro c hc o ho a b u v _ _ _ _
    have hb : |base ((robot mixed).interp a b u) - base ((robot mixed).interp a b v)| ≤ |move mixed norms a b 0| * |u - v| := by
      rw [base_interp, base_interp, show base a + u * (base b - base a) - (base a + v * (base b - base a)) = (base b - base a) * (u - v) by ring, abs_mul]
      have : move mixed norms a b 0 = |base b - base a| := by
        show |(-base a + base b)| = _
        congr 1; ring
      rw [this, abs_abs]
    simp only [pairs, List.mem_cons, List.not_mem_nil, or_false] at hc
    rcases hc with rfl | rfl
    · obtain rfl := List.mem_singleton.1 ho
      have hθ : |(angle ((robot mixed).interp a b u)).cos - (angle ((robot mixed).interp a b v)).cos| ≤ |move mixed norms a b 1| * |u - v| := by
        have e : ∀ s : ℝ, (angle ((robot mixed).interp a b s)).cos = Real.cos ((angle a).toReal + s * (-angle a + angle b).toReal) := by
          intro s
          rw [← Real.Angle.cos_coe, Real.Angle.coe_add, Real.Angle.coe_toReal]
          rfl
        rw [e, e]
        refine (Real.abs_cos_sub_cos_le _ _).trans (le_of_eq ?_)
        rw [show (angle a).toReal + u * (-angle a + angle b).toReal - ((angle a).toReal + v * (-angle a + angle b).toReal) = (-angle a + angle b).toReal * (u - v) by ring, abs_mul]
        have : move mixed norms a b 1 = |(-angle a + angle b).toReal| := rfl
        rw [this, abs_abs]
      simp only [first, Fin.sum_univ_three, Matrix.cons_val_zero, Matrix.cons_val_one, Matrix.cons_val, one_mul, zero_mul, add_zero]
      rw [add_mul]
      refine le_trans (le_of_eq ?_) ((abs_add_le _ _).trans (add_le_add hb hθ))
      congr 1; ring
    · obtain rfl := List.mem_singleton.1 ho
      have hR : |tip (orient ((robot mixed).interp a b u)) - tip (orient ((robot mixed).interp a b v))| ≤ |move mixed norms a b 2| * |u - v| := by
        refine (tip_lip (orient a) (theBall.log ((orient a)⁻¹ * orient b : SO3)) u v).trans (le_of_eq ?_)
        rw [abs_of_nonneg (move_nonneg a b 2)]
        rfl
      simp only [second, Fin.sum_univ_three, Matrix.cons_val_zero, Matrix.cons_val_one, Matrix.cons_val, one_mul, zero_mul, add_zero]
      rw [add_mul]
      refine le_trans (le_of_eq ?_) ((abs_add_le _ _).trans (add_le_add hb hR))
      congr 1; ring
  · intro _
    refine ⟨by norm_num, fun _ => zero_le_one, fun a b j => ?_, ?_⟩
    · rw [abs_of_nonneg (move_nonneg a b j), one_mul]
      exact Finset.single_le_sum (f := fun j => move mixed norms a b j) (fun j _ => move_nonneg a b j) (Finset.mem_univ j)
    · intro f hf a b u v w h0 h1 h2 h3 hu hv
      obtain rfl : inside = f := Option.some.inj hf
      simp only [inside, decide_eq_true_eq, base_interp] at hu hv ⊢
      rcases le_total 0 (base b - base a) with h | h
      · exact ⟨by nlinarith, by nlinarith⟩
      · exact ⟨by nlinarith, by nlinarith⟩

/-- Everywhere at the origin. -/
noncomputable def origin : Q := fun _ => 1

theorem base_origin : base origin = 0 := rfl

theorem tip_ge (g : SO3) : -1 ≤ tip g := by
  induction g using QuotientGroup.induction_on with
  | _ q =>
    have h : tip (QuotientGroup.mk q : SO3) = (rot (q : ℍ[ℝ]) qi).imI := rfl
    have h1 : ‖rot (q : ℍ[ℝ]) qi‖ = 1 := by
      unfold rot
      rw [norm_mul, norm_mul, qi_norm, Quaternion.norm_star, norm_U q]
      norm_num
    have := imI_le (rot (q : ℍ[ℝ]) qi)
    rw [h1] at this
    rw [h]
    exact (abs_le.1 this).1

/-- Where the base is in front of the wall, nothing touches it. -/
theorem free_front (m : Mode) (q : Q) (h0 : 0 ≤ base q) (h1 : base q ≤ 20) : (problem m).Free q := by
  refine ⟨fun _ f hf => ?_, fun c hc o ho => ?_⟩
  · obtain rfl : inside = f := Option.some.inj hf
    simp only [inside, decide_eq_true_eq]
    exact ⟨by linarith, h1⟩
  · have hs : 0 ≤ (problem m).slack c := by
      have hc' : 0 ≤ c.tol ∧ ∀ j, 0 ≤ c.coef j := by
        simp only [problem, world, pairs, List.mem_cons, List.not_mem_nil, or_false] at hc
        rcases hc with rfl | rfl <;> refine ⟨by norm_num, fun j => ?_⟩ <;> fin_cases j <;> norm_num
      unfold World.slack
      split
      · exact mul_nonneg (Finset.sum_nonneg fun j _ => mul_nonneg (hc'.2 j) zero_le_one) (by norm_num [problem, world])
      · linarith [hc'.1]
    simp only [problem, world, pairs, List.mem_cons, List.not_mem_nil, or_false] at hc
    rcases hc with rfl | rfl
    · obtain rfl := List.mem_singleton.1 ho
      show _ ≤ base q + (angle q).cos + 5
      have : -1 ≤ (angle q).cos := by
        rw [← Real.Angle.coe_toReal (angle q), Real.Angle.cos_coe]; exact Real.neg_one_le_cos _
      linarith
    · obtain rfl := List.mem_singleton.1 ho
      show _ ≤ base q + tip (orient q) + 5
      linarith [tip_ge (orient q)]

theorem free (m : Mode) : (problem m).Free origin := free_front m origin base_origin.ge (by rw [base_origin]; norm_num)

theorem metric_self (m : Mode) (q : Q) : (problem m).metric q q = 0 := by
  show ∑ j, move mixed norms q q j = 0
  refine Finset.sum_eq_zero fun j _ => ?_
  show (norms j).nrm ((mixed j).log ((q j)⁻¹ * q j)) = 0
  rw [inv_mul_cancel, (norms j).log_one]
  simpa using (norms j).smul 0 0

/-- A straight path in front of the wall: what `C139_optimize` starts from. -/
theorem ahead (m : Mode) (q : Q) (h0 : 0 ≤ base q) (h1 : base q ≤ 20) : SafeVec (problem m) (ok m) origin q (pathVector [line (problem m) (ok m) origin q]) := by
  refine ⟨_, by simp, rfl, ⟨fun t t0 t1 => ?_, rfl⟩, ini_eq _, fin_eq _⟩
  have hB := (line (problem m) (ok m) origin q).2.1
  rcases hB.2.1.eq_or_lt with e | e
  · rw [conf_point _ hB e.symm]; exact free m
  · rw [conf_interp _ hB e]
    have u0 := div_nonneg t0 e.le
    have u1 := (div_le_one e).2 t1
    generalize t / _ = u at u0 u1
    have hb : base ((problem m).space.interp (line (problem m) (ok m) origin q).1.1.q0 (line (problem m) (ok m) origin q).1.1.q1 u) = u * base q := by
      refine (base_interp origin q u).trans ?_
      rw [base_origin]; ring
    exact free_front m _ (by rw [hb]; exact mul_nonneg u0 h0) (by rw [hb]; nlinarith)

/-- The assumptions of the theorems hold of this robot, for the three path validations. -/
example (m : Mode) : (problem m).Ok ∧ (problem m).Free origin := ⟨ok m, free m⟩

/-- Five rounds of random shortcuts, then the simple shortcut, on a straight path that turns the two wrists. -/
noncomputable def two (m : Mode) : List (Opt (problem m)) :=
  [.random (1 / 100) 5 (fun _ t0 t3 => some ((3 * t0 + t3) / 4, (t0 + 3 * t3) / 4)) (fun _ => false) 20, .simple fun _ _ => 0]

open Classical in
/-- `C139_optimize` applies to this robot: any goal in front of the wall, any angle and any orientation. -/
example (m : Mode) (q : Q) (h0 : 0 ≤ base q) (h1 : base q ≤ 20) {w : Vec ℝ Q (Line ℝ Q)}
    (hw : optimizeAll (problem m) (ok m) (two m) (pathVector [line (problem m) (ok m) origin q]) = some w) :
    Safe (problem m) (evalV (straightOps (problem m).space) w) w.tr.2 origin q := by
  refine C139_optimize (ok m) (metric_self m) (two m) (fun o ho => ?_) (ahead m q h0 h1) hw
  simp only [two, List.mem_cons, List.not_mem_nil, or_false] at ho
  rcases ho with rfl | rfl
  · refine ⟨by norm_num, fun it t0 t3 t1 t2 h hs => ?_⟩
    simp only [Option.some.injEq, Prod.mk.injEq] at hs
    obtain ⟨rfl, rfl⟩ := hs
    exact ⟨by linarith, by linarith, by linarith⟩
  · trivial

end Arms

end Verif.Turns
