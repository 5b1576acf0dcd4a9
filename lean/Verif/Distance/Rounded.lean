import Verif.Distance.Weighed
import Verif.AStar.Rounded
set_option linter.unusedSectionVars false

/-!
# Distances with floating-point arithmetic (C150)

The distance of `Verif.Distance.Weighed`, with each operation followed by a rounding, and what becomes of its properties and of those of its users.
-/
namespace Verif.Dist
open Verif.Rounding (Fl)

/-- `x'` is computed for `x` with relative errors `lo` and `hi`. -/
def Between (lo hi x' x : ℝ) : Prop := lo * x ≤ x' ∧ x' ≤ hi * x

/-! ## Model -/

/-- `squaredDistance` of the joints as it is computed, as a function of the square of the weight, and the squared norm computed for the extra degrees of freedom. -/
structure REnv (C : Type) where
  joints : List (ℝ → C → C → ℝ)
  extra : C → C → ℝ

/-- The loop over the joints: weighed-distance.cc:280-286. -/
def sumJointsR {C : Type} (F : Fl ℝ) (q1 q2 : C) : List (ℝ → C → C → ℝ) → List ℝ → ℝ → Option ℝ
  | [], _, res => some res
  | _ :: _, [], _ => none
  | j :: js, w :: ws, res => sumJointsR F q1 q2 js ws (F.rnd (res + j (F.rnd (w * w)) q1 q2))

/-- `impl_distance`: weighed-distance.cc:271-289, for finite weights. -/
noncomputable def distanceR {C : Type} (F : Fl ℝ) (e : REnv C) (ws : List ℝ) (q1 q2 : C) : Option ℝ :=
  match sumJointsR F q1 q2 e.joints ws 0 with
  | none => none
  | some res => some (F.rnd (√(F.rnd (res + e.extra q1 q2))))

/-- Squared norm of a difference, coordinate by coordinate: `(q1 - q2).squaredNorm()`, weighed-distance.cc:287 (and `squaredDistance` of hpp-pinocchio for the
joints that translate).  Simplification: Eigen may add the terms in another order. -/
def sqNormR (F : Fl ℝ) : List (ℝ × ℝ) → ℝ → ℝ
  | [], acc => acc
  | (x, y) :: l, acc => sqNormR F l (F.rnd (acc + F.rnd (F.rnd (x - y) * F.rnd (x - y))))

/-! ## Errors -/

theorem rnd_between (F : Fl ℝ) {x : ℝ} (hx : 0 ≤ x) : Between (1 - F.u) (1 + F.u) (F.rnd x) x := by
  have := F.err x
  rw [abs_of_nonneg hx] at this
  obtain ⟨h1, h2⟩ := abs_le.1 this
  constructor <;> linarith

theorem Between.nonneg {lo hi x' x : ℝ} (h : Between lo hi x' x) (hlo : 0 ≤ lo) (hx : 0 ≤ x) : 0 ≤ x' := (mul_nonneg hlo hx).trans h.1

theorem Between.trans {lo hi lo' hi' x'' x' x : ℝ} (h : Between lo hi x'' x') (h' : Between lo' hi' x' x) (h0 : 0 ≤ lo) (h1 : 0 ≤ hi) : Between (lo * lo') (hi * hi') x'' x := by
  constructor
  · rw [mul_assoc]; exact (mul_le_mul_of_nonneg_left h'.1 h0).trans h.1
  · rw [mul_assoc]; exact h.2.trans (mul_le_mul_of_nonneg_left h'.2 h1)

theorem Between.weaken {lo hi lo' hi' x' x : ℝ} (h : Between lo hi x' x) (hx : 0 ≤ x) (h1 : lo' ≤ lo) (h2 : hi ≤ hi') : Between lo' hi' x' x :=
  ⟨(mul_le_mul_of_nonneg_right h1 hx).trans h.1, h.2.trans (mul_le_mul_of_nonneg_right h2 hx)⟩

theorem Between.add {lo hi x' x y' y : ℝ} (h : Between lo hi x' x) (h' : Between lo hi y' y) : Between lo hi (x' + y') (x + y) := by
  obtain ⟨h1, h2⟩ := h
  obtain ⟨h3, h4⟩ := h'
  constructor <;> linarith

/-- Square roots. -/
theorem Between.sqrt {lo hi x' x : ℝ} (h : Between lo hi x' x) (h0 : 0 ≤ lo) (h1 : lo ≤ 1) (h2 : 1 ≤ hi) : Between lo hi (√x') (√x) := by
  constructor
  · calc lo * √x ≤ √lo * √x := mul_le_mul_of_nonneg_right ((Real.le_sqrt h0 h0).2 (by nlinarith)) (Real.sqrt_nonneg _)
      _ = √(lo * x) := (Real.sqrt_mul h0 x).symm
      _ ≤ _ := Real.sqrt_le_sqrt h.1
  · calc √x' ≤ √(hi * x) := Real.sqrt_le_sqrt h.2
      _ = √hi * √x := Real.sqrt_mul (by linarith) x
      _ ≤ hi * √x := mul_le_mul_of_nonneg_right (by
          rw [Real.sqrt_le_left (by linarith)]
          nlinarith) (Real.sqrt_nonneg _)

/-- Bounds after `m` roundings of a quantity known up to `ε`. -/
def lo (u ε : ℝ) (m : Nat) : ℝ := (1 - ε) * (1 - u) ^ m
def hi (u ε : ℝ) (m : Nat) : ℝ := (1 + ε) * (1 + u) ^ m

/-- `x'` is `x` after `m` roundings and an error `ε`. -/
abbrev Near (u ε : ℝ) (m : Nat) (x' x : ℝ) : Prop := Between (lo u ε m) (hi u ε m) x' x

section
variable {u ε : ℝ}

theorem lo_nonneg (hu1 : u ≤ 1) (hε1 : ε ≤ 1) (m : Nat) : 0 ≤ lo u ε m := mul_nonneg (by linarith) (pow_nonneg (by linarith) _)
theorem lo_le (hu : 0 ≤ u) (hu1 : u ≤ 1) (hε : 0 ≤ ε) (m : Nat) : lo u ε m ≤ 1 := by
  have h := pow_le_one₀ (n := m) (show 0 ≤ 1 - u by linarith) (by linarith)
  have h0 : 0 ≤ (1 - u) ^ m := pow_nonneg (by linarith) _
  unfold lo
  nlinarith
theorem le_hi (hu : 0 ≤ u) (hε : 0 ≤ ε) (m : Nat) : 1 ≤ hi u ε m := by
  have h := one_le_pow₀ (n := m) (show 1 ≤ 1 + u by linarith)
  unfold hi
  nlinarith
theorem lo_anti (hu : 0 ≤ u) (hu1 : u ≤ 1) (hε1 : ε ≤ 1) {m m' : Nat} (h : m ≤ m') : lo u ε m' ≤ lo u ε m :=
  mul_le_mul_of_nonneg_left (pow_le_pow_of_le_one (by linarith) (by linarith) h) (by linarith)
theorem hi_mono (hu : 0 ≤ u) (hε : 0 ≤ ε) {m m' : Nat} (h : m ≤ m') : hi u ε m ≤ hi u ε m' :=
  mul_le_mul_of_nonneg_left (pow_le_pow_right₀ (by linarith) h) (by linarith)

theorem Near.weaken (hu : 0 ≤ u) (hu1 : u ≤ 1) (hε : 0 ≤ ε) (hε1 : ε ≤ 1) {m m' : Nat} (hm : m ≤ m') {x' x : ℝ} (h : Near u ε m x' x) (hx : 0 ≤ x) : Near u ε m' x' x :=
  Between.weaken h hx (lo_anti hu hu1 hε1 hm) (hi_mono hu hε hm)

theorem Near.rnd (F : Fl ℝ) (hu1 : F.u ≤ 1) (hε1 : ε ≤ 1) {m : Nat} {x' x : ℝ} (h : Near F.u ε m x' x) (hx : 0 ≤ x) : Near F.u ε (m + 1) (F.rnd x') x := by
  have hx' := Between.nonneg h (lo_nonneg hu1 hε1 m) hx
  have := (rnd_between F hx').trans h (by linarith) (by linarith [F.u0])
  have e1 : lo F.u ε (m + 1) = (1 - F.u) * lo F.u ε m := by unfold lo; ring
  have e2 : hi F.u ε (m + 1) = (1 + F.u) * hi F.u ε m := by unfold hi; ring
  unfold Near
  rw [e1, e2]
  exact this

end

/-! ## Specification -/

/-- The squared distances of the joints and of the extra degrees of freedom are computed with a relative error `ε`. -/
structure Accurate {C : Type} {n : Nat} (ε : ℝ) (e : DEnv C n) (r : REnv C) : Prop where
  joints : List.Forall₂ (fun j j' => ∀ w, 0 ≤ w → ∀ a b, Between (1 - ε) (1 + ε) (j' w a b) (j w a b)) e.joints r.joints
  extra : ∀ a b, Between (1 - ε) (1 + ε) (r.extra a b) (∑ i, (e.extra a i - e.extra b i) ^ 2)

/-- What is computed does not depend on the order of the configurations, and vanishes when they are the same. -/
structure Symmetric {C : Type} (r : REnv C) : Prop where
  joints : ∀ j ∈ r.joints, ∀ w a b, j w a b = j w b a
  self : ∀ j ∈ r.joints, ∀ w a, j w a a = 0
  extra : ∀ a b, r.extra a b = r.extra b a
  extraSelf : ∀ a, r.extra a a = 0

theorem sum_near {C : Type} (F : Fl ℝ) (hu1 : F.u ≤ 1) {ε : ℝ} (hε : 0 ≤ ε) (hε1 : ε ≤ 1) (a b : C) {js js' : List (ℝ → C → C → ℝ)} {l : List ((C → C → ℝ) × (C → C → ℝ))}
    (hl : JointsOk js l) (h : List.Forall₂ (fun j j' => ∀ w, 0 ≤ w → ∀ a b, Between (1 - ε) (1 + ε) (j' w a b) (j w a b)) js js') (ws : List ℝ) (m : Nat) (acc' acc : ℝ)
    (h0 : 0 ≤ acc) (ha : Near F.u ε (m + 1) acc' acc) (res : ℝ) (hres : sumJoints a b js ws acc = some res) :
    0 ≤ res ∧ ∃ res', sumJointsR F a b js' ws acc' = some res' ∧ Near F.u ε (m + 1 + js.length) res' res := by
  have hu := F.u0
  induction h generalizing l ws m acc acc' with
  | nil =>
    rw [sumJoints] at hres
    obtain rfl := Option.some.inj hres
    exact ⟨h0, acc', rfl, ha⟩
  | @cons j j' js js' hj hjs ih =>
    cases hl with
    | @cons _ ρ σ _ l hok hl =>
      cases ws with
      | nil => rw [sumJoints] at hres; simp at hres
      | cons w ws =>
        rw [sumJoints] at hres
        obtain ⟨_, _, hjw⟩ := hok
        have hw0 : 0 ≤ w * w := mul_self_nonneg w
        have hr0 : 0 ≤ F.rnd (w * w) := F.nonneg hw0
        have hj0 : 0 ≤ j (w * w) a b := by rw [hjw]; positivity
        have t1 := hj _ hr0 a b
        have t2 : Between (1 - F.u) (1 + F.u) (j (F.rnd (w * w)) a b) (j (w * w) a b) := by
          obtain ⟨k1, k2⟩ := rnd_between F hw0
          rw [hjw, hjw]
          have p1 : 0 ≤ ρ a b ^ 2 := sq_nonneg _
          have p2 : 0 ≤ σ a b ^ 2 := sq_nonneg _
          constructor
          · nlinarith [mul_le_mul_of_nonneg_right k1 p2]
          · nlinarith [mul_le_mul_of_nonneg_right k2 p2]
        have t3 : Near F.u ε 1 (j' (F.rnd (w * w)) a b) (j (w * w) a b) := by
          have := t1.trans t2 (by linarith) (by linarith)
          simpa [Near, lo, hi] using this
        have t4 := (Near.weaken hu hu1 hε hε1 (show 1 ≤ m + 1 by omega) t3 hj0)
        have t5 : Near F.u ε (m + 1) (acc' + j' (F.rnd (w * w)) a b) (acc + j (w * w) a b) := Between.add ha t4
        have t6 := Near.rnd F hu1 hε1 t5 (by positivity)
        obtain ⟨k1, res', k2, k3⟩ := ih hl ws (m + 1) _ _ (by positivity) t6 hres
        refine ⟨k1, res', by rw [sumJointsR]; exact k2, ?_⟩
        rw [List.length_cons]
        have : m + 1 + (js.length + 1) = m + 1 + 1 + js.length := by omega
        rw [this]
        exact k3

/-- **C150 (error).**  The distance computed is defined when the exact one is, and is the exact distance up to a relative error: that of the squared distances of the joints, and one rounding per joint plus three. -/
theorem C150_error {C : Type} {n : Nat} (F : Fl ℝ) (hu1 : F.u ≤ 1) {ε : ℝ} (hε : 0 ≤ ε) (hε1 : ε ≤ 1) (e : DEnv C n) (l : List ((C → C → ℝ) × (C → C → ℝ))) (he : JointsOk e.joints l)
    (r : REnv C) (hr : Accurate ε e r) (ws : List ℝ) (a b : C) (d : ℝ) (hd : distance e ws a b = some d) :
    ∃ d', distanceR F r ws a b = some d' ∧ (1 - ε) * (1 - F.u) ^ (e.joints.length + 3) * d ≤ d' ∧ d' ≤ (1 + ε) * (1 + F.u) ^ (e.joints.length + 3) * d := by
  have hu := F.u0
  unfold distance at hd
  cases hs : sumJoints a b e.joints ws 0 with
  | none => rw [hs] at hd; simp at hd
  | some res =>
    rw [hs] at hd
    obtain rfl := Option.some.inj hd
    obtain ⟨h0, res', h1, h2⟩ := sum_near F hu1 hε hε1 a b he hr.joints ws 0 0 0 le_rfl (by simp [Near, Between]) res hs
    have hx : 0 ≤ ∑ i, (e.extra a i - e.extra b i) ^ 2 := Finset.sum_nonneg fun i _ => sq_nonneg _
    have t1 : Near F.u ε 0 (r.extra a b) (∑ i, (e.extra a i - e.extra b i) ^ 2) := by
      simpa [Near, lo, hi] using hr.extra a b
    have t2 := Near.weaken hu hu1 hε hε1 (show 0 ≤ 0 + 1 + e.joints.length by omega) t1 hx
    have t3 := Near.rnd F hu1 hε1 (show Near F.u ε (0 + 1 + e.joints.length) (res' + r.extra a b) (res + ∑ i, (e.extra a i - e.extra b i) ^ 2) from Between.add h2 t2) (by positivity)
    have t4 : Near F.u ε (0 + 1 + e.joints.length + 1) (√(F.rnd (res' + r.extra a b))) (√(res + ∑ i, (e.extra a i - e.extra b i) ^ 2)) :=
      Between.sqrt t3 (lo_nonneg hu1 hε1 _) (lo_le hu hu1 hε _) (le_hi hu hε _)
    have t5 := Near.rnd F hu1 hε1 t4 (Real.sqrt_nonneg _)
    refine ⟨_, by unfold distanceR; rw [h1], ?_⟩
    have : 0 + 1 + e.joints.length + 1 + 1 = e.joints.length + 3 := by omega
    rw [this] at t5
    exact t5

/-- Ratio of the bounds of the relative error for `k` joints. -/
noncomputable def spread (u ε : ℝ) (k : Nat) : ℝ := (1 + ε) * (1 + u) ^ (k + 3) / ((1 - ε) * (1 - u) ^ (k + 3))

theorem spread_ge {u ε : ℝ} (hu : 0 ≤ u) (hu1 : u < 1) (hε : 0 ≤ ε) (hε1 : ε < 1) (k : Nat) : 1 ≤ spread u ε k := by
  unfold spread
  have h1 := le_hi hu hε (k + 3)
  have h2 := lo_le hu hu1.le hε (k + 3)
  unfold hi at h1
  unfold lo at h2
  have h3 : 0 < (1 - ε) * (1 - u) ^ (k + 3) := mul_pos (by linarith) (pow_pos (by linarith) _)
  rw [le_div_iff₀ h3]
  linarith

/-- The sum of the joints does not depend on the order of the configurations. -/
theorem sumJointsR_symm {C : Type} (F : Fl ℝ) (a b : C) (js : List (ℝ → C → C → ℝ)) (h : ∀ j ∈ js, ∀ w a b, j w a b = j w b a) (ws : List ℝ) (acc : ℝ) :
    sumJointsR F a b js ws acc = sumJointsR F b a js ws acc := by
  induction js generalizing ws acc with
  | nil => rfl
  | cons j js ih =>
    cases ws with
    | nil => rfl
    | cons w ws =>
      rw [sumJointsR, sumJointsR, h j (by simp) _ a b]
      exact ih (fun j hj => h j (by simp [hj])) _ _

theorem sumJointsR_self {C : Type} (F : Fl ℝ) (a : C) (js : List (ℝ → C → C → ℝ)) (h : ∀ j ∈ js, ∀ w a, j w a a = 0) (ws : List ℝ) (hw : js.length ≤ ws.length) :
    sumJointsR F a a js ws 0 = some 0 := by
  induction js generalizing ws with
  | nil => rfl
  | cons j js ih =>
    cases ws with
    | nil => simp at hw
    | cons w ws =>
      rw [sumJointsR, h j (by simp) _ a, add_zero, F.zero]
      exact ih (fun j hj => h j (by simp [hj])) _ (by simpa using hw)

/-- **C150 (metric).**  The distance computed is defined, non negative, null between equal configurations, exactly symmetric, null only where the exact distance is null, within a factor `spread` of the exact distance, and satisfies the triangle inequality up to this factor. -/
theorem C150_metric {C : Type} {n : Nat} (F : Fl ℝ) (hu1 : F.u < 1) {ε : ℝ} (hε : 0 ≤ ε) (hε1 : ε < 1) (e : DEnv C n) (l : List ((C → C → ℝ) × (C → C → ℝ))) (he : JointsOk e.joints l)
    (r : REnv C) (hr : Accurate ε e r) (hs : Symmetric r) (ws : List ℝ) (hw : e.joints.length ≤ ws.length) :
    ∃ d d' : C → C → ℝ, (∀ a b, distance e ws a b = some (d a b)) ∧ (∀ a b, distanceR F r ws a b = some (d' a b)) ∧
      (∀ a b, 0 ≤ d' a b) ∧ (∀ a, d' a a = 0) ∧ (∀ a b, d' a b = d' b a) ∧ (∀ a b, d' a b = 0 → d a b = 0) ∧
      (∀ a b c, d' a c ≤ spread F.u ε e.joints.length * (d' a b + d' b c)) ∧
      ∀ a b a' b', d' a b ≤ d' a' b' → d a b ≤ spread F.u ε e.joints.length * d a' b' := by
  obtain ⟨d, h1, h2, _⟩ := C59_distance e l he ws hw
  have hk := fun a b => C150_error F hu1.le hε hε1.le e l he r hr ws a b (d a b) (h1 a b)
  choose d' k1 k2 k3 using hk
  have hl : 0 < (1 - ε) * (1 - F.u) ^ (e.joints.length + 3) := mul_pos (by linarith) (pow_pos (by linarith) _)
  have hh : 0 < (1 + ε) * (1 + F.u) ^ (e.joints.length + 3) := mul_pos (by linarith) (pow_pos (by linarith [F.u0]) _)
  have hlen : r.joints.length = e.joints.length := hr.joints.length_eq.symm
  have back : ∀ a b, d a b ≤ d' a b / ((1 - ε) * (1 - F.u) ^ (e.joints.length + 3)) := by
    intro a b
    rw [le_div_iff₀ hl]
    linarith [k2 a b]
  refine ⟨d, d', h1, k1, fun a b => (mul_nonneg hl.le (h2.nonneg a b)).trans (k2 a b), fun a => ?_, fun a b => ?_, fun a b h0 => ?_, fun a b c => ?_, fun a b a' b' hle => ?_⟩
  · have := k1 a a
    unfold distanceR at this
    rw [sumJointsR_self F a r.joints hs.self ws (by rw [hlen]; exact hw)] at this
    have := Option.some.inj this
    rw [hs.extraSelf, add_zero, F.zero, Real.sqrt_zero, F.zero] at this
    exact this.symm
  · have e1 := k1 a b
    have e2 := k1 b a
    unfold distanceR at e1 e2
    rw [sumJointsR_symm F a b r.joints hs.joints, hs.extra a b, e2] at e1
    exact (Option.some.inj e1).symm
  · have := k2 a b
    rw [h0] at this
    have h3 := h2.nonneg a b
    nlinarith
  · have t := h2.tri a b c
    calc d' a c ≤ _ := k3 a c
      _ ≤ (1 + ε) * (1 + F.u) ^ (e.joints.length + 3) * (d a b + d b c) := mul_le_mul_of_nonneg_left t hh.le
      _ ≤ (1 + ε) * (1 + F.u) ^ (e.joints.length + 3) * (d' a b / ((1 - ε) * (1 - F.u) ^ (e.joints.length + 3)) + d' b c / ((1 - ε) * (1 - F.u) ^ (e.joints.length + 3))) :=
        mul_le_mul_of_nonneg_left (add_le_add (back a b) (back b c)) hh.le
      _ = _ := by unfold spread; ring
  · calc d a b ≤ _ := back a b
      _ ≤ (1 + ε) * (1 + F.u) ^ (e.joints.length + 3) * d a' b' / ((1 - ε) * (1 - F.u) ^ (e.joints.length + 3)) := div_le_div_of_nonneg_right (hle.trans (k3 a' b')) hl.le
      _ = _ := by unfold spread; ring

/-! ## Users of the distance -/

/-- **C150 (nearest node).**  In the roadmap obtained by any history, the node returned by `nearestNode` is at an exact distance of the configuration that exceeds the exact distance of any other node by a factor at most `spread`, in both directions. -/
theorem C150_nearest {C P : Type} [DecidableEq C] {n : Nat} (F : Fl ℝ) (hu1 : F.u < 1) {ε : ℝ} (hε : 0 ≤ ε) (hε1 : ε < 1) (e : DEnv C n) (l : List ((C → C → ℝ) × (C → C → ℝ)))
    (he : JointsOk e.joints l) (r : REnv C) (hr : Accurate ε e r) (hs : Symmetric r) (ws : List ℝ) (hw : e.joints.length ≤ ws.length)
    (E : Roadmap.Env C P ℝ) (hE : ∀ a b, some (E.dist a b) = distanceR F r ws a b) (os : List (Roadmap.Op C P)) (rm : Roadmap.Roadmap C P)
    (hrm : Roadmap.run E Roadmap.empty os = .ok rm) (q : C) (rev : Bool) (hne : rm.configs ≠ []) :
    ∃ m k c dc, Roadmap.nearestNode E rm q rev = some (m, k) ∧ rm.configs[k]? = some c ∧ distance e ws c q = some dc ∧
      ∀ y ∈ rm.configs, ∃ dy, distance e ws y q = some dy ∧ dc ≤ spread F.u ε e.joints.length * dy := by
  obtain ⟨d, d', h1, h2, h3, h4, h5, h6, h7, h8⟩ := C150_metric F hu1 hε hε1 e l he r hr hs ws hw
  have hd : ∀ a b, E.dist a b = d' a b := fun a b => Option.some.inj ((hE a b).trans (h2 a b))
  obtain ⟨m, k, c, n1, n2, n3, n4⟩ := Roadmap.C15_nearestNode E os rm hrm q rev hne
  refine ⟨m, k, c, d c q, n1, n2, h1 c q, fun y hy => ⟨d y q, h1 y q, h8 c q y q ?_⟩⟩
  have := n4 y hy
  rw [n3, hd, hd, hd, hd, h5 q c, h5 q y] at this
  simpa using this

/-- **C150 (search of a path).**  In a roadmap whose edges are at least as long as the distance computed between their ends (straight paths have this distance as length), the computed length of the path vector returned by the search exceeds the
length of any chain of edges from the init node to a goal by a factor at most `(1 + u)² spread/(1 - u)` per edge of this chain.  As in C14 two edges between the same nodes in the same direction must have the same length. -/
theorem C150_search_partial {C P : Type} [DecidableEq C] {n : Nat} (F : Fl ℝ) (hu1 : F.u < 1) {ε : ℝ} (hε : 0 ≤ ε) (hε1 : ε < 1) (e : DEnv C n) (l : List ((C → C → ℝ) × (C → C → ℝ)))
    (he : JointsOk e.joints l) (r : REnv C) (hr : Accurate ε e r) (hs : Symmetric r) (ws : List ℝ) (hw : e.joints.length ≤ ws.length)
    (E : Roadmap.Env C P ℝ) (hE : ∀ a b, some (E.dist a b) = distanceR F r ws a b) (inf : ℝ) (hinf : ∀ a b, E.dist a b < inf) (os : List (Roadmap.Op C P)) (rm : Roadmap.Roadmap C P)
    (hrm : Roadmap.run E Roadmap.empty os = .ok rm) (i : Nat) (hi : rm.init = some i) (rng : P → ℝ × ℝ)
    (hlen : ∀ x ∈ rm.edges, ∀ a b, rm.configs[x.src]? = some a → rm.configs[x.dst]? = some b → E.dist a b ≤ Rounding.len F (rng x.path))
    (hpar : ∀ x ∈ rm.edges, ∀ x' ∈ rm.edges, x.src = x'.src → x.dst = x'.dst → Rounding.len F (rng x.path) = Rounding.len F (rng x'.path))
    (fuel : Nat) (hf : rm.configs.length + 1 ≤ fuel) (g : Nat) (es : List (Roadmap.Edge P))
    (h : AStar.solutionR (AStar.radd F) (AStar.ofRoadmap rm i (fun p => Rounding.len F (rng p)) (AStar.heuristic E.dist inf rm)) fuel = .path g es)
    (g' : Nat) (hg' : g' ∈ rm.goals) (p : List (Roadmap.Edge P)) (hp : AStar.Chain rm i p g') :
    Rounding.total F (es.map fun x => rng x.path) ≤
      ((1 + F.u) * (1 + F.u) * spread F.u ε e.joints.length / (1 - F.u)) ^ p.length * (p.map (fun x => Rounding.len F (rng x.path))).sum := by
  obtain ⟨d, d', h1, h2, h3, h4, h5, h6, h7, h8⟩ := C150_metric F hu1 hε hε1 e l he r hr hs ws hw
  have hd : ∀ a b, E.dist a b = d' a b := fun a b => Option.some.inj ((hE a b).trans (h2 a b))
  have := AStar.C149_distance_partial F hu1 E inf hinf (fun a b => by rw [hd]; exact h3 a b) (fun a => by rw [hd]; exact h4 a) (spread F.u ε e.joints.length - 1)
    (by linarith [spread_ge F.u0 hu1 hε hε1 e.joints.length]) (fun a b c => by rw [hd, hd, hd]; have := h7 a b c; linarith) os rm hrm i hi rng hlen hpar fuel hf g es h g' hg' p hp
  rwa [add_sub_cancel] at this

/-! ## Vectors -/

/-- **C150 (vectors).**  The squared norm of a difference of vectors of `m` coordinates is computed with `m + 3` roundings. -/
theorem C150_sqNorm (F : Fl ℝ) (hu1 : F.u ≤ 1) (l : List (ℝ × ℝ)) :
    (1 - F.u) ^ (l.length + 3) * (l.map fun p => (p.1 - p.2) ^ 2).sum ≤ sqNormR F l 0 ∧ sqNormR F l 0 ≤ (1 + F.u) ^ (l.length + 3) * (l.map fun p => (p.1 - p.2) ^ 2).sum := by
  have hu := F.u0
  have term : ∀ x y : ℝ, Near F.u 0 3 (F.rnd (F.rnd (x - y) * F.rnd (x - y))) ((x - y) ^ 2) := by
    intro x y
    refine Near.rnd F hu1 (by norm_num) (m := 2) ?_ (sq_nonneg _)
    have h := F.err (x - y)
    have k1 : F.rnd (x - y) * F.rnd (x - y) = |F.rnd (x - y)| ^ 2 := by rw [sq_abs]; ring
    have k2 : (x - y) ^ 2 = |x - y| ^ 2 := (sq_abs _).symm
    have k3 : |F.rnd (x - y)| ≤ (1 + F.u) * |x - y| := by
      have := abs_sub_abs_le_abs_sub (F.rnd (x - y)) (x - y)
      linarith
    have k4 : (1 - F.u) * |x - y| ≤ |F.rnd (x - y)| := by
      have := abs_sub_abs_le_abs_sub (x - y) (F.rnd (x - y))
      rw [abs_sub_comm (x - y) (F.rnd (x - y))] at this
      linarith
    have hp := abs_nonneg (x - y)
    rw [k1, k2]
    constructor
    · have := pow_le_pow_left₀ (mul_nonneg (by linarith) hp) k4 2
      unfold lo
      linarith [mul_pow (1 - F.u) (|x - y|) 2]
    · have := pow_le_pow_left₀ (abs_nonneg _) k3 2
      unfold hi
      linarith [mul_pow (1 + F.u) (|x - y|) 2]
  have gen : ∀ (l : List (ℝ × ℝ)) (m : Nat) (acc' acc : ℝ), 0 ≤ acc → Near F.u 0 (m + 3) acc' acc →
      Near F.u 0 (m + 3 + l.length) (sqNormR F l acc') (acc + (l.map fun p => (p.1 - p.2) ^ 2).sum) := by
    intro l
    induction l with
    | nil => intro m acc' acc _ h; simpa [sqNormR] using h
    | cons p l ih =>
      obtain ⟨x, y⟩ := p
      intro m acc' acc h0 h
      have t1 := Near.weaken hu hu1 le_rfl zero_le_one (show 3 ≤ m + 3 by omega) (term x y) (sq_nonneg _)
      have t2 := Near.rnd F hu1 zero_le_one (show Near F.u 0 (m + 3) (acc' + F.rnd (F.rnd (x - y) * F.rnd (x - y))) (acc + (x - y) ^ 2) from Between.add h t1) (by positivity)
      have t3 := ih (m + 1) (F.rnd (acc' + F.rnd (F.rnd (x - y) * F.rnd (x - y)))) (acc + (x - y) ^ 2) (by positivity) (by rw [show m + 1 + 3 = m + 3 + 1 by omega]; exact t2)
      rw [sqNormR, List.length_cons, List.map_cons, List.sum_cons, show m + 3 + (l.length + 1) = m + 1 + 3 + l.length by omega, ← add_assoc]
      exact t3
  have := gen l 0 0 0 le_rfl (by simp [Near, Between])
  rw [zero_add, zero_add, add_comm 3] at this
  simpa [Near, Between, lo, hi] using this

theorem sqNormR_swap (F : Fl ℝ) (hodd : ∀ x, F.rnd (-x) = -F.rnd x) (l : List (ℝ × ℝ)) (acc : ℝ) : sqNormR F (l.map fun p => (p.2, p.1)) acc = sqNormR F l acc := by
  induction l generalizing acc with
  | nil => rfl
  | cons p l ih =>
    obtain ⟨x, y⟩ := p
    rw [List.map_cons, sqNormR, sqNormR, ih]
    have : F.rnd (y - x) = -F.rnd (x - y) := by rw [← hodd, neg_sub]
    rw [this, neg_mul_neg]

/-! ## Robots whose joints are vector spaces

Prismatic joints, bounded revolute joints, translations: nothing is assumed on the joints of these robots. -/

/-- A joint with `k` coordinates; the weight applies to joints that rotate. -/
structure VJoint (C : Type) where
  rot : Bool
  k : Nat
  coord : C → Fin k → ℝ

/-- `squaredDistance` of the vector space operation of hpp-pinocchio (called at weighed-distance.cc:282-285). -/
def VJoint.sq {C : Type} (j : VJoint C) (w : ℝ) (a b : C) : ℝ := if j.rot then w * ∑ i, (j.coord a i - j.coord b i) ^ 2 else ∑ i, (j.coord a i - j.coord b i) ^ 2
/-- The same function as it is computed. -/
def VJoint.sqR {C : Type} (F : Fl ℝ) (j : VJoint C) (w : ℝ) (a b : C) : ℝ :=
  if j.rot then F.rnd (w * sqNormR F (List.ofFn fun i => (j.coord a i, j.coord b i)) 0) else sqNormR F (List.ofFn fun i => (j.coord a i, j.coord b i)) 0

def vEnv {C : Type} {n : Nat} (js : List (VJoint C)) (x : C → Fin n → ℝ) : DEnv C n := ⟨js.map VJoint.sq, x⟩
def vEnvR {C : Type} {n : Nat} (F : Fl ℝ) (js : List (VJoint C)) (x : C → Fin n → ℝ) : REnv C :=
  ⟨js.map (VJoint.sqR F), fun a b => sqNormR F (List.ofFn fun i => (x a i, x b i)) 0⟩

/-- Relative error of the joints with at most `m` coordinates. -/
noncomputable def vErr (u : ℝ) (m : Nat) : ℝ := (1 + u) ^ (m + 4) - 1

theorem pow_add_pow {u : ℝ} (hu : 0 ≤ u) (hu1 : u ≤ 1) (m : Nat) : 2 ≤ (1 + u) ^ m + (1 - u) ^ m := by
  induction m with
  | zero => norm_num
  | succ m ih =>
    have h1 := pow_le_pow_left₀ (show 0 ≤ 1 - u by linarith) (show 1 - u ≤ 1 + u by linarith) m
    rw [pow_succ, pow_succ]
    nlinarith

theorem between_err {u : ℝ} (hu : 0 ≤ u) (hu1 : u ≤ 1) {m M : Nat} (h : m ≤ M + 4) {x' x : ℝ} (hx : 0 ≤ x) (hb : Between ((1 - u) ^ m) ((1 + u) ^ m) x' x) : Between (1 - vErr u M) (1 + vErr u M) x' x := by
  have h1 := pow_add_pow hu hu1 (M + 4)
  have h2 : (1 - u) ^ (M + 4) ≤ (1 - u) ^ m := pow_le_pow_of_le_one (by linarith) (by linarith) h
  have h3 : (1 + u) ^ m ≤ (1 + u) ^ (M + 4) := pow_le_pow_right₀ (by linarith) h
  refine hb.weaken hx ?_ ?_ <;> unfold vErr <;> linarith

theorem sqNorm_fn (F : Fl ℝ) (hu1 : F.u ≤ 1) {k : Nat} (x y : Fin k → ℝ) :
    Between ((1 - F.u) ^ (k + 3)) ((1 + F.u) ^ (k + 3)) (sqNormR F (List.ofFn fun i => (x i, y i)) 0) (∑ i, (x i - y i) ^ 2) := by
  have := C150_sqNorm F hu1 (List.ofFn fun i => (x i, y i))
  rw [List.length_ofFn, List.map_ofFn, List.sum_ofFn] at this
  exact this

theorem sqNorm_self (F : Fl ℝ) {k : Nat} (x : Fin k → ℝ) : sqNormR F (List.ofFn fun i => (x i, x i)) 0 = 0 := by
  have gen : ∀ l : List (ℝ × ℝ), (∀ p ∈ l, p.1 = p.2) → sqNormR F l 0 = 0 := by
    intro l
    induction l with
    | nil => intro _; rfl
    | cons p l ih =>
      obtain ⟨a, b⟩ := p
      intro h
      have h1 := h (a, b) (by simp)
      simp only at h1
      rw [sqNormR, h1, sub_self, F.zero, mul_zero, F.zero, add_zero, F.zero]
      exact ih fun p hp => h p (by simp [hp])
  refine gen _ fun p hp => ?_
  obtain ⟨i, rfl⟩ := (List.mem_ofFn' _ _).1 hp
  rfl

theorem sqNorm_symm (F : Fl ℝ) (hodd : ∀ x, F.rnd (-x) = -F.rnd x) {k : Nat} (x y : Fin k → ℝ) :
    sqNormR F (List.ofFn fun i => (x i, y i)) 0 = sqNormR F (List.ofFn fun i => (y i, x i)) 0 := by
  rw [← sqNormR_swap F hodd (List.ofFn fun i => (x i, y i)), List.map_ofFn]
  rfl

/-- The joints have the form required by C59. -/
theorem vEnv_ok {C : Type} (js : List (VJoint C)) : ∃ l, JointsOk (js.map VJoint.sq) l := by
  have zero : Pseudo (fun _ _ : C => (0 : ℝ)) := ⟨fun _ _ => le_rfl, fun _ => rfl, fun _ _ => rfl, fun _ _ _ => by simp⟩
  induction js with
  | nil => exact ⟨[], .nil⟩
  | cons j js ih =>
    obtain ⟨l, hl⟩ := ih
    have hp := extra_pseudo j.k j.coord
    have hs : ∀ a b, √(∑ i, (j.coord a i - j.coord b i) ^ 2) ^ 2 = ∑ i, (j.coord a i - j.coord b i) ^ 2 := fun a b => Real.sq_sqrt (Finset.sum_nonneg fun i _ => sq_nonneg _)
    cases hr : j.rot with
    | true => exact ⟨_, .cons (ρ := fun _ _ => 0) (σ := fun a b => √(∑ i, (j.coord a i - j.coord b i) ^ 2)) ⟨zero, hp, fun w a b => by rw [hs, VJoint.sq, if_pos hr]; ring⟩ hl⟩
    | false => exact ⟨_, .cons (ρ := fun a b => √(∑ i, (j.coord a i - j.coord b i) ^ 2)) (σ := fun _ _ => 0) ⟨hp, zero, fun w a b => by rw [hs, VJoint.sq, hr]; simp⟩ hl⟩

/-- The contracts of `C150_metric` and `C150_nearest` hold for these robots. -/
theorem vEnv_accurate {C : Type} {n : Nat} (F : Fl ℝ) (hu1 : F.u ≤ 1) (js : List (VJoint C)) (x : C → Fin n → ℝ) (m : Nat) (hm : ∀ j ∈ js, j.k ≤ m) (hn : n ≤ m) :
    Accurate (vErr F.u m) (vEnv js x) (vEnvR F js x) := by
  have hu := F.u0
  constructor
  · show List.Forall₂ _ (js.map VJoint.sq) (js.map (VJoint.sqR F))
    induction js with
    | nil => exact .nil
    | cons j js ih =>
      refine .cons (fun w hw a b => ?_) (ih fun j hj => hm j (by simp [hj]))
      have hk := hm j (by simp)
      have h0 : 0 ≤ ∑ i, (j.coord a i - j.coord b i) ^ 2 := Finset.sum_nonneg fun i _ => sq_nonneg _
      have hb := sqNorm_fn F hu1 (j.coord a) (j.coord b)
      unfold VJoint.sq VJoint.sqR
      cases j.rot with
      | false => exact between_err hu hu1 (by omega) h0 hb
      | true =>
        have hb' : Between ((1 - F.u) ^ (j.k + 3)) ((1 + F.u) ^ (j.k + 3)) (w * sqNormR F (List.ofFn fun i => (j.coord a i, j.coord b i)) 0) (w * ∑ i, (j.coord a i - j.coord b i) ^ 2) := by
          obtain ⟨b1, b2⟩ := hb
          constructor
          · have := mul_le_mul_of_nonneg_left b1 hw; linarith
          · have := mul_le_mul_of_nonneg_left b2 hw; linarith
        have h0' := mul_nonneg hw h0
        have h1 := (rnd_between F (hb'.nonneg (pow_nonneg (by linarith) _) h0')).trans hb' (by linarith) (by linarith)
        rw [← pow_succ', ← pow_succ'] at h1
        exact between_err hu hu1 (by omega) h0' h1
  · intro a b
    exact between_err hu hu1 (by omega) (Finset.sum_nonneg fun i _ => sq_nonneg _) (sqNorm_fn F hu1 (x a) (x b))

theorem vEnv_symmetric {C : Type} {n : Nat} (F : Fl ℝ) (hodd : ∀ x, F.rnd (-x) = -F.rnd x) (js : List (VJoint C)) (x : C → Fin n → ℝ) : Symmetric (vEnvR F js x) := by
  constructor
  · intro f hf w a b
    obtain ⟨j, _, rfl⟩ := List.mem_map.1 hf
    simp only [VJoint.sqR, sqNorm_symm F hodd (j.coord a) (j.coord b)]
  · intro f hf w a
    obtain ⟨j, _, rfl⟩ := List.mem_map.1 hf
    simp only [VJoint.sqR, sqNorm_self, mul_zero, F.zero, ite_self]
  · intro a b
    exact sqNorm_symm F hodd _ _
  · intro a
    exact sqNorm_self F _

/-- **C150 (vector spaces).**  For robots whose joints are vector spaces of at most `m` coordinates and extra degrees of freedom, the computed distance is non negative, null between equal configurations, exactly symmetric, null only where the exact
distance is null, satisfies the triangle inequality up to the factor `spread` and orders the pairs of configurations as the exact distance does up to this factor.  Nothing is assumed but that the rounding is odd and accurate enough. -/
theorem C150_vector {C : Type} {n : Nat} (F : Fl ℝ) (hodd : ∀ x, F.rnd (-x) = -F.rnd x) (hu1 : F.u < 1) (js : List (VJoint C)) (x : C → Fin n → ℝ) (m : Nat) (hm : ∀ j ∈ js, j.k ≤ m) (hn : n ≤ m)
    (hε : vErr F.u m < 1) (ws : List ℝ) (hw : js.length ≤ ws.length) :
    ∃ d d' : C → C → ℝ, (∀ a b, distance (vEnv js x) ws a b = some (d a b)) ∧ (∀ a b, distanceR F (vEnvR F js x) ws a b = some (d' a b)) ∧
      (∀ a b, 0 ≤ d' a b) ∧ (∀ a, d' a a = 0) ∧ (∀ a b, d' a b = d' b a) ∧ (∀ a b, d' a b = 0 → d a b = 0) ∧
      (∀ a b c, d' a c ≤ spread F.u (vErr F.u m) js.length * (d' a b + d' b c)) ∧
      ∀ a b a' b', d' a b ≤ d' a' b' → d a b ≤ spread F.u (vErr F.u m) js.length * d a' b' := by
  obtain ⟨l, hl⟩ := vEnv_ok js
  have h0 : 0 ≤ vErr F.u m := by unfold vErr; linarith [one_le_pow₀ (n := m + 4) (show 1 ≤ 1 + F.u by linarith [F.u0])]
  have := C150_metric F hu1 h0 hε (vEnv js x) l hl (vEnvR F js x) (vEnv_accurate F hu1.le js x m hm hn) (vEnv_symmetric F hodd js x) ws (by simpa [vEnv] using hw)
  simpa [vEnv] using this

/-! ## Non-vacuity -/

/-- Real numbers rounded to 53 bits. -/
noncomputable def doubleR : Fl ℝ := Rounding.binary 53 (by norm_num)

theorem doubleR_odd (x : ℝ) : doubleR.rnd (-x) = -doubleR.rnd x := by
  show Rounding.binRnd 53 (-x) = -Rounding.binRnd 53 x
  unfold Rounding.binRnd
  rcases lt_trichotomy 0 x with h | h | h
  · rw [if_neg (by linarith), if_pos (by linarith), if_pos h, neg_neg]
  · subst h; simp
  · rw [if_pos (by linarith), if_neg (by linarith), if_pos h, neg_neg]

/-- A carriage that carries a turret: a prismatic joint, a bounded revolute joint, and one extra degree of freedom. -/
def turret : List (VJoint (Fin 3 → ℝ)) := [⟨false, 1, fun q _ => q 0⟩, ⟨true, 1, fun q _ => q 1⟩]

example : (∀ x, doubleR.rnd (-x) = -doubleR.rnd x) ∧ doubleR.u < 1 ∧ (∀ j ∈ turret, j.k ≤ 1) ∧ vErr doubleR.u 1 < 1 := by
  refine ⟨doubleR_odd, ?_, ?_, ?_⟩
  · show (2⁻¹ : ℝ) ^ 53 < 1; norm_num
  · intro j hj; simp only [turret, List.mem_cons, List.not_mem_nil, or_false] at hj; rcases hj with rfl | rfl <;> exact le_rfl
  · show (1 + (2⁻¹ : ℝ) ^ 53) ^ (1 + 4) - 1 < 1; norm_num

/-- With numbers of type `double` the distance of a robot with 60 degrees of freedom loses at most 10⁻¹³ of its value, and `nearestNode` at most 10⁻¹³ of the distance. -/
example : spread doubleR.u (vErr doubleR.u 1) 60 < 1 + 1 / 10 ^ 13 := by
  show (1 + ((1 + (2⁻¹ : ℝ) ^ 53) ^ (1 + 4) - 1)) * (1 + (2⁻¹ : ℝ) ^ 53) ^ (60 + 3) / ((1 - ((1 + (2⁻¹ : ℝ) ^ 53) ^ (1 + 4) - 1)) * (1 - (2⁻¹ : ℝ) ^ 53) ^ (60 + 3)) < 1 + 1 / 10 ^ 13
  rw [div_lt_iff₀ (by norm_num)]
  norm_num

open Classical in
/-- A roadmap that uses the distance computed for this robot meets the hypotheses of `C150_nearest`. -/
example : ∃ (E : Roadmap.Env (Fin 3 → ℝ) Unit ℝ) (rm : Roadmap.Roadmap (Fin 3 → ℝ) Unit),
    (∀ a b, some (E.dist a b) = distanceR doubleR (vEnvR doubleR turret fun q (_ : Fin 1) => q 2) [1, 2] a b) ∧ Roadmap.run E Roadmap.empty [.addNode 0] = .ok rm ∧ rm.configs ≠ [] := by
  obtain ⟨d, d', -, h, -⟩ := C150_vector doubleR doubleR_odd (show (2⁻¹ : ℝ) ^ 53 < 1 by norm_num) turret (fun q (_ : Fin 1) => q 2) 1
    (by intro j hj; simp only [turret, List.mem_cons, List.not_mem_nil, or_false] at hj; rcases hj with rfl | rfl <;> exact le_rfl) le_rfl
    (show (1 + (2⁻¹ : ℝ) ^ 53) ^ (1 + 4) - 1 < 1 by norm_num) [1, 2] (by simp [turret])
  exact ⟨⟨d', id, fun _ => false⟩, _, fun a b => (h a b).symm, rfl, by simp [Roadmap.pushNewNode, Roadmap.empty]⟩

end Verif.Dist
