import Verif.Planner.BiRRT
import Verif.Planner.KPrmStar
import Verif.Planner.Visibility
import Verif.Planner.BiRRTStarSolve
import Verif.ContinuousValidation.BodyPairs
import Verif.Validation.Discretized
import Verif.Path.Straight
import Verif.Path.VectorVelocity
import Verif.Path.VectorProps
import Mathlib.Algebra.Order.Floor.Semiring
import Mathlib.Data.Rat.Floor
import Mathlib.Data.Fintype.Pi
import Mathlib.Algebra.BigOperators.Fin
import Mathlib.Algebra.Order.BigOperators.Group.Finset
set_option linter.unusedSectionVars false

/-!
# From the planners to the absence of collision (C126)

The contracts of the planners (C66, C67) are assumptions on the steering method and on the path validation.  Here these calls are the models of the library
itself: straight paths of a vector space (C26), continuous validation, progressive or by dichotomy, with pairs of bodies (C31, C32, C34, C64), discretized
validation of joint bounds and collisions (C29, C30).  The contracts
are proved, and the statements of the planners become statements on the distances between bodies at every parameter of the path vector that is returned.

What remains assumed is external to the library: the collision library returns positive lower bounds of the distances, and distances vary no
faster than the sum of the displacements of the joints weighed by the coefficients of the pair (C55 for the coefficients).
-/
namespace Verif.EndToEnd
open Verif.PathV Verif.CV Verif.Planner

variable {K ι : Type} [Field K] [LinearOrder K] [IsStrictOrderedRing K] [FloorSemiring K] [Fintype ι]

/-- Two objects as functions of the configuration: signed distance (only in the specification) and answer of the collision library (`none`: collision). -/
structure Obj (K ι : Type) where
  dist : (ι → K) → K
  collide : (ι → K) → Option K

/-- A pair of bodies: body-pair-collision.hh; `coef`: coefficients of the joints between the two bodies (computeCoefficients), `tol`: tolerance. -/
structure BodyPair (K ι : Type) where
  objs : List (Obj K ι)
  coef : ι → K
  tol : K

/-- Path validations: "Dichotomy", "Progressive", and the discretized ones that check collisions ("Discretized" (the default), "DiscretizedCollision" and
"DiscretizedCollisionAndJointBound"): problem-solver.cc:119-127, 256-266. -/
inductive Mode where
  | dichotomy
  | progressive
  | discretized
  deriving DecidableEq

/-- A problem: distance, pairs of bodies, path validation; for the discretized one the step and, if joint bounds are checked also, the bounds of
the joints.  `vmax` is used in the specification only:
bounds of the displacement of each degree of freedom along a path of unit length. -/
structure Bench (K ι : Type) where
  metric : (ι → K) → (ι → K) → K
  pairs : List (BodyPair K ι)
  mode : Mode
  step : K
  bounds : Option ((ι → K) × (ι → K))
  vmax : ι → K

/-- What is assumed. -/
structure Bench.Ok (B : Bench K ι) : Prop where
  nonneg : ∀ a b, 0 ≤ B.metric a b
  zero : ∀ a b, B.metric a b = 0 → a = b
  tol : B.mode ≠ .discretized → ∀ c ∈ B.pairs, 0 < c.tol
  coef : ∀ c ∈ B.pairs, ∀ j, 0 ≤ c.coef j
  lower : ∀ c ∈ B.pairs, ∀ o ∈ c.objs, ∀ q d, o.collide q = some d → 0 < d ∧ d ≤ o.dist q
  lip : ∀ c ∈ B.pairs, ∀ o ∈ c.objs, ∀ a b, |o.dist a - o.dist b| ≤ ∑ j, c.coef j * |a j - b j|
  disc : B.mode = .discretized → 0 < B.step ∧ (∀ j, 0 ≤ B.vmax j) ∧ ∀ a b j, |b j - a j| ≤ B.vmax j * B.metric a b

/-- Specification: the penetration that is accepted.  Continuous validation: twice the tolerance; discretized validation: what the objects can move
in half a step. -/
def Bench.slack (B : Bench K ι) (c : BodyPair K ι) : K := if B.mode = .discretized then (∑ j, c.coef j * B.vmax j) * (B.step / 2) else 2 * c.tol

/-- Specification: no pair of objects penetrates more than accepted, and, with the discretized validation that checks them, joints are within their
bounds. -/
def Bench.Free (B : Bench K ι) (q : ι → K) : Prop :=
  (B.mode = .discretized → ∀ bd ∈ B.bounds, ∀ j, bd.1 j ≤ q j ∧ q j ≤ bd.2 j) ∧ ∀ c ∈ B.pairs, ∀ o ∈ c.objs, -B.slack c ≤ o.dist q

abbrev Line (K ι : Type) := Straight K (ι → K)

/-- Straight paths as built by the library without constraints: range from 0 to a length; null length only between equal configurations. -/
def Built (p : Line K ι) : Prop := p.pr.1 = 0 ∧ 0 ≤ p.pr.2 ∧ p.cons.isNone = true ∧ (p.pr.2 = 0 → p.q0 = p.q1)

instance (p : Line K ι) : Decidable (Built p) := inferInstanceAs (Decidable (p.pr.1 = 0 ∧ 0 ≤ p.pr.2 ∧ p.cons.isNone = true ∧ (p.pr.2 = 0 → p.q0 = p.q1)))

/-- Displacements along the path are bounded by its length (needed with the discretized validation only). -/
def Bench.Slow (B : Bench K ι) (p : Line K ι) : Prop := B.mode = .discretized → ∀ j, |p.q1 j - p.q0 j| ≤ B.vmax j * p.pr.2

instance (B : Bench K ι) (p : Line K ι) : Decidable (B.Slow p) := inferInstanceAs (Decidable (B.mode = .discretized → ∀ j, |p.q1 j - p.q0 j| ≤ B.vmax j * p.pr.2))

/-- The paths of the problem. -/
abbrev SP (B : Bench K ι) := { p : Line K ι // Built p ∧ B.Slow p }

/-- Configuration at parameter `t`. -/
def conf (p : Line K ι) (t : K) : ι → K := p.impl (vecSpace K ι) t

/-- `computeMaximalVelocity`: solid-solid-collision.cc:76-99 applied to `StraightPath::velocityBound`. -/
def speed (p : Line K ι) (c : BodyPair K ι) : K := ∑ j, c.coef j * p.velocityBound j

/-- The pair once the path is set: interval-validation.hh:84-90, body-pair-collision.cc:102-120. -/
def pairCfg (p : Line K ι) (c : BodyPair K ι) : PairCfg K :=
  ⟨c.objs.map fun o => ⟨fun t => o.collide (conf p t), fun t => o.dist (conf p t)⟩, fun _ _ => speed p c, c.tol, p.pr.1, p.pr.2, true⟩

def cfgs (B : Bench K ι) (p : Line K ι) : List (PairCfg K) := B.pairs.map (pairCfg p)

/-- Smallest tolerance and largest velocity, used only for the number of iterations. -/
def minTol (B : Bench K ι) : K := (B.pairs.map (·.tol)).foldr min 1
def maxVel (B : Bench K ι) (p : Line K ι) : K := (B.pairs.map (speed p)).sum + 1
def steps (B : Bench K ι) (p : Line K ι) : Nat := ⌈p.pr.2 / (2 * minTol B / maxVel B p)⌉₊

/-- Configuration validations of the discretized path validation: problem-solver.cc:119-127, discretized-collision-checking.cc:37-43, joint-bound-validation.cc:54-82, collision-validation.cc:60-88
(no pair is in collision). -/
def okConf (B : Bench K ι) (q : ι → K) : Bool :=
  B.bounds.all (fun bd => decide (∀ j, bd.1 j ≤ q j ∧ q j ≤ bd.2 j)) && B.pairs.all fun c => c.objs.all fun o => (o.collide q).isSome

/-- `PathValidation::validate` on a straight path: src/continuous-validation.cc:150-186 with one of the two loops, or src/path-validation/discretized.cc:55-107.  The
number of iterations is enough for the loop to end (`check_ok`). -/
def check (B : Bench K ι) (rev : Bool) (p : Line K ι) : Except PathV.Err (Bool × Line K ι × Option K × Nat) := match B.mode with
  | .dichotomy => dichotomy (straightOps (vecSpace K ι)) (cvQuery (fun _ => true) p.pr.1 p.pr.2) (startPairs (cfgs B p)) rev (steps B p + 2) p
  | .progressive => progressive (straightOps (vecSpace K ι)) (cvQuery (fun _ => true) p.pr.1 p.pr.2) (startPairs (cfgs B p)) rev (steps B p + 3) p
  | .discretized => Validation.discretized (straightOps (vecSpace K ι)) (okConf B) B.step rev (⌊p.pr.2 / B.step⌋₊ + 1 + 2) p

theorem goodOf {p : Line K ι} (h : Built p) : GoodStraight (vecSpace K ι) p :=
  ⟨by rw [h.1]; exact h.2.1, vec_geoPair _ _, Option.isNone_iff_eq_none.1 h.2.2.1⟩

theorem slow_ext {B : Bench K ι} (hB : B.Ok) {p : Line K ι} (h : Built p) (hs : B.Slow p) (a b : K) : B.Slow ⟨(0, |b - a|), conf p a, conf p b, none⟩ := by
  intro hm j
  show |conf p b j - conf p a j| ≤ B.vmax j * |b - a|
  rw [show |conf p b j - conf p a j| = p.velocityBound j * |b - a| from (C26_speed p (goodOf h).1 a b j).2]
  refine mul_le_mul_of_nonneg_right ?_ (abs_nonneg _)
  unfold Straight.velocityBound
  split
  · exact (hB.disc hm).2.1 j
  · next hne =>
    have hpos : 0 < p.pr.2 - p.pr.1 := sub_pos.2 (lt_of_le_of_ne (goodOf h).1 hne)
    rw [div_le_iff₀ hpos]
    have := hs hm j
    rw [h.1, sub_zero]
    exact this

/-- Extraction, with the proof that the result is one of the paths considered. -/
def ext {B : Bench K ι} (hB : B.Ok) (p : SP B) (a b : K) : SP B :=
  ⟨⟨(0, |b - a|), conf p.1 a, conf p.1 b, none⟩, ⟨rfl, abs_nonneg _, rfl, fun h => by rw [sub_eq_zero.1 (abs_eq_zero.1 h)]⟩, slow_ext hB p.2.1 p.2.2 a b⟩

variable {B : Bench K ι} {hB : B.Ok}

/-- `ext` is the extraction of straight paths. -/
theorem ext_eq (p : SP B) (a b : K) : p.1.extract (vecSpace K ι) a b = .ok (ext hB p a b).1 := by
  obtain ⟨p, h⟩ := p
  have hc : p.cons = none := Option.isNone_iff_eq_none.1 h.1.2.2.1
  simp only [Straight.extract, Straight.eval, constrained, hc, ext, conf]

/-- `steeringMethod::Straight::impl_compute` without constraints: straight.cc:38-52. -/
def line (B : Bench K ι) (hB : B.Ok) (a b : ι → K) : SP B :=
  ⟨⟨(0, B.metric a b), a, b, none⟩, ⟨rfl, hB.nonneg a b, rfl, hB.zero a b⟩, fun hm j => (hB.disc hm).2.2 a b j⟩

/-- The calls of the planners.  Planners extract only inside of the range of the path (diffusing-planner.cc:132-135, 219-223): elsewhere `extract` is
left equal to the identity.  Without constraints every configuration is accepted as its projection. -/
def env (B : Bench K ι) (hB : B.Ok) : PEnv (ι → K) (SP B) K where
  dist := B.metric
  rev p := ext hB p p.1.pr.2 p.1.pr.1
  zeroLength p := decide (p.1.pr.2 = 0)
  ini p := conf p.1 p.1.pr.1
  fin p := conf p.1 p.1.pr.2
  t0 p := p.1.pr.1
  t1 p := p.1.pr.2
  len p := p.1.pr.2 - p.1.pr.1
  extract p a b := if p.1.pr.1 ≤ a ∧ a ≤ p.1.pr.2 ∧ p.1.pr.1 ≤ b ∧ b ≤ p.1.pr.2 then ext hB p a b else p
  steer a b := some (line B hB a b)
  projector := none
  validate rev p := match check B rev p.1 with
    | .error _ => (false, p)
    | .ok (v, vp, _) => (v, if h : Built vp ∧ B.Slow vp then ⟨vp, h⟩ else p)
  onKernel _ q := some q

/-- The path is free at all parameters. -/
def Valid (B : Bench K ι) (p : SP B) : Prop := ∀ t, 0 ≤ t → t ≤ p.1.pr.2 → B.Free (conf p.1 t)

/-! ## Lemmas -/

theorem good (p : SP B) : GoodStraight (vecSpace K ι) p.1 :=
  ⟨by rw [p.2.1.1]; exact p.2.1.2.1, vec_geoPair _ _, Option.isNone_iff_eq_none.1 p.2.1.2.2.1⟩

theorem conf_ini (p : SP B) : conf p.1 p.1.pr.1 = p.1.q0 := by simp [conf, Straight.impl]

theorem conf_fin (p : SP B) : conf p.1 p.1.pr.2 = p.1.q1 :=
  (C26_ends (vecSpace K ι) p.1 (good p).1 fun h => p.2.1.2.2.2 (by rw [← h]; exact p.2.1.1)).2

theorem ext_ini (p : SP B) (a b : K) : conf (ext hB p a b).1 (ext hB p a b).1.pr.1 = conf p.1 a := conf_ini _
theorem ext_fin (p : SP B) (a b : K) : conf (ext hB p a b).1 (ext hB p a b).1.pr.2 = conf p.1 b := conf_fin _

/-- Configurations of an extracted path are configurations of the path between the two parameters. -/
theorem ext_conf (p : SP B) (a b : K) (ha : 0 ≤ a ∧ a ≤ p.1.pr.2) (hb : 0 ≤ b ∧ b ≤ p.1.pr.2) (t : K) (h0 : 0 ≤ t) (h1 : t ≤ (ext hB p a b).1.pr.2) :
    ∃ u, min a b ≤ u ∧ u ≤ max a b ∧ conf (ext hB p a b).1 t = conf p.1 u := by
  have ha' : p.1.pr.1 ≤ a ∧ a ≤ p.1.pr.2 := by rw [p.2.1.1]; exact ha
  have hb' : p.1.pr.1 ≤ b ∧ b ≤ p.1.pr.2 := by rw [p.2.1.1]; exact hb
  obtain ⟨-, -, k⟩ := p.1.extract_spec _ (ext hB p a b).1 (good p) a b ha' hb' (ext_eq p a b)
  have hcons : p.1.cons = none := (good p).2.2
  have hcons' : (ext hB p a b).1.cons = none := rfl
  have key : ∀ w, 0 ≤ w → w ≤ 1 → conf (ext hB p a b).1 (w * |b - a|) = conf p.1 (a + w * (b - a)) := by
    intro w w0 w1
    have := k w w0 w1
    simp only [Straight.eval, constrained, hcons, hcons', Except.ok.injEq] at this
    exact this
  have h1' : t ≤ |b - a| := h1
  by_cases hab : a = b
  · subst hab
    have ht : t = 0 := le_antisymm (by simpa using h1') h0
    subst ht
    refine ⟨a, by simp, by simp, ?_⟩
    simpa using key 0 le_rfl zero_le_one
  · have hpos : 0 < |b - a| := abs_pos.2 (sub_ne_zero.2 (Ne.symm hab))
    have w0 : 0 ≤ t / |b - a| := div_nonneg h0 hpos.le
    have w1 : t / |b - a| ≤ 1 := (div_le_one hpos).2 h1'
    refine ⟨a + t / |b - a| * (b - a), ?_, ?_, ?_⟩
    · rcases le_total a b with h | h
      · rw [min_eq_left h]; nlinarith [mul_nonneg w0 (sub_nonneg.2 h)]
      · rw [min_eq_right h]; nlinarith [mul_nonneg (sub_nonneg.2 w1) (sub_nonneg.2 h)]
    · rcases le_total a b with h | h
      · rw [max_eq_right h]; nlinarith [mul_nonneg (sub_nonneg.2 w1) (sub_nonneg.2 h)]
      · rw [max_eq_left h]; nlinarith [mul_nonneg w0 (sub_nonneg.2 h)]
    · rw [← key _ w0 w1, div_mul_cancel₀ _ hpos.ne']

theorem speed_nonneg (B : Bench K ι) (hB : B.Ok) (p : SP B) (c : BodyPair K ι) (hc : c ∈ B.pairs) : 0 ≤ speed p.1 c := by
  refine Finset.sum_nonneg fun j _ => mul_nonneg (hB.coef c hc j) ?_
  unfold Straight.velocityBound
  split
  · exact le_rfl
  · exact div_nonneg (abs_nonneg _) (by rw [p.2.1.1]; simpa using p.2.1.2.1)

theorem cfgOK (B : Bench K ι) (hB : B.Ok) (hm : B.mode ≠ .discretized) (p : SP B) (c : BodyPair K ι) (hc : c ∈ B.pairs) : CfgOK (pairCfg p.1 c) where
  le := (good p).1
  tol := (hB.tol hm c hc).le
  lower := by
    intro o ho t d hd
    obtain ⟨o', ho', rfl⟩ := List.mem_map.1 ho
    exact hB.lower c hc o' ho' _ d hd
  lip := by
    intro o ho tm tM u v _ _ _ _ _ _
    obtain ⟨o', ho', rfl⟩ := List.mem_map.1 ho
    refine (hB.lip c hc o' ho' _ _).trans ?_
    show _ ≤ speed p.1 c * |u - v|
    unfold speed
    rw [Finset.sum_mul]
    refine Finset.sum_le_sum fun j _ => ?_
    rw [mul_assoc, ← (C26_speed p.1 (good p).1 v u j).2]
    exact le_rfl
  nonneg := fun _ _ => speed_nonneg B hB p c hc
  mono := fun _ _ _ _ _ => le_rfl

theorem pairsOK (B : Bench K ι) (hB : B.Ok) (hm : B.mode ≠ .discretized) (p : SP B) : PairsOK p.1.pr.1 p.1.pr.2 (cfgs B p.1) := by
  intro c hc
  obtain ⟨c', hc', rfl⟩ := List.mem_map.1 hc
  exact ⟨cfgOK B hB hm p c' hc', rfl, rfl, Or.inl (by simp [CV.refine, pairCfg])⟩

theorem minTol_spec (l : List K) (h : ∀ x ∈ l, 0 < x) : 0 < l.foldr min 1 ∧ ∀ x ∈ l, l.foldr min 1 ≤ x := by
  induction l with
  | nil => simp
  | cons a l ih =>
    obtain ⟨i1, i2⟩ := ih fun x hx => h x (List.mem_cons_of_mem _ hx)
    refine ⟨lt_min (h a (by simp)) i1, fun x hx => ?_⟩
    rcases List.mem_cons.1 hx with rfl | hx
    · exact min_le_left _ _
    · exact (min_le_right _ _).trans (i2 x hx)

/-- Number of iterations: enough. -/
theorem term (B : Bench K ι) (hB : B.Ok) (hm : B.mode ≠ .discretized) (p : SP B) : 0 < minTol B ∧ 0 < maxVel B p.1 ∧
    ∀ c ∈ cfgs B p.1, CfgOK c ∧ c.lo = p.1.pr.1 ∧ c.hi = p.1.pr.2 ∧ (∀ tm tM, c.vel tm tM ≤ maxVel B p.1) ∧ minTol B ≤ c.tol := by
  have hn : ∀ x ∈ B.pairs.map (speed p.1), 0 ≤ x := by
    intro x hx
    obtain ⟨c, hc, rfl⟩ := List.mem_map.1 hx
    exact speed_nonneg B hB p c hc
  obtain ⟨t1, t2⟩ := minTol_spec (B.pairs.map (·.tol)) (by
    intro x hx
    obtain ⟨c, hc, rfl⟩ := List.mem_map.1 hx
    exact hB.tol hm c hc)
  refine ⟨t1, ?_, ?_⟩
  · have := List.sum_nonneg hn
    unfold maxVel; linarith
  · intro c hc
    obtain ⟨c', hc', rfl⟩ := List.mem_map.1 hc
    refine ⟨cfgOK B hB hm p c' hc', rfl, rfl, fun _ _ => ?_, t2 _ (List.mem_map.2 ⟨c', hc', rfl⟩)⟩
    have := List.single_le_sum hn (speed p.1 c') (List.mem_map.2 ⟨c', hc', rfl⟩)
    show speed p.1 c' ≤ maxVel B p.1
    unfold maxVel; linarith

theorem eval_line (p : SP B) (t : K) : (straightOps (vecSpace K ι)).eval p.1 t = .ok (conf p.1 t) := by
  have hc : p.1.cons = none := (good p).2.2
  simp only [straightOps, Straight.eval, constrained, hc, conf]

theorem okConf_spec (B : Bench K ι) (q : ι → K) (h : okConf B q = true) :
    (∀ bd ∈ B.bounds, ∀ j, bd.1 j ≤ q j ∧ q j ≤ bd.2 j) ∧ ∀ c ∈ B.pairs, ∀ o ∈ c.objs, ∃ d, o.collide q = some d := by
  simp only [okConf, Bool.and_eq_true, decide_eq_true_eq, List.all_eq_true, Option.isSome_iff_exists, Option.all_eq_true] at h
  exact h

/-- Between samples accepted by the discretized validation. -/
theorem sampled_free (B : Bench K ι) (hB : B.Ok) (hm : B.mode = .discretized) (p : SP B) (L : List K) (a b : K) (hL : Validation.Sampling L a b B.step)
    (hg : ∀ t ∈ L, Validation.Good (straightOps (vecSpace K ι)) (okConf B) p.1 t) (t : K) (h1 : a ≤ t) (h2 : t ≤ b) : B.Free (conf p.1 t) := by
  obtain ⟨d1, d2, -⟩ := hB.disc hm
  obtain ⟨x, hx, y, hy, x1, y1, xy⟩ := hL.between d1.le t h1 h2
  have ok : ∀ u ∈ L, okConf B (conf p.1 u) = true := by
    intro u hu
    obtain ⟨q, e, h⟩ := hg u hu
    rw [eval_line] at e
    exact Except.ok.inj e ▸ h
  obtain ⟨ox, cx⟩ := okConf_spec B _ (ok x hx)
  obtain ⟨oy, cy⟩ := okConf_spec B _ (ok y hy)
  have sp := C26_speed p.1 (good p).1
  refine ⟨fun _ bd hbd j => ?_, fun c hc o ho => ?_⟩
  · have e1 : conf p.1 t j - conf p.1 x j = _ := (sp x t j).1
    have e2 : conf p.1 y j - conf p.1 t j = _ := (sp t y j).1
    have kx := ox bd hbd j; have ky := oy bd hbd j
    set v := p.1.derivative 1 j
    rcases le_total 0 v with hv | hv
    · have m1 := mul_nonneg hv (sub_nonneg.2 x1)
      have m2 := mul_nonneg hv (sub_nonneg.2 y1)
      constructor <;> linarith [kx.1, ky.2]
    · have m1 := mul_nonneg (neg_nonneg.2 hv) (sub_nonneg.2 x1)
      have m2 := mul_nonneg (neg_nonneg.2 hv) (sub_nonneg.2 y1)
      constructor <;> linarith [ky.1, kx.2]
  · -- the closest of the two samples
    obtain ⟨z, hz, hzt⟩ : ∃ z ∈ L, |z - t| ≤ B.step / 2 := by
      rcases le_total (t - x) (y - t) with h | h
      · exact ⟨x, hx, by rw [abs_sub_comm, abs_of_nonneg (sub_nonneg.2 x1)]; linarith⟩
      · exact ⟨y, hy, by rw [abs_of_nonneg (sub_nonneg.2 y1)]; linarith⟩
    obtain ⟨d, hd⟩ := (okConf_spec B _ (ok z hz)).2 c hc o ho
    obtain ⟨p1, p2⟩ := hB.lower c hc o ho _ d hd
    have l := hB.lip c hc o ho (conf p.1 z) (conf p.1 t)
    have l2 : ∑ j, c.coef j * |conf p.1 z j - conf p.1 t j| ≤ B.slack c := by
      rw [Bench.slack, if_pos hm, Finset.sum_mul]
      refine Finset.sum_le_sum fun j _ => ?_
      rw [mul_assoc]
      refine mul_le_mul_of_nonneg_left ?_ (hB.coef c hc j)
      have s := slow_ext hB p.2.1 p.2.2 t z hm j
      exact s.trans (mul_le_mul_of_nonneg_left hzt (d2 j))
    have := (abs_le.1 (l.trans l2)).2
    linarith

/-- The continuous validation ends, and returns what C31 and C32 say. -/
theorem check_continuous (B : Bench K ι) (hB : B.Ok) (hm : B.mode ≠ .discretized) (rev : Bool) (p : SP B) :
    ∃ v vp rep n, check B rev p.1 = .ok (v, vp, rep, n) ∧ (v = true → vp = p.1 ∧ Valid B p) ∧
      (v = false → ∃ tl, 0 ≤ tl ∧ tl ≤ p.1.pr.2 ∧ if rev then vp = (ext hB p tl p.1.pr.2).1 ∧ (tl = p.1.pr.2 ∨ ∀ t, tl ≤ t → t ≤ p.1.pr.2 → B.Free (conf p.1 t))
        else vp = (ext hB p p.1.pr.1 tl).1 ∧ (tl = 0 ∨ ∀ t, 0 ≤ t → t ≤ tl → B.Free (conf p.1 t))) := by
  obtain ⟨h1, h2, h3⟩ := term B hB hm p
  have h0 : p.1.pr.1 = 0 := p.2.1.1
  have hle := (good p).1
  have hδ : 0 < 2 * minTol B / maxVel B p.1 := div_pos (by linarith) h2
  have hlen : p.1.pr.2 ≤ (steps B p.1 : K) * (2 * minTol B / maxVel B p.1) := by
    rw [← div_le_iff₀ hδ]; exact Nat.le_ceil _
  have hO : (straightOps (vecSpace K ι)).len p.1 = p.1.pr.2 := by simp [Ops.len, straightOps, h0]
  have hex : ∀ a b, ∃ q, (straightOps (vecSpace K ι)).extract p.1 a b = .ok q := fun a b => ⟨_, ext_eq (hB := hB) p a b⟩
  have hq := cvQuery_ok (fun _ => true) p.1.pr.1 p.1.pr.2 (cfgs B p.1)
  have hs := startPairs_inv _ _ _ (pairsOK B hB hm p)
  have hfree : ∀ t, (∀ c ∈ cfgs B p.1, PairFree c t) → B.Free (conf p.1 t) := by
    intro t h
    refine ⟨fun hd => absurd hd hm, fun c hc o ho => ?_⟩
    rw [Bench.slack, if_neg hm]
    exact h (pairCfg p.1 c) (List.mem_map.2 ⟨c, hc, rfl⟩) ⟨fun t => o.collide (conf p.1 t), fun t => o.dist (conf p.1 t)⟩ (List.mem_map.2 ⟨o, ho, rfl⟩)
  have hE : ∀ a b vp, (straightOps (vecSpace K ι)).extract p.1 a b = .ok vp → vp = (ext hB p a b).1 := by
    intro a b vp h
    have := (ext_eq (hB := hB) p a b).symm.trans h
    exact (Except.ok.inj this).symm
  unfold check
  cases hd : B.mode with
  | dichotomy =>
    simp only
    obtain ⟨v, vp, rep, n, hr, -⟩ := C64_dichotomy (straightOps (vecSpace K ι)) (fun _ => true) rev (steps B p.1 + 1) p.1 hle (cfgs B p.1) (maxVel B p.1) (minTol B) h2 h1 h3
      (by rw [hO]; push_cast; linarith) hex
    refine ⟨v, vp, rep, n, hr, fun hv => ?_, fun hv => ?_⟩
    · subst hv
      obtain ⟨k1, -, k3⟩ := C32_valid _ _ _ rev _ p.1 hle _ _ hq hs vp rep n hr
      exact ⟨k1, fun t t0 t1 => hfree t (k3 t (by show p.1.pr.1 ≤ t; rw [h0]; exact t0) t1)⟩
    · subst hv
      obtain ⟨tf, tl, -, k1, k2, -, k3⟩ := C32_fail _ _ _ rev _ p.1 hle _ _ hq hs vp rep n hr
      change p.1.pr.1 ≤ tf at k1; change tf ≤ p.1.pr.2 at k2
      rw [h0] at k1
      cases rev with
      | true =>
        simp only [if_true] at k3 ⊢
        obtain ⟨k3, k4⟩ := k3
        rcases k4 with ⟨-, k5⟩ | ⟨k4, k5, k6⟩
        · exact ⟨tl, by rw [k5]; exact p.2.1.2.1, le_of_eq k5, hE _ _ _ k3, Or.inl k5⟩
        · exact ⟨tl, k1.trans k4.le, k5, hE _ _ _ k3, Or.inr fun t t0 t1 => hfree t (k6 t t0 t1)⟩
      | false =>
        simp only [Bool.false_eq_true, if_false] at k3 ⊢
        obtain ⟨k3, k4⟩ := k3
        rcases k4 with ⟨-, k5⟩ | ⟨k4, k5, k6⟩
        · change tl = p.1.pr.1 at k5
          rw [h0] at k5
          exact ⟨tl, by rw [k5], by rw [k5]; exact p.2.1.2.1, hE _ _ _ k3, Or.inl k5⟩
        · change p.1.pr.1 ≤ tl at k4
          change ∀ t, p.1.pr.1 ≤ t → t ≤ tl → _ at k6
          rw [h0] at k4
          exact ⟨tl, k4, k5.le.trans k2, hE _ _ _ k3, Or.inr fun t t0 t1 => hfree t (k6 t (by rw [h0]; exact t0) t1)⟩
  | progressive =>
    simp only
    obtain ⟨v, vp, rep, n, hr, -⟩ := C64_progressive (straightOps (vecSpace K ι)) (fun _ => true) rev (steps B p.1 + 3) (steps B p.1) p.1 hle (cfgs B p.1) (maxVel B p.1) (minTol B) h2 h1 h3
      (by rw [hO]; exact hlen) le_rfl hex
    refine ⟨v, vp, rep, n, hr, fun hv => ?_, fun hv => ?_⟩
    · subst hv
      obtain ⟨k1, -, k3⟩ := C31_valid _ _ _ rev _ p.1 hle _ _ hq hs vp rep n hr
      exact ⟨k1, fun t t0 t1 => hfree t (k3 t (by show p.1.pr.1 ≤ t; rw [h0]; exact t0) t1)⟩
    · subst hv
      obtain ⟨tf, tl, -, k1, k2, -, k3⟩ := C31_fail _ _ _ rev _ p.1 hle _ _ hq hs vp rep n hr
      change p.1.pr.1 ≤ tf at k1; change tf ≤ p.1.pr.2 at k2
      rw [h0] at k1
      cases rev with
      | true =>
        simp only [if_true] at k3 ⊢
        obtain ⟨k3, k4, k5, k6⟩ := k3
        refine ⟨tl, k1.trans k4, k5, hE _ _ _ k3, ?_⟩
        rcases k6 with ⟨-, k6⟩ | k6
        · exact Or.inl k6
        · exact Or.inr fun t t0 t1 => hfree t (k6 t (k4.trans t0) t1)
      | false =>
        simp only [Bool.false_eq_true, if_false] at k3 ⊢
        obtain ⟨k3, k4, k5, k6⟩ := k3
        change p.1.pr.1 ≤ tl at k4
        rw [h0] at k4
        refine ⟨tl, k4, k5.trans k2, hE _ _ _ k3, ?_⟩
        rcases k6 with ⟨-, k6⟩ | k6
        · change tl = p.1.pr.1 at k6
          exact Or.inl (k6.trans h0)
        · exact Or.inr fun t t0 t1 => hfree t (k6 t (by show p.1.pr.1 ≤ t; rw [h0]; exact t0) (t1.trans k5))
  | discretized => exact absurd hd hm

/-- The discretized validation ends, and returns what C29 says. -/
theorem check_discretized (B : Bench K ι) (hB : B.Ok) (hm : B.mode = .discretized) (rev : Bool) (p : SP B) :
    ∃ v vp rep n, check B rev p.1 = .ok (v, vp, rep, n) ∧ (v = true → vp = p.1 ∧ Valid B p) ∧
      (v = false → ∃ tl, 0 ≤ tl ∧ tl ≤ p.1.pr.2 ∧ if rev then vp = (ext hB p tl p.1.pr.2).1 ∧ (tl = p.1.pr.2 ∨ ∀ t, tl ≤ t → t ≤ p.1.pr.2 → B.Free (conf p.1 t))
        else vp = (ext hB p p.1.pr.1 tl).1 ∧ (tl = 0 ∨ ∀ t, 0 ≤ t → t ≤ tl → B.Free (conf p.1 t))) := by
  obtain ⟨d1, -, -⟩ := hB.disc hm
  have h0 : p.1.pr.1 = 0 := p.2.1.1
  have hle := (good p).1
  have hex : ∀ a b, ∃ q, (straightOps (vecSpace K ι)).extract p.1 a b = .ok q := fun a b => ⟨_, ext_eq (hB := hB) p a b⟩
  have hE : ∀ a b vp, (straightOps (vecSpace K ι)).extract p.1 a b = .ok vp → vp = (ext hB p a b).1 := by
    intro a b vp h
    have := (ext_eq (hB := hB) p a b).symm.trans h
    exact (Except.ok.inj this).symm
  have hlen : p.1.pr.2 - p.1.pr.1 < ((⌊p.1.pr.2 / B.step⌋₊ + 1 : ℕ) : K) * B.step := by
    rw [h0, sub_zero, ← div_lt_iff₀ d1]
    push_cast
    exact Nat.lt_floor_add_one _
  unfold check
  rw [hm]
  simp only
  obtain ⟨v, vp, rep, n, hr, -⟩ := Validation.C30_terminates (straightOps (vecSpace K ι)) (okConf B) B.step d1 rev (⌊p.1.pr.2 / B.step⌋₊ + 1 + 2) (⌊p.1.pr.2 / B.step⌋₊ + 1) p.1 hle
    hlen le_rfl hex
  refine ⟨v, vp, rep, n, hr, fun hv => ?_, fun hv => ?_⟩
  · subst hv
    obtain ⟨k1, -, L, k2, k3⟩ := Validation.C29_valid _ _ _ d1 rev _ p.1 hle vp rep n hr
    refine ⟨k1, fun t t0 t1 => sampled_free B hB hm p L _ _ k2 k3 t ?_ t1⟩
    show p.1.pr.1 ≤ t
    rw [h0]; exact t0
  · subst hv
    obtain ⟨tf, -, k1, k2, -, k3⟩ := Validation.C29_fail _ _ _ d1 rev _ p.1 hle vp rep n hr
    change p.1.pr.1 ≤ tf at k1; change tf ≤ p.1.pr.2 at k2
    rw [h0] at k1
    cases rev with
    | true =>
      simp only [if_true] at k3 ⊢
      rcases k3 with ⟨-, k4⟩ | ⟨tl, L, k4, k5, k6, k7, -⟩
      · exact ⟨p.1.pr.2, p.2.1.2.1, le_rfl, hE _ _ _ k4, Or.inl rfl⟩
      · have hl : tl ≤ p.1.pr.2 := k5.le
        exact ⟨tl, k1.trans k7.le, hl, hE _ _ _ k4, Or.inr fun t t0 t1 => sampled_free B hB hm p L _ _ k5 k6 t t0 t1⟩
    | false =>
      simp only [Bool.false_eq_true, if_false] at k3 ⊢
      rcases k3 with ⟨-, k4⟩ | ⟨tl, L, k4, k5, k6, k7, -⟩
      · exact ⟨p.1.pr.1, h0.ge, hle, hE _ _ _ k4, Or.inl h0⟩
      · have hl : p.1.pr.1 ≤ tl := k5.le
        exact ⟨tl, h0 ▸ hl, k7.le.trans k2, hE _ _ _ k4, Or.inr fun t t0 t1 => sampled_free B hB hm p L _ _ k5 k6 t (by show p.1.pr.1 ≤ t; rw [h0]; exact t0) t1⟩

/-- The validation ends, and returns what C29, C31 and C32 say. -/
theorem check_ok (B : Bench K ι) (hB : B.Ok) (rev : Bool) (p : SP B) :
    ∃ v vp rep n, check B rev p.1 = .ok (v, vp, rep, n) ∧ (v = true → vp = p.1 ∧ Valid B p) ∧
      (v = false → ∃ tl, 0 ≤ tl ∧ tl ≤ p.1.pr.2 ∧ if rev then vp = (ext hB p tl p.1.pr.2).1 ∧ (tl = p.1.pr.2 ∨ ∀ t, tl ≤ t → t ≤ p.1.pr.2 → B.Free (conf p.1 t))
        else vp = (ext hB p p.1.pr.1 tl).1 ∧ (tl = 0 ∨ ∀ t, 0 ≤ t → t ≤ tl → B.Free (conf p.1 t))) := by
  by_cases hm : B.mode = .discretized
  · exact check_discretized B hB hm rev p
  · exact check_continuous B hB hm rev p

/-- The answer of the validation as seen by the planners. -/
theorem validate_spec (B : Bench K ι) (hB : B.Ok) (rev : Bool) (p : SP B) :
    (((env B hB).validate rev p).1 = true ∧ ((env B hB).validate rev p).2 = p ∧ Valid B p) ∨
    (((env B hB).validate rev p).1 = false ∧ ∃ tl, 0 ≤ tl ∧ tl ≤ p.1.pr.2 ∧
      if rev then ((env B hB).validate rev p).2 = ext hB p tl p.1.pr.2 ∧ (tl = p.1.pr.2 ∨ ∀ t, tl ≤ t → t ≤ p.1.pr.2 → B.Free (conf p.1 t))
      else ((env B hB).validate rev p).2 = ext hB p p.1.pr.1 tl ∧ (tl = 0 ∨ ∀ t, 0 ≤ t → t ≤ tl → B.Free (conf p.1 t))) := by
  obtain ⟨v, vp, rep, n, hr, h1, h2⟩ := check_ok B hB rev p
  have hv : (env B hB).validate rev p = (v, if h : Built vp ∧ B.Slow vp then ⟨vp, h⟩ else p) := by
    show (match check B rev p.1 with | .error _ => (false, p) | .ok (v, vp, _) => (v, if h : Built vp ∧ B.Slow vp then ⟨vp, h⟩ else p)) = _
    rw [hr]
  rw [hv]
  cases v with
  | true =>
    obtain ⟨k1, k2⟩ := h1 rfl
    subst k1
    exact Or.inl ⟨rfl, by simp [p.2], k2⟩
  | false =>
    obtain ⟨tl, k1, k2, k3⟩ := h2 rfl
    refine Or.inr ⟨rfl, tl, k1, k2, ?_⟩
    cases rev with
    | true =>
      simp only [if_true] at k3 ⊢
      obtain ⟨rfl, k4⟩ := k3
      exact ⟨by rw [dif_pos (ext hB p tl p.1.pr.2).2], k4⟩
    | false =>
      simp only [Bool.false_eq_true, if_false] at k3 ⊢
      obtain ⟨rfl, k4⟩ := k3
      exact ⟨by rw [dif_pos (ext hB p p.1.pr.1 tl).2], k4⟩

theorem ext_valid (B : Bench K ι) (hB : B.Ok) (p : SP B) (a b : K) (ha : 0 ≤ a ∧ a ≤ p.1.pr.2) (hb : 0 ≤ b ∧ b ≤ p.1.pr.2)
    (h : ∀ t, min a b ≤ t → t ≤ max a b → B.Free (conf p.1 t)) : Valid B (ext hB p a b) := by
  intro t h0 h1
  obtain ⟨u, u1, u2, u3⟩ := ext_conf p a b ha hb t h0 h1
  rw [u3]
  exact h u u1 u2

/-- The contract of the planners holds. -/
theorem contract (B : Bench K ι) (hB : B.Ok) : Contract (env B hB) (Valid B) := by
  refine ⟨?_, ?_, ?_, ?_, ?_, ?_, ?_, ?_, ?_, ?_, ?_, ?_⟩
  · intro a b p h
    obtain rfl := Option.some.inj h
    exact ⟨conf_ini _, conf_fin _⟩
  · intro p t
    show (env B hB).ini (if _ then ext hB p p.1.pr.1 t else p) = _
    split
    · exact ext_ini p _ _
    · rfl
  · intro p t hv
    show Valid B (if _ then _ else _)
    split
    · rename_i h
      obtain ⟨-, h2, h3, h4⟩ := h
      have h0 : p.1.pr.1 = 0 := p.2.1.1
      have h3' : 0 ≤ t := by rw [← h0]; exact h3
      show Valid B (ext hB p p.1.pr.1 t)
      rw [h0]
      refine ext_valid B hB p 0 t ⟨le_rfl, p.2.1.2.1⟩ ⟨h3', h4⟩ fun u u1 u2 => hv u ?_ ?_
      · exact (le_min le_rfl h3').trans u1
      · exact u2.trans (max_le p.2.1.2.1 h4)
    · exact hv
  · intro f p b p' h; cases h
  · intro f p h; cases h
  · intro p
    rcases validate_spec B hB false p with ⟨-, h, -⟩ | ⟨-, tl, -, -, h⟩
    · rw [h]
    · simp only [Bool.false_eq_true, if_false] at h
      rw [h.1]; exact ext_ini _ _ _
  · intro p h
    rcases validate_spec B hB false p with ⟨-, h1, h2⟩ | ⟨-, tl, k1, k2, k3⟩
    · rw [h1]; exact h2
    · simp only [Bool.false_eq_true, if_false] at k3
      obtain ⟨k3, k4⟩ := k3
      rw [k3] at h ⊢
      have h0 : p.1.pr.1 = 0 := p.2.1.1
      rcases k4 with k4 | k4
      · exfalso
        subst k4
        have e : (ext hB p p.1.pr.1 0).1.pr = (0, 0) := by simp [ext, h0]
        rcases h with h | h
        · exact h (by show (ext hB p p.1.pr.1 0).1.pr.2 = p.1.pr.1; rw [e, h0])
        · change 0 < (ext hB p p.1.pr.1 0).1.pr.2 - (ext hB p p.1.pr.1 0).1.pr.1 at h
          rw [e] at h; simp at h
      · rw [h0]
        refine ext_valid B hB p 0 tl ⟨le_rfl, p.2.1.2.1⟩ ⟨k1, k2⟩ fun u u1 u2 => k4 u ?_ ?_
        · rwa [min_eq_left k1] at u1
        · rwa [max_eq_right k1] at u2
  · intro b p h
    rcases validate_spec B hB b p with ⟨-, h1, h2⟩ | ⟨h1, -⟩
    · rw [h1]; exact ⟨h2, h2, rfl, rfl⟩
    · rw [h1] at h; cases h
  · intro p
    rcases validate_spec B hB true p with ⟨-, h, -⟩ | ⟨-, tl, -, -, h⟩
    · rw [h]
    · simp only [if_true] at h
      rw [h.1]; exact ext_fin _ _ _
  · intro p; exact ext_ini (hB := hB) _ _ _
  · intro p; exact ext_fin (hB := hB) _ _ _
  · intro p hv
    have h0 : p.1.pr.1 = 0 := p.2.1.1
    show Valid B (ext hB p p.1.pr.2 p.1.pr.1)
    rw [h0]
    refine ext_valid B hB p _ 0 ⟨p.2.1.2.1, le_rfl⟩ ⟨le_rfl, p.2.1.2.1⟩ fun u u1 u2 => hv u ?_ ?_
    · rwa [min_eq_right p.2.1.2.1] at u1
    · rwa [max_eq_left p.2.1.2.1] at u2

/-- The further contract of BiRRT holds. -/
theorem pointContract (B : Bench K ι) (hB : B.Ok) : PointContract (env B hB) (Valid B) := by
  refine ⟨?_, ?_, ?_⟩
  · intro p _
    rcases validate_spec B hB true p with ⟨-, h1, h2⟩ | ⟨-, tl, k1, k2, k3⟩
    · rw [h1]; exact Or.inl h2
    · simp only [if_true] at k3
      obtain ⟨k3, k4⟩ := k3
      rw [k3]
      rcases k4 with k4 | k4
      · right
        subst k4
        exact ⟨(ext_ini (hB := hB) _ _ _).trans (ext_fin (hB := hB) _ _ _).symm, by show (0 : K) = |p.1.pr.2 - p.1.pr.2|; simp⟩
      · left
        refine ext_valid B hB p tl _ ⟨k1, k2⟩ ⟨p.2.1.2.1, le_rfl⟩ fun u u1 u2 => k4 u ?_ ?_
        · rwa [min_eq_left k2] at u1
        · rwa [max_eq_right k2] at u2
  · intro p t h
    show Point _ (if _ then _ else _)
    split
    · rename_i hh
      have e : p.1.pr.1 = p.1.pr.2 := h.2
      have ht : t = p.1.pr.1 := le_antisymm (by rw [e]; exact hh.2.2.2) hh.2.2.1
      subst ht
      exact ⟨(ext_ini (hB := hB) _ _ _).trans (ext_fin (hB := hB) _ _ _).symm, by show (0 : K) = |p.1.pr.1 - p.1.pr.1|; simp⟩
    · exact h
  · intro p h
    have e : p.1.pr.1 = p.1.pr.2 := h.2
    refine ⟨?_, ?_⟩
    · refine (ext_ini (hB := hB) _ _ _).trans (Eq.trans ?_ (ext_fin (hB := hB) _ _ _).symm)
      rw [e]
    · show (0 : K) = |p.1.pr.1 - p.1.pr.2|
      rw [e]; simp

/-! ## The path vector returned to the user -/

/-- The path vector built from the edges: astar.hh:70-86 (one `appendPath` per edge). -/
def pathVector (l : List (SP B)) : Vec K (ι → K) (Line K ι) := (l.map Subtype.val).foldl (appendPath (straightOps (vecSpace K ι))) (create none)

theorem foldl_append (l : List (Line K ι)) (v : Vec K (ι → K) (Line K ι)) :
    l.foldl (appendPath (straightOps (vecSpace K ι))) v = ⟨v.cons, (v.tr.1, v.tr.2 + total (straightOps (vecSpace K ι)) l), v.paths ++ l⟩ := by
  induction l generalizing v with
  | nil => simp [total]
  | cons p l ih => rw [List.foldl_cons, ih]; simp [appendPath, total, add_assoc]

theorem pathVector_eq (l : List (SP B)) : pathVector l = ⟨none, (0, total (straightOps (vecSpace K ι)) (l.map Subtype.val)), l.map Subtype.val⟩ := by
  unfold pathVector
  rw [foldl_append]
  simp [create]

/-- What a user wants of a path on `[0, T]`: from `a` to `b`, defined at every parameter, each coordinate is Lipschitz continuous, and no
configuration with a penetration of more than twice the tolerance. -/
structure Safe (B : Bench K ι) (f : K → Except PathV.Err (ι → K)) (T : K) (a b : ι → K) : Prop where
  len : 0 ≤ T
  ini : f 0 = .ok a
  fin : f T = .ok b
  free : ∀ t, 0 ≤ t → t ≤ T → ∃ q, f t = .ok q ∧ B.Free q
  cont : ∃ M : ι → K, ∀ s t q q' j, 0 ≤ s → s ≤ t → t ≤ T → f s = .ok q → f t = .ok q' → |q' j - q j| ≤ M j * (t - s)

theorem eval_conf (p : SP B) (t : K) : (straightOps (vecSpace K ι)).eval p.1 t = .ok (conf p.1 t) := by
  have hc : p.1.cons = none := (good p).2.2
  simp [straightOps, Straight.eval, constrained, hc, conf]

/-- A sequence of straight paths between successive configurations, valid or reduced to a point, starting at a free configuration. -/
theorem connects_all (B : Bench K ι) (hB : B.Ok) (l : List (SP B)) (a b : ι → K) (ha : B.Free a)
    (h : Connects (env B hB) (ValidOrPoint (env B hB) (Valid B)) a l b) :
    (∀ p ∈ l, Valid B p) ∧ (l.map Subtype.val).IsChain (fun p q : Line K ι => p.q1 = q.q0) ∧
      (∀ p, (l.map Subtype.val).head? = some p → p.q0 = a) ∧ (∀ p, (l.map Subtype.val).getLast? = some p → p.q1 = b) := by
  induction l generalizing a with
  | nil => simp
  | cons p l ih =>
    obtain ⟨h1, h2, h3⟩ := h
    have h2' : conf p.1 p.1.pr.1 = a := h2
    have hv : Valid B p := by
      rcases h1 with h1 | ⟨h1, h4⟩
      · exact h1
      · intro t t0 t1
        have e : p.1.pr.1 = p.1.pr.2 := h4
        have h0 : p.1.pr.1 = 0 := p.2.1.1
        have : t = p.1.pr.1 := le_antisymm (by rw [e]; exact t1) (by rw [h0]; exact t0)
        rw [this, h2']; exact ha
    have hf : (env B hB).fin p = p.1.q1 := conf_fin p
    rw [hf] at h3
    have hq1 : B.Free p.1.q1 := by rw [← conf_fin p]; exact hv _ p.2.1.2.1 le_rfl
    obtain ⟨i1, i2, i3, i4⟩ := ih p.1.q1 hq1 h3
    refine ⟨?_, ?_, ?_, ?_⟩
    · intro x hx
      rcases List.mem_cons.1 hx with rfl | hx
      · exact hv
      · exact i1 x hx
    · rw [List.map_cons, List.isChain_cons]
      exact ⟨fun q hq => (i3 q hq).symm, i2⟩
    · intro x hx
      simp only [List.map_cons, List.head?_cons, Option.some.injEq] at hx
      subst hx
      rw [← conf_ini p]; exact h2'
    · intro x hx
      cases l with
      | nil =>
        simp only [List.map_cons, List.map_nil, List.getLast?_singleton, Option.some.injEq] at hx
        subst hx
        exact h3
      | cons y l =>
        rw [List.map_cons, List.map_cons, List.getLast?_cons_cons] at hx
        exact i4 x (by rw [List.map_cons]; exact hx)

/-- From the list of paths to the path vector. -/
theorem safe_of_connects (B : Bench K ι) (hB : B.Ok) (l : List (SP B)) (a b : ι → K) (hne : l ≠ []) (ha : B.Free a)
    (h : Connects (env B hB) (ValidOrPoint (env B hB) (Valid B)) a l b) :
    Safe B (evalV (straightOps (vecSpace K ι)) (pathVector l)) (pathVector l).tr.2 a b := by
  obtain ⟨h1, h2, h3, h4⟩ := connects_all B hB l a b ha h
  have hne' : l.map Subtype.val ≠ [] := fun h => hne (List.map_eq_nil_iff.1 h)
  have hlen : ∀ p ∈ l.map Subtype.val, (straightOps (vecSpace K ι)).lo p ≤ (straightOps (vecSpace K ι)).hi p := by
    intro p hp
    obtain ⟨x, -, rfl⟩ := List.mem_map.1 hp
    exact (good x).1
  have hlen' : ∀ p ∈ l.map Subtype.val, 0 ≤ (straightOps (vecSpace K ι)).len p := fun p hp => sub_nonneg.2 (hlen p hp)
  have hev : ∀ s, evalV (straightOps (vecSpace K ι)) (pathVector l) s = evalU (straightOps (vecSpace K ι)) (l.map Subtype.val) s := by
    intro s
    rw [pathVector_eq]; exact evalV_none _ _ rfl s
  have hT : (pathVector l).tr.2 = total (straightOps (vecSpace K ι)) (l.map Subtype.val) := by rw [pathVector_eq]
  have hchain : Chained (straightOps (vecSpace K ι)) (l.map Subtype.val) := by
    have : ∀ ps : List (SP B), (ps.map Subtype.val).IsChain (fun p q : Line K ι => p.q1 = q.q0) → Chained (straightOps (vecSpace K ι)) (ps.map Subtype.val) := by
      intro ps
      induction ps with
      | nil => intro _; exact List.IsChain.nil
      | cons p ps ih =>
        intro hc
        rw [List.map_cons, List.isChain_cons] at hc
        unfold Chained
        rw [List.map_cons, List.isChain_cons]
        refine ⟨fun q hq => ?_, ih hc.2⟩
        obtain ⟨x, hx, rfl⟩ := List.mem_map.1 (List.mem_of_mem_head? hq)
        rw [eval_conf p, eval_conf x]
        have e1 := conf_fin p
        have e2 := conf_ini x
        exact congrArg _ (e1.trans ((hc.1 _ hq).trans e2.symm))
    exact this l h2
  have hpaths : (pathVector l).paths = l.map Subtype.val := by rw [pathVector_eq]
  have htot : 0 ≤ total (straightOps (vecSpace K ι)) (l.map Subtype.val) := by
    unfold total
    apply List.sum_nonneg
    intro x hx
    obtain ⟨p, hp, rfl⟩ := List.mem_map.1 hx
    exact hlen' p hp
  have hdef : ∀ p ∈ (pathVector l).paths, ∀ x, (straightOps (vecSpace K ι)).lo p ≤ x → x ≤ (straightOps (vecSpace K ι)).hi p → ∃ q, (straightOps (vecSpace K ι)).eval p x = .ok q := by
    intro p hp x _ _
    rw [hpaths] at hp
    obtain ⟨y, -, rfl⟩ := List.mem_map.1 hp
    exact ⟨_, eval_conf y x⟩
  refine ⟨?_, ?_, ?_, ?_, ?_⟩
  · rw [hT]; exact htot
  · obtain ⟨p, ps, e⟩ := List.exists_cons_of_ne_nil hne
    subst e
    rw [hev]
    have := chained_at (straightOps (vecSpace K ι)) [] (ps.map Subtype.val) p.1 0 (by simp) hchain le_rfl (hlen' _ (by simp))
    simp only [List.nil_append, total, List.map_nil, List.sum_nil, add_zero] at this
    rw [List.map_cons, this, eval_conf p]
    have e0 : conf p.1 p.1.pr.1 = a := (conf_ini p).trans (h3 _ (by simp))
    exact congrArg _ e0
  · rw [hev, hT]
    obtain ⟨A, p, e⟩ : ∃ A p, l = A ++ [p] := ⟨_, _, (List.dropLast_append_getLast hne).symm⟩
    subst e
    have e1 : (A ++ [p]).map Subtype.val = A.map Subtype.val ++ p.1 :: [] := by simp
    have := chained_at (straightOps (vecSpace K ι)) (A.map Subtype.val) [] p.1 ((straightOps (vecSpace K ι)).len p.1)
      (fun q hq => hlen' q (by rw [e1]; exact List.mem_append_left _ hq)) (by rw [← e1]; exact hchain) (hlen' _ (by rw [e1]; simp)) le_rfl
    have e2 : total (straightOps (vecSpace K ι)) ((A ++ [p]).map Subtype.val) = total (straightOps (vecSpace K ι)) (A.map Subtype.val) + (straightOps (vecSpace K ι)).len p.1 := by
      rw [e1]; unfold total; rw [List.map_append, List.sum_append, List.map_cons, List.map_nil, List.sum_cons, List.sum_nil, add_zero]
    rw [e2, e1, this, len_hi, eval_conf p]
    have e0 : conf p.1 p.1.pr.2 = b := (conf_fin p).trans (h4 _ (by simp))
    exact congrArg _ e0
  · intro t t0 t1
    rw [hT] at t1
    obtain ⟨i, p, x, -, k2, k3, k4, -, -, k5⟩ := C19_eval (straightOps (vecSpace K ι)) (pathVector l) (by rw [hpaths]; exact hne') (by rw [hpaths]; exact hlen) t t0
      (by rw [hpaths]; exact t1)
    rw [hpaths] at k2
    obtain ⟨y, hy, rfl⟩ := List.mem_map.1 (List.mem_of_getElem? k2)
    have hc : (pathVector l).cons = none := by rw [pathVector_eq]
    rw [k5, hc, eval_conf y]
    refine ⟨_, rfl, h1 y hy x ?_ k4⟩
    have h0 : y.1.pr.1 = 0 := y.2.1.1
    rw [← h0]; exact k3
  · obtain ⟨R, -, hR⟩ := C61_velocityBound (straightOps (vecSpace K ι)) (fun p _ _ => p.velocityBound) (pathVector l) (by rw [hpaths]; exact hne') (by rw [hpaths]; exact hlen)
      (by rw [hpaths]; exact hchain) (by rw [pathVector_eq]) hdef (by
        intro p hp x x' k1 k2 k3 s s' m1 m2 m3 q q' hq hq' i
        rw [hpaths] at hp
        obtain ⟨y, -, rfl⟩ := List.mem_map.1 hp
        rw [eval_conf y] at hq hq'
        obtain rfl := Except.ok.inj hq
        obtain rfl := Except.ok.inj hq'
        refine le_of_eq ((C26_speed y.1 (good y).1 s s' i).2.trans ?_)
        rw [abs_of_nonneg (sub_nonneg.2 m2)]) 0 (total (straightOps (vecSpace K ι)) (l.map Subtype.val)) le_rfl htot (by rw [hpaths]; exact le_rfl)
    refine ⟨R, fun s t q q' j s0 st tT hs ht => hR s t s0 st (by rw [hT] at tT; exact tT) q q' hs ht j⟩

theorem connects_mono (C : PEnv (ι → K) (SP B) K) (V W : SP B → Prop) (hVW : ∀ p, V p → W p) (l : List (SP B)) (a b : ι → K) (h : Connects C V a l b) : Connects C W a l b := by
  induction l generalizing a with
  | nil => exact h
  | cons p l ih => exact ⟨hVW _ h.1, h.2.1, ih _ h.2.2⟩

/-- A path reduced to a point. -/
theorem connects_refl (B : Bench K ι) (hB : B.Ok) (q0 : ι → K) (h0 : B.Free q0) :
    Connects (env B hB) (ValidOrPoint (env B hB) (Valid B)) q0 [line B hB q0 q0] q0 := by
  have hi : (env B hB).ini (line B hB q0 q0) = q0 := conf_ini _
  have hf : (env B hB).fin (line B hB q0 q0) = q0 := conf_fin _
  refine ⟨Or.inl fun t _ _ => ?_, hi, hf⟩
  have e : conf (line B hB q0 q0).1 t = q0 := by
    have hs : ∀ u : K, (vecSpace K ι).interp q0 q0 u = q0 := by
      intro u; funext j; simp [vecSpace]
    show (if _ then q0 else if _ then q0 else (vecSpace K ι).interp q0 q0 _) = q0
    rw [hs]
    split
    · rfl
    · split <;> rfl
  rw [e]; exact h0

theorem safe_of_solves (B : Bench K ι) (hB : B.Ok) (q0 : ι → K) (gs : List (ι → K)) (l : List (SP B)) (h0 : B.Free q0)
    (h : Solves (env B hB) (ValidOrPoint (env B hB) (Valid B)) q0 gs l) :
    ∃ g ∈ gs, Safe B (evalV (straightOps (vecSpace K ι)) (pathVector l)) (pathVector l).tr.2 q0 g := by
  rcases h with ⟨g, hg, hne, hc⟩ | ⟨hq, p, hp, rfl⟩
  · exact ⟨g, hg, safe_of_connects B hB l q0 g hne h0 hc⟩
  · obtain rfl := Option.some.inj hp
    exact ⟨q0, hq, safe_of_connects B hB _ q0 q0 (by simp) h0 (connects_refl B hB q0 h0)⟩

theorem solves_mono (B : Bench K ι) (hB : B.Ok) (q0 : ι → K) (gs : List (ι → K)) (l : List (SP B)) (h : Solves (env B hB) (Valid B) q0 gs l) :
    Solves (env B hB) (ValidOrPoint (env B hB) (Valid B)) q0 gs l := by
  rcases h with ⟨g, hg, hne, hc⟩ | h
  · exact Or.inl ⟨g, hg, hne, connects_mono _ _ _ (fun _ => Or.inl) l _ _ hc⟩
  · exact Or.inr h

/-! ## C126 -/

/-- C126, diffusing planner: on a problem without constraints in a vector space, with straight paths and continuous validation, whatever the configurations that
are shot, the limits and the interruptions: the path that is returned goes continuously from the initial configuration to a goal, and nowhere along it do two objects
penetrate by more than twice the tolerance. -/
theorem C126_diffusing (B : Bench K ι) (hB : B.Ok) (D : DiffParams K) (heur : Roadmap.Roadmap (ι → K) (SP B) → Nat → K) (q0 : ι → K) (gs : List (ι → K)) (shoot : Nat → ι → K)
    (st : Settings K) (late intr : Nat → Bool) (fuel n : Nat) (l : List (SP B)) (h0 : B.Free q0)
    (hl : solve (diffusing (env B hB) D heur q0 gs shoot) st late intr fuel (n, Roadmap.empty) = .path l) :
    ∃ g ∈ gs, Safe B (evalV (straightOps (vecSpace K ι)) (pathVector l)) (pathVector l).tr.2 q0 g :=
  safe_of_solves B hB q0 gs l h0 (solves_mono B hB q0 gs l
    (C67_diffusing (contract B hB) D heur q0 gs shoot ⟨Roadmap.Inv.empty, by simp [Roadmap.empty]⟩ st late intr fuel n l hl))

/-- C126, Visibility-PRM. -/
theorem C126_visibility (B : Bench K ι) (hB : B.Ok) (heur : Roadmap.Roadmap (ι → K) (SP B) → Nat → K) (q0 : ι → K) (gs : List (ι → K)) (sample : Nat → ι → K)
    (st : Settings K) (late intr : Nat → Bool) (fuel : Nat) (x : Nat × (Nat → Bool)) (l : List (SP B)) (h0 : B.Free q0)
    (hl : solve (visibility (env B hB) heur q0 gs sample) st late intr fuel (x, Roadmap.empty) = .path l) :
    ∃ g ∈ gs, Safe B (evalV (straightOps (vecSpace K ι)) (pathVector l)) (pathVector l).tr.2 q0 g :=
  safe_of_solves B hB q0 gs l h0 (solves_mono B hB q0 gs l
    (C67_visibility (contract B hB) heur q0 gs sample (s := (x, Roadmap.empty)) ⟨Roadmap.Inv.empty, by simp [Roadmap.empty]⟩ st late intr fuel l hl))

/-- C126, BiRRT. -/
theorem C126_birrt (B : Bench K ι) (hB : B.Ok) (heur : Roadmap.Roadmap (ι → K) (SP B) → Nat → K) (q0 : ι → K) (gs : List (ι → K)) (shoot : Nat → ι → K)
    (st : Settings K) (late intr : Nat → Bool) (fuel : Nat) (x : BState) (l : List (SP B)) (h0 : B.Free q0)
    (hl : solve (birrt (env B hB) heur q0 gs shoot) st late intr fuel (x, Roadmap.empty) = .path l) :
    ∃ g ∈ gs, Safe B (evalV (straightOps (vecSpace K ι)) (pathVector l)) (pathVector l).tr.2 q0 g :=
  safe_of_solves B hB q0 gs l h0
    (C67_birrt_partial (contract B hB) (pointContract B hB) (fun _ _ => rfl) heur q0 gs shoot (s := (x, Roadmap.empty))
      ⟨Roadmap.Inv.empty, by simp [Roadmap.empty]⟩ st late intr fuel l hl)

/-- C126, k-PRM*: with any priority queue of the nearest neighbors, any number of nodes and of neighbors. -/
theorem C126_kprm {H : Type} (B : Bench K ι) (hB : B.Ok) (C : KEnv (ι → K) (SP B) K H) (hC : C.toPEnv = env B hB) (hk : 0 < C.k) (hN : 0 < C.nodes)
    (heur : Roadmap.Roadmap (ι → K) (SP B) → Nat → K) (q0 : ι → K) (gs : List (ι → K)) (st : Settings K) (late intr : Nat → Bool) (fuel : Nat) (x : KState)
    (l : List (SP B)) (h0 : B.Free q0) (hl : solve (kprm C heur q0 gs) st late intr fuel (x, Roadmap.empty) = .path l) :
    ∃ g ∈ gs, Safe B (evalV (straightOps (vecSpace K ι)) (pathVector l)) (pathVector l).tr.2 q0 g := by
  refine safe_of_solves B hB q0 gs l h0 (solves_mono B hB q0 gs l ?_)
  rw [← hC]
  exact C67_kprm (by rw [hC]; exact contract B hB) hk hN heur q0 gs (s := (x, Roadmap.empty)) ⟨Roadmap.Inv.empty, by simp [Roadmap.empty]⟩ st late intr fuel l hl

theorem starContract (B : Bench K ι) (hB : B.Ok) (C : Star.SEnv (ι → K) (SP B) K) (hC : C.toPEnv = env B hB) (hm : 0 < C.minLen) : Star.SContract C (Valid B) := by
  refine ⟨by rw [hC]; exact contract B hB, ?_, ?_, hm⟩
  · intro p
    rw [hC]
    exact sub_nonneg.2 (good p).1
  · intro p
    rw [hC]
    show |p.1.pr.1 - p.1.pr.2| - 0 = p.1.pr.2 - p.1.pr.1
    rw [sub_zero, abs_sub_comm, abs_of_nonneg (sub_nonneg.2 (good p).1)]

/-- C126, BiRRT*: one goal, any positive minimal length, any queue that returns its elements. -/
theorem C126_birrtstar (B : Bench K ι) (hB : B.Ok) (C : Star.SEnv (ι → K) (SP B) K) (hC : C.toPEnv = env B hB) (hm : 0 < C.minLen)
    {pop : List (Star.WNode (SP B) K) → Option (Star.WNode (SP B) K × List (Star.WNode (SP B) K))} (hp : Star.PopOk pop)
    (heur : Roadmap.Roadmap (ι → K) (SP B) → Nat → K) (fc fp : Nat) (q0 g : ι → K) (draws : Nat → Star.Draw (ι → K)) (x : Star.Trees (SP B) × Nat)
    (st : Settings K) (late intr : Nat → Bool) (fuel : Nat) (l : List (SP B)) (h0 : B.Free q0)
    (hl : solve (Star.birrtstar C heur pop fc fp q0 [g] draws) st late intr fuel (x, Roadmap.empty) = .path l) :
    Safe B (evalV (straightOps (vecSpace K ι)) (pathVector l)) (pathVector l).tr.2 q0 g := by
  have hS := starContract B hB C hC hm
  have h := Star.C67_birrtstar hS hp heur fc fp q0 g draws x st late intr fuel l hl
  rw [hC] at h
  obtain ⟨g', hg, h⟩ := safe_of_solves B hB q0 [g] l h0 (solves_mono B hB q0 [g] l h)
  rw [List.mem_singleton.1 hg] at h
  exact h

/-- C126: on such problems the diffusing planner and Visibility-PRM throw only for the limits and for `interrupt()`. -/
theorem C126_noError (B : Bench K ι) (hB : B.Ok) (D : DiffParams K) (heur : Roadmap.Roadmap (ι → K) (SP B) → Nat → K) (q0 : ι → K) (gs : List (ι → K)) (shoot : Nat → ι → K)
    (st : Settings K) (late intr : Nat → Bool) (fuel n : Nat) (x : Nat × (Nat → Bool)) (e : PlanErr) :
    solve (diffusing (env B hB) D heur q0 gs shoot) st late intr fuel (n, Roadmap.empty) ≠ .error e ∧
    solve (visibility (env B hB) heur q0 gs shoot) st late intr fuel (x, Roadmap.empty) ≠ .error e :=
  ⟨C67_diffusing_noError (contract B hB) D heur q0 gs shoot (fun _ => Option.some_ne_none _) ⟨Roadmap.Inv.empty, by simp [Roadmap.empty]⟩ st late intr fuel n e,
   C67_visibility_noError (contract B hB) heur q0 gs shoot (fun _ => Option.some_ne_none _) (s := (x, Roadmap.empty)) ⟨Roadmap.Inv.empty, by simp [Roadmap.empty]⟩ st late intr fuel e⟩

/-! ## A point in the plane and a square -/

namespace Plane

/-- Signed distance (for the maximum norm) of a point to the square of side 2 centered at (5, 0). -/
def sd (q : Fin 2 → ℚ) : ℚ := max |q 0 - 5| |q 1| - 1

def square : Obj ℚ (Fin 2) := ⟨sd, fun q => if 0 < sd q then some (sd q) else none⟩

def bench (m : Mode) : Bench ℚ (Fin 2) := ⟨fun a b => |a 0 - b 0| + |a 1 - b 1|, [⟨[square], fun _ => 1, 1/100⟩], m, 1/20, some (fun _ => -20, fun _ => 20), fun _ => 1⟩

theorem ok (m : Mode) : (bench m).Ok where
  nonneg a b := by simp only [bench]; positivity
  zero a b h := by
    simp only [bench] at h
    have h0 := abs_nonneg (a 0 - b 0)
    have h1 := abs_nonneg (a 1 - b 1)
    have e0 : a 0 - b 0 = 0 := abs_eq_zero.1 (by linarith)
    have e1 : a 1 - b 1 = 0 := abs_eq_zero.1 (by linarith)
    funext j
    fin_cases j
    · exact sub_eq_zero.1 e0
    · exact sub_eq_zero.1 e1
  tol _ c hc := by
    obtain rfl := List.mem_singleton.1 hc
    norm_num
  coef c hc j := by
    obtain rfl := List.mem_singleton.1 hc
    norm_num
  lower c hc o ho q d h := by
    obtain rfl := List.mem_singleton.1 hc
    obtain rfl := List.mem_singleton.1 ho
    simp only [square] at h ⊢
    split at h
    · next h1 => obtain rfl := Option.some.inj h; exact ⟨h1, le_rfl⟩
    · exact absurd h (by simp)
  lip c hc o ho a b := by
    obtain rfl := List.mem_singleton.1 hc
    obtain rfl := List.mem_singleton.1 ho
    simp only [square, sd, Fin.sum_univ_two, one_mul]
    have h := abs_max_sub_max_le_max (|a 0 - 5|) (|a 1|) (|b 0 - 5|) (|b 1|)
    have k0 : |(|a 0 - 5| - |b 0 - 5|)| ≤ |a 0 - b 0| := by
      refine (abs_abs_sub_abs_le _ _).trans (le_of_eq ?_)
      congr 1; ring
    have k1 : |(|a 1| - |b 1|)| ≤ |a 1 - b 1| := abs_abs_sub_abs_le _ _
    have e : max |a 0 - 5| |a 1| - 1 - (max |b 0 - 5| |b 1| - 1) = max |a 0 - 5| |a 1| - max |b 0 - 5| |b 1| := by ring
    rw [e]
    have n0 := abs_nonneg (a 0 - b 0)
    have n1 := abs_nonneg (a 1 - b 1)
    refine h.trans (max_le ?_ ?_) <;> linarith
  disc _ := by
    refine ⟨by norm_num [bench], fun j => by norm_num [bench], fun a b j => ?_⟩
    simp only [bench, one_mul]
    have n0 := abs_nonneg (a 0 - b 0)
    have n1 := abs_nonneg (a 1 - b 1)
    rw [abs_sub_comm (b j)]
    fin_cases j
    · simp
    · simp

/-- The configurations of a path that is returned. -/
def out {B : Bench ℚ (Fin 2)} (o : Res (List (SP B)) PlanErr) : Option (List (List ℚ × List ℚ)) := match o with
  | .path l => some (l.map fun p => ([p.1.q0 0, p.1.q0 1], [p.1.q1 0, p.1.q1 1]))
  | _ => none

def start : Fin 2 → ℚ := ![0, 0]
def goal : Fin 2 → ℚ := ![10, 0]
def shoot : Nat → Fin 2 → ℚ := fun n => if n % 2 = 0 then ![5, 4] else ![10, 0]

theorem start_free (m : Mode) : (bench m).Free start := by
  refine ⟨fun _ bd hbd j => ?_, fun c hc o ho => ?_⟩
  · obtain rfl : (fun _ => -20, fun _ => 20) = bd := Option.some.inj hbd
    fin_cases j <;> norm_num [start]
  · obtain rfl := List.mem_singleton.1 hc
    obtain rfl := List.mem_singleton.1 ho
    cases m <;> decide +kernel

/-- the configuration (5, 1/2) is not free -/
example : ¬ (bench .dichotomy).Free ![5, 1/2] := fun h => absurd (h.2 _ (List.mem_singleton.2 rfl) _ (List.mem_singleton.2 rfl)) (by decide +kernel)

/-- the direct path is not valid: the part kept stops before the square -/
example : ((env (bench .dichotomy) (ok .dichotomy)).validate false (line _ (ok .dichotomy) start goal)).1 = false := by decide +kernel
example : ((env (bench .progressive) (ok .progressive)).validate false (line _ (ok .progressive) start goal)).1 = false := by decide +kernel

/-- C126: the bound is reached: the part kept by the dichotomy ends inside of the square, at twice the tolerance from its boundary. -/
theorem C126_penetration_counterexample : ((env (bench .dichotomy) (ok .dichotomy)).validate false (line _ (ok .dichotomy) start goal)).2.1.q1 0 = 201 / 50 ∧
    sd ((env (bench .dichotomy) (ok .dichotomy)).validate false (line _ (ok .dichotomy) start goal)).2.1.q1 = -(2 * (1 / 100)) := by decide +kernel

/-- the four planners find a way around -/
example : out (solve (diffusing (env (bench .progressive) (ok .progressive)) ⟨-1, -1⟩ (fun _ _ => 0) start [goal] shoot) (Settings.default (K := ℚ)) (fun _ => false) (fun _ => false) 10
    (0, Roadmap.empty)) = some [([0, 0], [5, 4]), ([5, 4], [10, 0])] := by decide +kernel
example : out (solve (diffusing (env (bench .dichotomy) (ok .dichotomy)) ⟨-1, -1⟩ (fun _ _ => 0) start [goal] shoot) (Settings.default (K := ℚ)) (fun _ => false) (fun _ => false) 10
    (0, Roadmap.empty)) = some [([0, 0], [5, 4]), ([5, 4], [10, 0])] := by decide +kernel
example : out (solve (visibility (env (bench .dichotomy) (ok .dichotomy)) (fun _ _ => 0) start [goal] shoot) (Settings.default (K := ℚ)) (fun _ => false) (fun _ => false) 10
    ((0, fun _ => false), Roadmap.empty)) = some [([0, 0], [5, 4]), ([5, 4], [10, 0])] := by decide +kernel
example : out (solve (birrt (env (bench .dichotomy) (ok .dichotomy)) (fun _ _ => 0) start [goal] shoot) (Settings.default (K := ℚ)) (fun _ => false) (fun _ => false) 10
    (⟨0, [], 0⟩, Roadmap.empty)) = some [([0, 0], [5, 4]), ([5, 4], [10, 0])] := by decide +kernel

example : out (solve (diffusing (env (bench .discretized) (ok .discretized)) ⟨-1, -1⟩ (fun _ _ => 0) start [goal] shoot) (Settings.default (K := ℚ)) (fun _ => false) (fun _ => false) 10
    (0, Roadmap.empty)) = some [([0, 0], [5, 4]), ([5, 4], [10, 0])] := by decide +kernel

/-- the discretized validation of the direct path stops at the last sample before the square -/
example : ((env (bench .discretized) (ok .discretized)).validate false (line _ (ok .discretized) start goal)).1 = false ∧
    ((env (bench .discretized) (ok .discretized)).validate false (line _ (ok .discretized) start goal)).2.1.q1 0 = 79 / 20 := by decide +kernel

/-- A vertical wall between two samples of the direct path. -/
def wall : Obj ℚ (Fin 2) := ⟨fun q => |q 0 - 201 / 40| - 1 / 100, fun q => if 0 < |q 0 - 201 / 40| - 1 / 100 then some (|q 0 - 201 / 40| - 1 / 100) else none⟩

def thin : Bench ℚ (Fin 2) := { bench .discretized with pairs := [⟨[wall], fun _ => 1, 1/100⟩], bounds := none }

theorem thin_ok : thin.Ok where
  nonneg := (ok .discretized).nonneg
  zero := (ok .discretized).zero
  disc := (ok .discretized).disc
  tol h := absurd rfl h
  coef c hc j := by
    obtain rfl := List.mem_singleton.1 hc
    norm_num
  lower c hc o ho q d h := by
    obtain rfl := List.mem_singleton.1 hc
    obtain rfl := List.mem_singleton.1 ho
    simp only [wall] at h ⊢
    split at h
    · next h1 => obtain rfl := Option.some.inj h; exact ⟨h1, le_rfl⟩
    · exact absurd h (by simp)
  lip c hc o ho a b := by
    obtain rfl := List.mem_singleton.1 hc
    obtain rfl := List.mem_singleton.1 ho
    simp only [wall, Fin.sum_univ_two, one_mul]
    have n1 := abs_nonneg (a 1 - b 1)
    have k : |(|a 0 - 201 / 40| - |b 0 - 201 / 40|)| ≤ |a 0 - b 0| := by
      refine (abs_abs_sub_abs_le _ _).trans (le_of_eq ?_)
      congr 1; ring
    have e : |a 0 - 201 / 40| - 1 / 100 - (|b 0 - 201 / 40| - 1 / 100) = |a 0 - 201 / 40| - |b 0 - 201 / 40| := by ring
    rw [e]
    linarith

/-- C126: with the default validation (discretized), a path that is returned goes through a wall thinner than the step; the depth is within the bound of C126. -/
theorem C126_wall_counterexample :
    out (solve (diffusing (env thin thin_ok) ⟨-1, -1⟩ (fun _ _ => 0) start [goal] (fun _ => goal)) (Settings.default (K := ℚ)) (fun _ => false) (fun _ => false) 10
      (0, Roadmap.empty)) = some [([0, 0], [10, 0])] ∧
    wall.dist (conf (line thin thin_ok start goal).1 (201 / 40)) = -(1 / 100) ∧ wall.collide (conf (line thin thin_ok start goal).1 (201 / 40)) = none := by
  refine ⟨by decide +kernel, by decide +kernel, by decide +kernel⟩

end Plane

end Verif.EndToEnd
