import Verif.Planner.EndToEnd
set_option linter.unusedSectionVars false

/-!
# From the planners to the absence of collision, for robots with joints of any kind (C138)

As `EndToEnd`, without the assumption that the configuration space is a vector space.  Rotation joints and ball joints have pairs of configurations half a turn
apart: the reverse of a straight path between them goes through other configurations (C128), and planners store the reverse of the paths that they have validated.
Paths carry here one ghost bit: whether they come from the reversal of a straight path of half a turn, by extraction and reversal.  What planners return is proved
to be free of collision on all the pieces without this bit.
-/
namespace Verif.Turns
open Verif.PathV Verif.CV Verif.Planner
open Verif.EndToEnd (Mode)

variable {K C ι : Type} [Field K] [LinearOrder K] [IsStrictOrderedRing K] [FloorSemiring K] [Fintype ι]

/-- Two objects: signed distance (in the specification only) and answer of the collision library (`none`: collision). -/
structure Obj (K C : Type) where
  dist : C → K
  collide : C → Option K

/-- A pair of bodies: body-pair-collision.hh; `coef`: coefficients of the joints between the two bodies, in the direction that is used. -/
structure BodyPair (K C ι : Type) where
  objs : List (Obj K C)
  coef : ι → K
  tol : K

/-- A problem.  `space`: interpolation; `diff a b j`: norm of the part of `pinocchio::difference (b, a)`, from `a` to `b`, of joint `j` (solid-solid-collision.cc:82 uses norms
only; the sign is free for joints with one degree of freedom); `bounds`: test of the joint bounds, if it is made.  In the specification only: `short`: not half a turn for any joint;
`vmax`: bounds of the displacement of each joint along a path of unit length. -/
structure World (K C ι : Type) [Zero K] [One K] where
  space : Space K C
  diff : C → C → ι → K
  short : C → C → Prop
  metric : C → C → K
  pairs : List (BodyPair K C ι)
  mode : Mode
  step : K
  bounds : Option (C → Bool)
  vmax : ι → K

/-- What is assumed.  `fwd`: the segment from a point of a segment to a later one is the part between them; `back`: except for half turns, segments are the same in both
directions; `lip`: along a segment, distances vary no faster than the sum of the displacements of the degrees of freedom weighed by the coefficients. -/
structure World.Ok (W : World K C ι) : Prop where
  nonneg : ∀ a b, 0 ≤ W.metric a b
  zero : ∀ a b, W.metric a b = 0 → a = b
  fwd : ∀ a b u v w, 0 ≤ u → u ≤ v → v ≤ 1 → 0 ≤ w → w ≤ 1 → W.space.interp (W.space.interp a b u) (W.space.interp a b v) w = W.space.interp a b (u + w * (v - u))
  back : ∀ a b w, W.short a b → 0 ≤ w → w ≤ 1 → W.space.interp b a w = W.space.interp a b (1 - w)
  self : ∀ a, W.short a a
  diff_fwd : ∀ a b u v j, 0 ≤ u → u ≤ v → v ≤ 1 → |W.diff (W.space.interp a b u) (W.space.interp a b v) j| ≤ (v - u) * |W.diff a b j|
  diff_back : ∀ a b j, W.short a b → |W.diff b a j| ≤ |W.diff a b j|
  tol : W.mode ≠ .discretized → ∀ c ∈ W.pairs, 0 < c.tol
  coef : ∀ c ∈ W.pairs, ∀ j, 0 ≤ c.coef j
  lower : ∀ c ∈ W.pairs, ∀ o ∈ c.objs, ∀ q d, o.collide q = some d → 0 < d ∧ d ≤ o.dist q
  lip : ∀ c ∈ W.pairs, ∀ o ∈ c.objs, ∀ a b u v, 0 ≤ u → u ≤ 1 → 0 ≤ v → v ≤ 1 →
    |o.dist (W.space.interp a b u) - o.dist (W.space.interp a b v)| ≤ (∑ j, c.coef j * |W.diff a b j|) * |u - v|
  disc : W.mode = .discretized → 0 < W.step ∧ (∀ j, 0 ≤ W.vmax j) ∧ (∀ a b j, |W.diff a b j| ≤ W.vmax j * W.metric a b) ∧
    ∀ f ∈ W.bounds, ∀ a b u v w, 0 ≤ u → u ≤ w → w ≤ v → v ≤ 1 → f (W.space.interp a b u) = true → f (W.space.interp a b v) = true → f (W.space.interp a b w) = true

/-- Specification: the penetration that is accepted. -/
def World.slack (W : World K C ι) (c : BodyPair K C ι) : K := if W.mode = .discretized then (∑ j, c.coef j * W.vmax j) * (W.step / 2) else 2 * c.tol

/-- Specification: no pair of objects penetrates more than accepted, and, with the discretized validation that checks them, joints are within their
bounds. -/
def World.Free (W : World K C ι) (q : C) : Prop :=
  (W.mode = .discretized → ∀ f ∈ W.bounds, f q = true) ∧ ∀ c ∈ W.pairs, ∀ o ∈ c.objs, -W.slack c ≤ o.dist q

abbrev Line (K C : Type) := Straight K C

/-- Straight paths as built by the library without constraints. -/
def Built (p : Line K C) : Prop := p.pr.1 = 0 ∧ 0 ≤ p.pr.2 ∧ p.cons = none ∧ (p.pr.2 = 0 → p.q0 = p.q1)

/-- Displacements along the path are bounded by its length (needed with the discretized validation only). -/
def World.Slow (W : World K C ι) (p : Line K C) : Prop := W.mode = .discretized → ∀ j, |W.diff p.q0 p.q1 j| ≤ W.vmax j * p.pr.2

/-- The paths of the problem, with the ghost bit. -/
abbrev SP (W : World K C ι) := { p : Line K C × Bool // Built p.1 ∧ (p.2 = false → W.Slow p.1) ∧ (p.2 = true → ∃ a b, ¬ W.short a b) }

/-- Configuration at parameter `t`. -/
def conf (W : World K C ι) (p : Line K C) (t : K) : C := p.impl W.space t

/-- `StraightPath::impl_velocityBound`: straight-path.cc:132-140. -/
def velocityBound (W : World K C ι) (p : Line K C) (j : ι) : K := if p.pr.1 = p.pr.2 then 0 else |W.diff p.q0 p.q1 j| / (p.pr.2 - p.pr.1)

/-- `computeMaximalVelocity`: solid-solid-collision.cc:76-99. -/
def speed (W : World K C ι) (p : Line K C) (c : BodyPair K C ι) : K := ∑ j, c.coef j * velocityBound W p j

/-- The pair once the path is set: interval-validation.hh:84-90, body-pair-collision.cc:102-120. -/
def pairCfg (W : World K C ι) (p : Line K C) (c : BodyPair K C ι) : PairCfg K :=
  ⟨c.objs.map fun o => ⟨fun t => o.collide (conf W p t), fun t => o.dist (conf W p t)⟩, fun _ _ => speed W p c, c.tol, p.pr.1, p.pr.2, true⟩

def cfgs (W : World K C ι) (p : Line K C) : List (PairCfg K) := W.pairs.map (pairCfg W p)

/-- Smallest tolerance and largest velocity, used only for the number of iterations. -/
def minTol (W : World K C ι) : K := (W.pairs.map (·.tol)).foldr min 1
def maxVel (W : World K C ι) (p : Line K C) : K := (W.pairs.map (speed W p)).sum + 1
def steps (W : World K C ι) (p : Line K C) : Nat := ⌈p.pr.2 / (2 * minTol W / maxVel W p)⌉₊

/-- Configuration validations of the discretized path validation: problem-solver.cc:119-127, discretized-collision-checking.cc:37-43, joint-bound-validation.cc:54-82,
collision-validation.cc:60-88. -/
def okConf (W : World K C ι) (q : C) : Bool := W.bounds.all (fun f => f q) && W.pairs.all fun c => c.objs.all fun o => (o.collide q).isSome

/-- `PathValidation::validate` on a straight path: src/continuous-validation.cc:150-186 with one of the two loops, or src/path-validation/discretized.cc:55-107.  The
number of iterations is enough for the loop to end (`check_ok`). -/
def check (W : World K C ι) (rev : Bool) (p : Line K C) : Except PathV.Err (Bool × Line K C × Option K × Nat) := match W.mode with
  | .dichotomy => dichotomy (straightOps W.space) (cvQuery (fun _ => true) p.pr.1 p.pr.2) (startPairs (cfgs W p)) rev (steps W p + 2) p
  | .progressive => progressive (straightOps W.space) (cvQuery (fun _ => true) p.pr.1 p.pr.2) (startPairs (cfgs W p)) rev (steps W p + 3) p
  | .discretized => Validation.discretized (straightOps W.space) (okConf W) W.step rev (⌊p.pr.2 / W.step⌋₊ + 1 + 2) p

/-- Extraction of a straight path: straight-path.cc:142-158 (`rawExt_eq`). -/
def rawExt (W : World K C ι) (p : Line K C) (a b : K) : Line K C := ⟨(0, |b - a|), conf W p a, conf W p b, none⟩

theorem rawExt_eq (W : World K C ι) (p : Line K C) (h : Built p) (a b : K) : p.extract W.space a b = .ok (rawExt W p a b) := by
  simp only [Straight.extract, Straight.eval, constrained, h.2.2.1, rawExt, conf]

theorem rawExt_built (W : World K C ι) (p : Line K C) (a b : K) : Built (rawExt W p a b) :=
  ⟨rfl, abs_nonneg _, rfl, fun h => by rw [rawExt, sub_eq_zero.1 (abs_eq_zero.1 h)]⟩

/-! ## Configurations along a path -/

theorem conf_interp (W : World K C ι) {p : Line K C} (h : Built p) (hp : 0 < p.pr.2) (t : K) : conf W p t = W.space.interp p.q0 p.q1 (t / p.pr.2) := by
  unfold conf
  rw [p.impl_eq W.space (by rw [h.1]; exact hp), h.1, sub_zero, sub_zero]

theorem conf_point (W : World K C ι) {p : Line K C} (h : Built p) (hp : p.pr.2 = 0) (t : K) : conf W p t = p.q0 := by
  simp [conf, Straight.impl, h.1, hp]

theorem conf_zero (W : World K C ι) {p : Line K C} (h : Built p) : conf W p 0 = p.q0 := by simp [conf, Straight.impl, h.1]

theorem conf_end (W : World K C ι) {p : Line K C} (h : Built p) : conf W p p.pr.2 = p.q1 := by
  rcases h.2.1.eq_or_lt with e | e
  · rw [conf_point W h e.symm, h.2.2.2 e.symm]
  · rw [conf_interp W h e, div_self e.ne', W.space.one]

/-- A part of a path, in the same direction. -/
theorem conf_ext (W : World K C ι) (hW : W.Ok) {p : Line K C} (h : Built p) {a b : K} (h0 : 0 ≤ a) (hab : a ≤ b) (hb : b ≤ p.pr.2) {t : K} (t0 : 0 ≤ t) (t1 : t ≤ b - a) :
    conf W (rawExt W p a b) t = conf W p (a + t) := by
  rcases h.2.1.eq_or_lt with e | e
  · have ea : a = 0 := by linarith
    have eb : b = 0 := by linarith
    have et : t = 0 := by linarith
    subst ea eb et
    rw [conf_zero W (rawExt_built W p 0 0), add_zero]; rfl
  · rcases hab.eq_or_lt with eab | lab
    · have et : t = 0 := by linarith
      subst et
      rw [conf_zero W (rawExt_built W p a b), add_zero]; rfl
    · have hl : (rawExt W p a b).pr.2 = b - a := abs_of_nonneg (by linarith)
      have hp : 0 < b - a := by linarith
      rw [conf_interp W (rawExt_built W p a b) (by rw [hl]; exact hp), hl]
      show W.space.interp (conf W p a) (conf W p b) _ = _
      rw [conf_interp W h e, conf_interp W h e, conf_interp W h e, hW.fwd _ _ _ _ _ (div_nonneg h0 e.le) (div_le_div_of_nonneg_right hab e.le) ((div_le_one e).2 hb) (div_nonneg t0 hp.le)
        ((div_le_one hp).2 t1)]
      congr 1
      field_simp

/-- The reverse of a path that is not half a turn. -/
theorem conf_rev (W : World K C ι) (hW : W.Ok) {p : Line K C} (h : Built p) (hs : W.short p.q0 p.q1) {t : K} (t0 : 0 ≤ t) (t1 : t ≤ p.pr.2) :
    conf W (rawExt W p p.pr.2 p.pr.1) t = conf W p (p.pr.2 - t) := by
  rcases h.2.1.eq_or_lt with e | e
  · have et : t = 0 := by linarith
    subst et
    rw [conf_zero W (rawExt_built W p _ _), sub_zero]; rfl
  · have hl : (rawExt W p p.pr.2 p.pr.1).pr.2 = p.pr.2 := by
      show |p.pr.1 - p.pr.2| = _
      rw [h.1, zero_sub, abs_neg, abs_of_pos e]
    rw [conf_interp W (rawExt_built W p _ _) (by rw [hl]; exact e), hl]
    show W.space.interp (conf W p p.pr.2) (conf W p p.pr.1) _ = _
    rw [conf_end W h, h.1, conf_zero W h, hW.back _ _ _ hs (div_nonneg t0 e.le) ((div_le_one e).2 t1), conf_interp W h e]
    congr 1
    field_simp

theorem velocityBound_nonneg (W : World K C ι) {p : Line K C} (h : Built p) (j : ι) : 0 ≤ velocityBound W p j := by
  unfold velocityBound
  split
  · exact le_rfl
  · exact div_nonneg (abs_nonneg _) (by rw [h.1, sub_zero]; exact h.2.1)

/-- Distances along a path. -/
theorem lip_path (W : World K C ι) (hW : W.Ok) {p : Line K C} (h : Built p) {c : BodyPair K C ι} (hc : c ∈ W.pairs) {o : Obj K C} (ho : o ∈ c.objs) {s t : K} (s0 : 0 ≤ s) (s1 : s ≤ p.pr.2)
    (t0 : 0 ≤ t) (t1 : t ≤ p.pr.2) : |o.dist (conf W p s) - o.dist (conf W p t)| ≤ speed W p c * |s - t| := by
  rcases h.2.1.eq_or_lt with e | e
  · have es : s = 0 := by linarith
    have et : t = 0 := by linarith
    subst es et
    simp
  · rw [conf_interp W h e, conf_interp W h e]
    refine (hW.lip c hc o ho _ _ _ _ (div_nonneg s0 e.le) ((div_le_one e).2 s1) (div_nonneg t0 e.le) ((div_le_one e).2 t1)).trans (le_of_eq ?_)
    have hv : ∀ j, velocityBound W p j = |W.diff p.q0 p.q1 j| / p.pr.2 := by
      intro j
      unfold velocityBound
      rw [if_neg (by rw [h.1]; exact e.ne), h.1, sub_zero]
    unfold speed
    simp only [hv]
    rw [← sub_div, abs_div, abs_of_pos e, Finset.sum_mul, Finset.sum_mul]
    refine Finset.sum_congr rfl fun j _ => ?_
    field_simp

theorem slow_ext (W : World K C ι) (hW : W.Ok) {p : Line K C} (h : Built p) (hs : W.Slow p) {a b : K} (h0 : 0 ≤ a) (hab : a ≤ b) (hb : b ≤ p.pr.2) : W.Slow (rawExt W p a b) := by
  intro hm j
  obtain ⟨-, d2, -⟩ := hW.disc hm
  show |W.diff (conf W p a) (conf W p b) j| ≤ W.vmax j * |b - a|
  rw [abs_of_nonneg (sub_nonneg.2 hab)]
  rcases h.2.1.eq_or_lt with e | e
  · rw [conf_point W h e.symm, conf_point W h e.symm]
    have := hs hm j
    rw [← h.2.2.2 e.symm, ← e, mul_zero] at this
    exact this.trans (mul_nonneg (d2 j) (sub_nonneg.2 hab))
  · rw [conf_interp W h e, conf_interp W h e]
    refine (hW.diff_fwd _ _ _ _ j (div_nonneg h0 e.le) (div_le_div_of_nonneg_right hab e.le) ((div_le_one e).2 hb)).trans ?_
    have := hs hm j
    rw [← sub_div, div_mul_eq_mul_div, div_le_iff₀ e]
    have := mul_le_mul_of_nonneg_left this (sub_nonneg.2 hab)
    linarith

theorem slow_rev (W : World K C ι) (hW : W.Ok) {p : Line K C} (h : Built p) (hs : W.Slow p) (hsh : W.short p.q0 p.q1) : W.Slow (rawExt W p p.pr.2 p.pr.1) := by
  intro hm j
  show |W.diff (conf W p p.pr.2) (conf W p p.pr.1) j| ≤ W.vmax j * |p.pr.1 - p.pr.2|
  rw [conf_end W h, h.1, conf_zero W h, zero_sub, abs_neg, abs_of_nonneg h.2.1]
  exact (hW.diff_back _ _ j hsh).trans (hs hm j)

/-! ## The calls of the planners -/

/-- Extraction of a part in the same direction, with the proof that the result is one of the paths considered. -/
def ext {W : World K C ι} (hW : W.Ok) (p : SP W) (a b : K) (h0 : 0 ≤ a) (hab : a ≤ b) (hb : b ≤ p.1.1.pr.2) : SP W :=
  ⟨(rawExt W p.1.1 a b, p.1.2), rawExt_built W _ _ _, fun h => slow_ext W hW p.2.1 (p.2.2.1 h) h0 hab hb, p.2.2.2⟩

open Classical in
/-- `Path::reverse`: path.cc:228-233; the ghost bit is set by the reversal of half a turn. -/
noncomputable def rev {W : World K C ι} (hW : W.Ok) (p : SP W) : SP W :=
  ⟨(rawExt W p.1.1 p.1.1.pr.2 p.1.1.pr.1, p.1.2 || !decide (W.short p.1.1.q0 p.1.1.q1)), rawExt_built W _ _ _, fun h => by
      simp only [Bool.or_eq_false_iff, Bool.not_eq_false', decide_eq_true_eq] at h
      exact slow_rev W hW p.2.1 (p.2.2.1 h.1) h.2, fun h => by
      simp only [Bool.or_eq_true, Bool.not_eq_true', decide_eq_false_iff_not] at h
      rcases h with h | h
      · exact p.2.2.2 h
      · exact ⟨_, _, h⟩⟩

/-- `steeringMethod::Straight::impl_compute` without constraints: straight.cc:38-52. -/
def line (W : World K C ι) (hW : W.Ok) (a b : C) : SP W :=
  ⟨(⟨(0, W.metric a b), a, b, none⟩, false), ⟨rfl, hW.nonneg a b, rfl, hW.zero a b⟩, fun _ hm j => (hW.disc hm).2.2.1 a b j, fun h => by cases h⟩

open Classical in
/-- The calls of the planners.  Planners extract only parts inside of the range of the path, in the same direction (diffusing-planner.cc:132-135, 219-223, bi-rrt-star.cc:301-304): elsewhere
`extract` is left equal to the identity.  Without constraints every configuration is accepted as its projection. -/
noncomputable def env (W : World K C ι) (hW : W.Ok) : PEnv C (SP W) K where
  dist := W.metric
  rev := rev hW
  zeroLength p := decide (p.1.1.pr.2 = 0)
  ini p := conf W p.1.1 p.1.1.pr.1
  fin p := conf W p.1.1 p.1.1.pr.2
  t0 p := p.1.1.pr.1
  t1 p := p.1.1.pr.2
  len p := p.1.1.pr.2 - p.1.1.pr.1
  extract p a b := if h : 0 ≤ a ∧ a ≤ b ∧ b ≤ p.1.1.pr.2 then ext hW p a b h.1 h.2.1 h.2.2 else p
  steer a b := some (line W hW a b)
  projector := none
  validate rv p := match check W rv p.1.1 with
    | .error _ => (false, p)
    | .ok (v, vp, _) => (v, if h : Built vp ∧ (p.1.2 = false → W.Slow vp) then ⟨(vp, p.1.2), h.1, h.2, p.2.2.2⟩ else p)
  onKernel _ q := some q

/-- The path is free at all parameters. -/
def Valid (W : World K C ι) (p : Line K C) : Prop := ∀ t, 0 ≤ t → t ≤ p.pr.2 → W.Free (conf W p t)

/-- Valid, or obtained by the reversal of half a turn. -/
def ValidOrTurned (W : World K C ι) (p : SP W) : Prop := Valid W p.1.1 ∨ p.1.2 = true

/-! ## Validation -/

theorem good {W : World K C ι} (p : SP W) : p.1.1.pr.1 ≤ p.1.1.pr.2 := by rw [p.2.1.1]; exact p.2.1.2.1

theorem speed_nonneg (W : World K C ι) (hW : W.Ok) {p : Line K C} (h : Built p) {c : BodyPair K C ι} (hc : c ∈ W.pairs) : 0 ≤ speed W p c :=
  Finset.sum_nonneg fun j _ => mul_nonneg (hW.coef c hc j) (velocityBound_nonneg W h j)

theorem cfgOK (W : World K C ι) (hW : W.Ok) (hm : W.mode ≠ .discretized) {p : Line K C} (h : Built p) {c : BodyPair K C ι} (hc : c ∈ W.pairs) : CfgOK (pairCfg W p c) where
  le := by show p.pr.1 ≤ p.pr.2; rw [h.1]; exact h.2.1
  tol := (hW.tol hm c hc).le
  lower := by
    intro o ho t d hd
    obtain ⟨o', ho', rfl⟩ := List.mem_map.1 ho
    exact hW.lower c hc o' ho' _ d hd
  lip := by
    intro o ho tm tM u v u0 u1 v0 v1 _ _
    obtain ⟨o', ho', rfl⟩ := List.mem_map.1 ho
    change p.pr.1 ≤ u at u0
    change p.pr.1 ≤ v at v0
    rw [h.1] at u0 v0
    exact lip_path W hW h hc ho' u0 u1 v0 v1
  nonneg := fun _ _ => speed_nonneg W hW h hc
  mono := fun _ _ _ _ _ => le_rfl

theorem pairsOK (W : World K C ι) (hW : W.Ok) (hm : W.mode ≠ .discretized) {p : Line K C} (h : Built p) : PairsOK p.pr.1 p.pr.2 (cfgs W p) := by
  intro c hc
  obtain ⟨c', hc', rfl⟩ := List.mem_map.1 hc
  exact ⟨cfgOK W hW hm h hc', rfl, rfl, Or.inl (by simp [CV.refine, pairCfg])⟩

/-- Number of iterations: enough. -/
theorem term (W : World K C ι) (hW : W.Ok) (hm : W.mode ≠ .discretized) {p : Line K C} (h : Built p) : 0 < minTol W ∧ 0 < maxVel W p ∧
    ∀ c ∈ cfgs W p, CfgOK c ∧ c.lo = p.pr.1 ∧ c.hi = p.pr.2 ∧ (∀ tm tM, c.vel tm tM ≤ maxVel W p) ∧ minTol W ≤ c.tol := by
  have hn : ∀ x ∈ W.pairs.map (speed W p), 0 ≤ x := by
    intro x hx
    obtain ⟨c, hc, rfl⟩ := List.mem_map.1 hx
    exact speed_nonneg W hW h hc
  obtain ⟨t1, t2⟩ := EndToEnd.minTol_spec (W.pairs.map (·.tol)) (by
    intro x hx
    obtain ⟨c, hc, rfl⟩ := List.mem_map.1 hx
    exact hW.tol hm c hc)
  refine ⟨t1, ?_, ?_⟩
  · have := List.sum_nonneg hn
    unfold maxVel; linarith
  · intro c hc
    obtain ⟨c', hc', rfl⟩ := List.mem_map.1 hc
    refine ⟨cfgOK W hW hm h hc', rfl, rfl, fun _ _ => ?_, t2 _ (List.mem_map.2 ⟨c', hc', rfl⟩)⟩
    have := List.single_le_sum hn (speed W p c') (List.mem_map.2 ⟨c', hc', rfl⟩)
    show speed W p c' ≤ maxVel W p
    unfold maxVel; linarith

theorem eval_line (W : World K C ι) {p : Line K C} (h : Built p) (t : K) : (straightOps W.space).eval p t = .ok (conf W p t) := by
  simp only [straightOps, Straight.eval, constrained, h.2.2.1, conf]

theorem okConf_spec (W : World K C ι) (q : C) (h : okConf W q = true) :
    (∀ f ∈ W.bounds, f q = true) ∧ ∀ c ∈ W.pairs, ∀ o ∈ c.objs, ∃ d, o.collide q = some d := by
  simp only [okConf, Bool.and_eq_true, List.all_eq_true, Option.isSome_iff_exists, Option.all_eq_true] at h
  exact h

theorem sampling_mem {L : List K} {a b h : K} (hL : Validation.Sampling L a b h) : ∀ x ∈ L, a ≤ x ∧ x ≤ b := by
  induction L generalizing a with
  | nil => simp
  | cons x l ih =>
    have hxa : x = a := by simpa using hL.head
    subst hxa
    cases l with
    | nil =>
      have hxb : x = b := by simpa using hL.last
      subst hxb
      intro z hz
      rw [List.mem_singleton.1 hz]
      exact ⟨le_rfl, le_rfl⟩
    | cons y l =>
      have hg := List.isChain_cons_cons.1 hL.gaps
      have hs : Validation.Sampling (y :: l) y b h := ⟨rfl, by simpa using hL.last, hg.2⟩
      have k := ih hs
      intro z hz
      rcases List.mem_cons.1 hz with rfl | hz
      · exact ⟨le_rfl, hg.1.1.trans (k y (by simp)).2⟩
      · exact ⟨hg.1.1.trans (k z hz).1, (k z hz).2⟩

/-- Between samples accepted by the discretized validation. -/
theorem sampled_free (W : World K C ι) (hW : W.Ok) (hm : W.mode = .discretized) {p : Line K C} (h : Built p) (hs : W.Slow p) (L : List K) (a b : K) (h0 : 0 ≤ a) (hb : b ≤ p.pr.2)
    (hL : Validation.Sampling L a b W.step) (hg : ∀ t ∈ L, Validation.Good (straightOps W.space) (okConf W) p t) (t : K) (h1 : a ≤ t) (h2 : t ≤ b) : W.Free (conf W p t) := by
  obtain ⟨d1, d2, -, d4⟩ := hW.disc hm
  have hin := sampling_mem hL
  obtain ⟨x, hx, y, hy, x1, y1, xy⟩ := hL.between d1.le t h1 h2
  have ok : ∀ u ∈ L, okConf W (conf W p u) = true := by
    intro u hu
    obtain ⟨q, e, h'⟩ := hg u hu
    rw [eval_line W h] at e
    exact Except.ok.inj e ▸ h'
  obtain ⟨ox, cx⟩ := okConf_spec W _ (ok x hx)
  obtain ⟨oy, cy⟩ := okConf_spec W _ (ok y hy)
  have x0 := h0.trans (hin x hx).1
  have yb := (hin y hy).2.trans hb
  refine ⟨fun _ f hf => ?_, fun c hc o ho => ?_⟩
  · rcases h.2.1.eq_or_lt with e | e
    · have : t = x := by linarith
      rw [this]; exact ox f hf
    · have kx := ox f hf; have ky := oy f hf
      rw [conf_interp W h e] at kx ky ⊢
      exact d4 f hf _ _ _ _ _ (div_nonneg x0 e.le) (div_le_div_of_nonneg_right x1 e.le) (div_le_div_of_nonneg_right y1 e.le) ((div_le_one e).2 yb) kx ky
  · -- the closest of the two samples
    obtain ⟨z, hz, hzt⟩ : ∃ z ∈ L, |z - t| ≤ W.step / 2 := by
      rcases le_total (t - x) (y - t) with h | h
      · exact ⟨x, hx, by rw [abs_sub_comm, abs_of_nonneg (sub_nonneg.2 x1)]; linarith⟩
      · exact ⟨y, hy, by rw [abs_of_nonneg (sub_nonneg.2 y1)]; linarith⟩
    obtain ⟨d, hd⟩ := (okConf_spec W _ (ok z hz)).2 c hc o ho
    obtain ⟨p1, p2⟩ := hW.lower c hc o ho _ d hd
    have hzin := hin z hz
    have l := lip_path W hW h hc ho (s := z) (t := t) (by linarith [hzin.1]) (by linarith [hzin.2]) (by linarith) (by linarith)
    have l2 : speed W p c * |z - t| ≤ W.slack c := by
      rw [World.slack, if_pos hm]
      refine mul_le_mul ?_ hzt (abs_nonneg _) (Finset.sum_nonneg fun j _ => mul_nonneg (hW.coef c hc j) (d2 j))
      refine Finset.sum_le_sum fun j _ => mul_le_mul_of_nonneg_left ?_ (hW.coef c hc j)
      unfold velocityBound
      split
      · exact d2 j
      · next hne =>
        rw [h.1] at hne ⊢
        rw [sub_zero, div_le_iff₀ (lt_of_le_of_ne h.2.1 hne)]
        exact hs hm j
    have := (abs_le.1 (l.trans l2)).2
    linarith

/-- The continuous validation ends, and returns what C31 and C32 say. -/
theorem check_continuous (W : World K C ι) (hW : W.Ok) (hm : W.mode ≠ .discretized) (rev : Bool) {p : Line K C} (hp : Built p) :
    ∃ v vp rep n, check W rev p = .ok (v, vp, rep, n) ∧ (v = true → vp = p ∧ (W.Slow p → Valid W p)) ∧
      (v = false → ∃ tl, 0 ≤ tl ∧ tl ≤ p.pr.2 ∧ if rev then vp = rawExt W p tl p.pr.2 ∧ (tl = p.pr.2 ∨ (W.Slow p → ∀ t, tl ≤ t → t ≤ p.pr.2 → W.Free (conf W p t)))
        else vp = rawExt W p p.pr.1 tl ∧ (tl = 0 ∨ (W.Slow p → ∀ t, 0 ≤ t → t ≤ tl → W.Free (conf W p t)))) := by
  obtain ⟨h1, h2, h3⟩ := term W hW hm hp
  have h0 : p.pr.1 = 0 := hp.1
  have hle : p.pr.1 ≤ p.pr.2 := by rw [hp.1]; exact hp.2.1
  have hδ : 0 < 2 * minTol W / maxVel W p := div_pos (by linarith) h2
  have hlen : p.pr.2 ≤ (steps W p : K) * (2 * minTol W / maxVel W p) := by
    rw [← div_le_iff₀ hδ]; exact Nat.le_ceil _
  have hO : (straightOps W.space).len p = p.pr.2 := by simp [Ops.len, straightOps, h0]
  have hex : ∀ a b, ∃ q, (straightOps W.space).extract p a b = .ok q := fun a b => ⟨_, rawExt_eq W p hp a b⟩
  have hq := cvQuery_ok (fun _ => true) p.pr.1 p.pr.2 (cfgs W p)
  have hs := startPairs_inv _ _ _ (pairsOK W hW hm hp)
  have hfree : ∀ t, (∀ c ∈ cfgs W p, PairFree c t) → W.Free (conf W p t) := by
    intro t h
    refine ⟨fun hd => absurd hd hm, fun c hc o ho => ?_⟩
    rw [World.slack, if_neg hm]
    exact h (pairCfg W p c) (List.mem_map.2 ⟨c, hc, rfl⟩) ⟨fun t => o.collide (conf W p t), fun t => o.dist (conf W p t)⟩ (List.mem_map.2 ⟨o, ho, rfl⟩)
  have hE : ∀ a b vp, (straightOps W.space).extract p a b = .ok vp → vp = rawExt W p a b := by
    intro a b vp h
    have := (rawExt_eq W p hp a b).symm.trans h
    exact (Except.ok.inj this).symm
  unfold check
  cases hd : W.mode with
  | dichotomy =>
    simp only
    obtain ⟨v, vp, rep, n, hr, -⟩ := C64_dichotomy (straightOps W.space) (fun _ => true) rev (steps W p + 1) p hle (cfgs W p) (maxVel W p) (minTol W) h2 h1 h3
      (by rw [hO]; push_cast; linarith) hex
    refine ⟨v, vp, rep, n, hr, fun hv => ?_, fun hv => ?_⟩
    · subst hv
      obtain ⟨k1, -, k3⟩ := C32_valid _ _ _ rev _ p hle _ _ hq hs vp rep n hr
      exact ⟨k1, fun _ t t0 t1 => hfree t (k3 t (by show p.pr.1 ≤ t; rw [h0]; exact t0) t1)⟩
    · subst hv
      obtain ⟨tf, tl, -, k1, k2, -, k3⟩ := C32_fail _ _ _ rev _ p hle _ _ hq hs vp rep n hr
      change p.pr.1 ≤ tf at k1; change tf ≤ p.pr.2 at k2
      rw [h0] at k1
      cases rev with
      | true =>
        simp only [if_true] at k3 ⊢
        obtain ⟨k3, k4⟩ := k3
        rcases k4 with ⟨-, k5⟩ | ⟨k4, k5, k6⟩
        · exact ⟨tl, by rw [k5]; exact hp.2.1, le_of_eq k5, hE _ _ _ k3, Or.inl k5⟩
        · exact ⟨tl, k1.trans k4.le, k5, hE _ _ _ k3, Or.inr fun _ t t0 t1 => hfree t (k6 t t0 t1)⟩
      | false =>
        simp only [Bool.false_eq_true, if_false] at k3 ⊢
        obtain ⟨k3, k4⟩ := k3
        rcases k4 with ⟨-, k5⟩ | ⟨k4, k5, k6⟩
        · change tl = p.pr.1 at k5
          rw [h0] at k5
          exact ⟨tl, by rw [k5], by rw [k5]; exact hp.2.1, hE _ _ _ k3, Or.inl k5⟩
        · change p.pr.1 ≤ tl at k4
          change ∀ t, p.pr.1 ≤ t → t ≤ tl → _ at k6
          rw [h0] at k4
          exact ⟨tl, k4, k5.le.trans k2, hE _ _ _ k3, Or.inr fun _ t t0 t1 => hfree t (k6 t (by rw [h0]; exact t0) t1)⟩
  | progressive =>
    simp only
    obtain ⟨v, vp, rep, n, hr, -⟩ := C64_progressive (straightOps W.space) (fun _ => true) rev (steps W p + 3) (steps W p) p hle (cfgs W p) (maxVel W p) (minTol W) h2 h1 h3
      (by rw [hO]; exact hlen) le_rfl hex
    refine ⟨v, vp, rep, n, hr, fun hv => ?_, fun hv => ?_⟩
    · subst hv
      obtain ⟨k1, -, k3⟩ := C31_valid _ _ _ rev _ p hle _ _ hq hs vp rep n hr
      exact ⟨k1, fun _ t t0 t1 => hfree t (k3 t (by show p.pr.1 ≤ t; rw [h0]; exact t0) t1)⟩
    · subst hv
      obtain ⟨tf, tl, -, k1, k2, -, k3⟩ := C31_fail _ _ _ rev _ p hle _ _ hq hs vp rep n hr
      change p.pr.1 ≤ tf at k1; change tf ≤ p.pr.2 at k2
      rw [h0] at k1
      cases rev with
      | true =>
        simp only [if_true] at k3 ⊢
        obtain ⟨k3, k4, k5, k6⟩ := k3
        refine ⟨tl, k1.trans k4, k5, hE _ _ _ k3, ?_⟩
        rcases k6 with ⟨-, k6⟩ | k6
        · exact Or.inl k6
        · exact Or.inr fun _ t t0 t1 => hfree t (k6 t (k4.trans t0) t1)
      | false =>
        simp only [Bool.false_eq_true, if_false] at k3 ⊢
        obtain ⟨k3, k4, k5, k6⟩ := k3
        change p.pr.1 ≤ tl at k4
        rw [h0] at k4
        refine ⟨tl, k4, k5.trans k2, hE _ _ _ k3, ?_⟩
        rcases k6 with ⟨-, k6⟩ | k6
        · change tl = p.pr.1 at k6
          exact Or.inl (k6.trans h0)
        · exact Or.inr fun _ t t0 t1 => hfree t (k6 t (by show p.pr.1 ≤ t; rw [h0]; exact t0) (t1.trans k5))
  | discretized => exact absurd hd hm

/-- The discretized validation ends, and returns what C29 says. -/
theorem check_discretized (W : World K C ι) (hW : W.Ok) (hm : W.mode = .discretized) (rev : Bool) {p : Line K C} (hp : Built p) :
    ∃ v vp rep n, check W rev p = .ok (v, vp, rep, n) ∧ (v = true → vp = p ∧ (W.Slow p → Valid W p)) ∧
      (v = false → ∃ tl, 0 ≤ tl ∧ tl ≤ p.pr.2 ∧ if rev then vp = rawExt W p tl p.pr.2 ∧ (tl = p.pr.2 ∨ (W.Slow p → ∀ t, tl ≤ t → t ≤ p.pr.2 → W.Free (conf W p t)))
        else vp = rawExt W p p.pr.1 tl ∧ (tl = 0 ∨ (W.Slow p → ∀ t, 0 ≤ t → t ≤ tl → W.Free (conf W p t)))) := by
  obtain ⟨d1, -, -⟩ := hW.disc hm
  have h0 : p.pr.1 = 0 := hp.1
  have hle : p.pr.1 ≤ p.pr.2 := by rw [hp.1]; exact hp.2.1
  have hex : ∀ a b, ∃ q, (straightOps W.space).extract p a b = .ok q := fun a b => ⟨_, rawExt_eq W p hp a b⟩
  have hE : ∀ a b vp, (straightOps W.space).extract p a b = .ok vp → vp = rawExt W p a b := by
    intro a b vp h
    have := (rawExt_eq W p hp a b).symm.trans h
    exact (Except.ok.inj this).symm
  have hlen : p.pr.2 - p.pr.1 < ((⌊p.pr.2 / W.step⌋₊ + 1 : ℕ) : K) * W.step := by
    rw [h0, sub_zero, ← div_lt_iff₀ d1]
    push_cast
    exact Nat.lt_floor_add_one _
  unfold check
  rw [hm]
  simp only
  obtain ⟨v, vp, rep, n, hr, -⟩ := Validation.C30_terminates (straightOps W.space) (okConf W) W.step d1 rev (⌊p.pr.2 / W.step⌋₊ + 1 + 2) (⌊p.pr.2 / W.step⌋₊ + 1) p hle
    hlen le_rfl hex
  refine ⟨v, vp, rep, n, hr, fun hv => ?_, fun hv => ?_⟩
  · subst hv
    obtain ⟨k1, -, L, k2, k3⟩ := Validation.C29_valid _ _ _ d1 rev _ p hle vp rep n hr
    refine ⟨k1, fun hs t t0 t1 => sampled_free W hW hm hp hs L _ _ h0.ge le_rfl k2 k3 t ?_ t1⟩
    show p.pr.1 ≤ t
    rw [h0]; exact t0
  · subst hv
    obtain ⟨tf, -, k1, k2, -, k3⟩ := Validation.C29_fail _ _ _ d1 rev _ p hle vp rep n hr
    change p.pr.1 ≤ tf at k1; change tf ≤ p.pr.2 at k2
    rw [h0] at k1
    cases rev with
    | true =>
      simp only [if_true] at k3 ⊢
      rcases k3 with ⟨-, k4⟩ | ⟨tl, L, k4, k5, k6, k7, -⟩
      · exact ⟨p.pr.2, hp.2.1, le_rfl, hE _ _ _ k4, Or.inl rfl⟩
      · have hl : tl ≤ p.pr.2 := k5.le
        exact ⟨tl, k1.trans k7.le, hl, hE _ _ _ k4, Or.inr fun hs t t0 t1 => sampled_free W hW hm hp hs L _ _ (k1.trans k7.le) le_rfl k5 k6 t t0 t1⟩
    | false =>
      simp only [Bool.false_eq_true, if_false] at k3 ⊢
      rcases k3 with ⟨-, k4⟩ | ⟨tl, L, k4, k5, k6, k7, -⟩
      · exact ⟨p.pr.1, h0.ge, hle, hE _ _ _ k4, Or.inl h0⟩
      · have hl : p.pr.1 ≤ tl := k5.le
        exact ⟨tl, h0 ▸ hl, k7.le.trans k2, hE _ _ _ k4, Or.inr fun hs t t0 t1 => sampled_free W hW hm hp hs L _ _ h0.ge (k7.le.trans k2) k5 k6 t (by show p.pr.1 ≤ t; rw [h0]; exact t0) t1⟩

/-- The validation ends, and returns what C29, C31 and C32 say. -/
theorem check_ok (W : World K C ι) (hW : W.Ok) (rev : Bool) {p : Line K C} (hp : Built p) :
    ∃ v vp rep n, check W rev p = .ok (v, vp, rep, n) ∧ (v = true → vp = p ∧ (W.Slow p → Valid W p)) ∧
      (v = false → ∃ tl, 0 ≤ tl ∧ tl ≤ p.pr.2 ∧ if rev then vp = rawExt W p tl p.pr.2 ∧ (tl = p.pr.2 ∨ (W.Slow p → ∀ t, tl ≤ t → t ≤ p.pr.2 → W.Free (conf W p t)))
        else vp = rawExt W p p.pr.1 tl ∧ (tl = 0 ∨ (W.Slow p → ∀ t, 0 ≤ t → t ≤ tl → W.Free (conf W p t)))) := by
  by_cases hm : W.mode = .discretized
  · exact check_discretized W hW hm rev hp
  · exact check_continuous W hW hm rev hp


theorem ini_eq {W : World K C ι} {hW : W.Ok} (p : SP W) : (env W hW).ini p = p.1.1.q0 := by
  show conf W p.1.1 p.1.1.pr.1 = _
  rw [p.2.1.1]; exact conf_zero W p.2.1

theorem fin_eq {W : World K C ι} {hW : W.Ok} (p : SP W) : (env W hW).fin p = p.1.1.q1 := conf_end W p.2.1

open Classical in
/-- The answer of the validation as seen by the planners: a part of the path in the same direction, free unless the path has the ghost bit. -/
theorem validate_spec (W : World K C ι) (hW : W.Ok) (rv : Bool) (p : SP W) :
    (((env W hW).validate rv p).1 = true ∧ ((env W hW).validate rv p).2 = p ∧ ValidOrTurned W p) ∨
    (((env W hW).validate rv p).1 = false ∧ ∃ tl, ∃ h0 : 0 ≤ tl, ∃ h1 : tl ≤ p.1.1.pr.2,
      if rv then ((env W hW).validate rv p).2 = ext hW p tl p.1.1.pr.2 h0 h1 le_rfl ∧
        (tl = p.1.1.pr.2 ∨ p.1.2 = true ∨ ∀ t, tl ≤ t → t ≤ p.1.1.pr.2 → W.Free (conf W p.1.1 t))
      else ((env W hW).validate rv p).2 = ext hW p 0 tl le_rfl h0 h1 ∧ (tl = 0 ∨ p.1.2 = true ∨ ∀ t, 0 ≤ t → t ≤ tl → W.Free (conf W p.1.1 t))) := by
  obtain ⟨v, vp, rep, n, hr, h1, h2⟩ := check_ok W hW rv p.2.1
  have hv : (env W hW).validate rv p = (v, if h : Built vp ∧ (p.1.2 = false → W.Slow vp) then ⟨(vp, p.1.2), h.1, h.2, p.2.2.2⟩ else p) := by
    show (match check W rv p.1.1 with | .error _ => (false, p) | .ok (v, vp, _) => (v, _)) = _
    rw [hr]
  rw [hv]
  have hslow : ∀ X : Prop, (W.Slow p.1.1 → X) → p.1.2 = true ∨ X := by
    intro X hX
    cases hb : p.1.2 with
    | true => exact Or.inl rfl
    | false => exact Or.inr (hX (p.2.2.1 hb))
  cases v with
  | true =>
    obtain ⟨k1, k2⟩ := h1 rfl
    subst k1
    refine Or.inl ⟨rfl, ?_, (hslow _ k2).symm⟩
    show dite _ _ _ = _
    rw [dif_pos ⟨p.2.1, p.2.2.1⟩]
  | false =>
    obtain ⟨tl, k1, k2, k3⟩ := h2 rfl
    refine Or.inr ⟨rfl, tl, k1, k2, ?_⟩
    cases rv with
    | true =>
      simp only [if_true] at k3 ⊢
      obtain ⟨rfl, k4⟩ := k3
      refine ⟨?_, ?_⟩
      · have hh := (ext hW p tl p.1.1.pr.2 k1 k2 le_rfl).2
        rw [dif_pos ⟨hh.1, hh.2.1⟩]
        rfl
      · rcases k4 with k4 | k4
        · exact Or.inl k4
        · exact Or.inr (hslow _ k4)
    | false =>
      simp only [Bool.false_eq_true, if_false] at k3 ⊢
      obtain ⟨rfl, k4⟩ := k3
      refine ⟨?_, ?_⟩
      · have hh := (ext hW p 0 tl le_rfl k1 k2).2
        have e0 : p.1.1.pr.1 = 0 := p.2.1.1
        have e : rawExt W p.1.1 p.1.1.pr.1 tl = rawExt W p.1.1 0 tl := by rw [e0]
        rw [e, dif_pos ⟨hh.1, hh.2.1⟩]
        rfl
      · rcases k4 with k4 | k4
        · exact Or.inl k4
        · exact Or.inr (hslow _ k4)

theorem ext_valid (W : World K C ι) (hW : W.Ok) (p : SP W) (a b : K) (h0 : 0 ≤ a) (hab : a ≤ b) (hb : b ≤ p.1.1.pr.2) (h : ∀ t, a ≤ t → t ≤ b → W.Free (conf W p.1.1 t)) :
    Valid W (ext hW p a b h0 hab hb).1.1 := by
  intro t t0 t1
  have t1' : t ≤ b - a := by
    have : (ext hW p a b h0 hab hb).1.1.pr.2 = b - a := abs_of_nonneg (sub_nonneg.2 hab)
    rwa [this] at t1
  show W.Free (conf W (rawExt W p.1.1 a b) t)
  rw [conf_ext W hW p.2.1 h0 hab hb t0 t1']
  exact h _ (by linarith) (by linarith)

theorem ext_ini {W : World K C ι} {hW : W.Ok} (p : SP W) (a b : K) (h0 : 0 ≤ a) (hab : a ≤ b) (hb : b ≤ p.1.1.pr.2) : (env W hW).ini (ext hW p a b h0 hab hb) = conf W p.1.1 a := ini_eq _
theorem ext_fin {W : World K C ι} {hW : W.Ok} (p : SP W) (a b : K) (h0 : 0 ≤ a) (hab : a ≤ b) (hb : b ≤ p.1.1.pr.2) : (env W hW).fin (ext hW p a b h0 hab hb) = conf W p.1.1 b := fin_eq _

/-- The contract of the planners holds. -/
theorem contract (W : World K C ι) (hW : W.Ok) : Contract (env W hW) (ValidOrTurned W) := by
  refine ⟨?_, ?_, ?_, ?_, ?_, ?_, ?_, ?_, ?_, ?_, ?_, ?_⟩
  · intro a b p h
    obtain rfl := Option.some.inj h
    exact ⟨ini_eq _, fin_eq _⟩
  · intro p t
    show (env W hW).ini (dite _ _ _) = _
    split
    · rw [ext_ini, show (env W hW).t0 p = p.1.1.pr.1 from rfl]; rfl
    · rfl
  · intro p t hv
    show ValidOrTurned W (dite _ _ _)
    split
    · rename_i h
      rcases hv with hv | hv
      · exact Or.inl (ext_valid W hW p _ _ _ _ _ fun u u1 u2 => hv u (h.1.trans u1) (u2.trans h.2.2))
      · exact Or.inr hv
    · exact hv
  · intro f p b p' h; cases h
  · intro f p h; cases h
  · intro p
    rcases validate_spec W hW false p with ⟨-, h, -⟩ | ⟨-, tl, h0, h1, h⟩
    · rw [h]
    · simp only [Bool.false_eq_true, if_false] at h
      rw [h.1, ext_ini, ini_eq, conf_zero W p.2.1]
  · intro p h
    rcases validate_spec W hW false p with ⟨-, h1, h2⟩ | ⟨-, tl, k1, k2, k3⟩
    · rw [h1]; exact h2
    · simp only [Bool.false_eq_true, if_false] at k3
      obtain ⟨k3, k4⟩ := k3
      rw [k3] at h ⊢
      rcases k4 with k4 | k4 | k4
      · exfalso
        subst k4
        have e : (ext hW p 0 0 le_rfl k1 k2).1.1.pr = (0, 0) := by simp [ext, rawExt]
        rcases h with h | h
        · exact h (by show (ext hW p 0 0 le_rfl k1 k2).1.1.pr.2 = p.1.1.pr.1; rw [e, p.2.1.1])
        · change 0 < (ext hW p 0 0 le_rfl k1 k2).1.1.pr.2 - (ext hW p 0 0 le_rfl k1 k2).1.1.pr.1 at h
          rw [e] at h; simp at h
      · exact Or.inr k4
      · exact Or.inl (ext_valid W hW p 0 tl le_rfl k1 k2 k4)
  · intro b p h
    rcases validate_spec W hW b p with ⟨-, h1, h2⟩ | ⟨h1, -⟩
    · rw [h1]; exact ⟨h2, h2, rfl, rfl⟩
    · rw [h1] at h; cases h
  · intro p
    rcases validate_spec W hW true p with ⟨-, h, -⟩ | ⟨-, tl, h0, h1, h⟩
    · rw [h]
    · simp only [if_true] at h
      rw [h.1, ext_fin]; rfl
  · intro p
    exact (ini_eq (hW := hW) (rev hW p)).trans rfl
  · intro p
    exact (fin_eq (hW := hW) (rev hW p)).trans rfl
  · rintro p (hv | hv)
    · by_cases hs : W.short p.1.1.q0 p.1.1.q1
      · left
        intro t t0 t1
        have t1' : t ≤ p.1.1.pr.2 := by
          have : (rev hW p).1.1.pr.2 = p.1.1.pr.2 := by
            show |p.1.1.pr.1 - p.1.1.pr.2| = _
            rw [p.2.1.1, zero_sub, abs_neg, abs_of_nonneg p.2.1.2.1]
          exact t1.trans this.le
        show W.Free (conf W (rawExt W p.1.1 p.1.1.pr.2 p.1.1.pr.1) t)
        rw [conf_rev W hW p.2.1 hs t0 t1']
        exact hv _ (by linarith) (by linarith)
      · right
        show (p.1.2 || _) = true
        simp [hs]
    · right
      show (p.1.2 || _) = true
      simp [hv]

/-- The further contract of BiRRT holds. -/
theorem pointContract (W : World K C ι) (hW : W.Ok) : PointContract (env W hW) (ValidOrTurned W) := by
  refine ⟨?_, ?_, ?_⟩
  · intro p _
    rcases validate_spec W hW true p with ⟨-, h1, h2⟩ | ⟨-, tl, k1, k2, k3⟩
    · rw [h1]; exact Or.inl h2
    · simp only [if_true] at k3
      obtain ⟨k3, k4⟩ := k3
      rw [k3]
      rcases k4 with k4 | k4 | k4
      · right
        subst k4
        refine ⟨?_, ?_⟩
        · rw [ext_ini, ext_fin]
        · show (0 : K) = |p.1.1.pr.2 - p.1.1.pr.2|
          simp
      · exact Or.inl (Or.inr k4)
      · exact Or.inl (Or.inl (ext_valid W hW p tl _ k1 k2 le_rfl k4))
  · intro p t h
    show Point _ (dite _ _ _)
    split
    · rename_i hh
      have e : p.1.1.pr.1 = p.1.1.pr.2 := h.2
      have ht : (env W hW).t0 p = t := le_antisymm hh.2.1 (by show t ≤ p.1.1.pr.1; rw [e]; exact hh.2.2)
      refine ⟨?_, ?_⟩
      · rw [ext_ini, ext_fin, ht]
      · show (0 : K) = |t - (env W hW).t0 p|
        rw [ht]; simp
    · exact h
  · intro p h
    have e : p.1.1.pr.1 = p.1.1.pr.2 := h.2
    refine ⟨?_, ?_⟩
    · rw [ini_eq, fin_eq]
      show conf W p.1.1 p.1.1.pr.2 = conf W p.1.1 p.1.1.pr.1
      rw [e]
    · show (0 : K) = |p.1.1.pr.1 - p.1.1.pr.2|
      rw [e]; simp

/-! ## The path vector returned to the user -/

/-- The path without the ghost bit. -/
def bare {W : World K C ι} (p : SP W) : Line K C := p.1.1

/-- The path vector built from the edges: astar.hh:70-86 (one `appendPath` per edge). -/
def pathVector {W : World K C ι} (l : List (SP W)) : Vec K C (Line K C) := (l.map bare).foldl (appendPath (straightOps W.space)) (create none)

theorem foldl_append (S : Space K C) (l : List (Line K C)) (v : Vec K C (Line K C)) :
    l.foldl (appendPath (straightOps S)) v = ⟨v.cons, (v.tr.1, v.tr.2 + total (straightOps S) l), v.paths ++ l⟩ := by
  induction l generalizing v with
  | nil => simp [total]
  | cons p l ih => rw [List.foldl_cons, ih]; simp [appendPath, total, add_assoc]

theorem pathVector_eq {W : World K C ι} (l : List (SP W)) : pathVector l = ⟨none, (0, total (straightOps W.space) (l.map bare)), l.map bare⟩ := by
  unfold pathVector
  rw [foldl_append]
  simp [create]

/-- Specification: a quantity that is Lipschitz continuous along each segment of the configuration space (position of a point of the robot, for instance). -/
def Smooth (S : Space K C) (φ : C → K) : Prop := ∀ a b, ∃ L, 0 ≤ L ∧ ∀ u v, 0 ≤ u → u ≤ 1 → 0 ≤ v → v ≤ 1 → |φ (S.interp a b u) - φ (S.interp a b v)| ≤ L * |u - v|

/-- What a user wants of a path on `[0, T]`: from `a` to `b`, defined at every parameter, any quantity that is continuous along segments is continuous along the path. -/
structure Route (W : World K C ι) (f : K → Except PathV.Err C) (T : K) (a b : C) : Prop where
  len : 0 ≤ T
  ini : f 0 = .ok a
  fin : f T = .ok b
  total : ∀ t, 0 ≤ t → t ≤ T → ∃ q, f t = .ok q
  cont : ∀ φ, Smooth W.space φ → ∃ M, ∀ s t q q', 0 ≤ s → s ≤ t → t ≤ T → f s = .ok q → f t = .ok q' → |φ q' - φ q| ≤ M * (t - s)

/-- And no configuration with a penetration of more than accepted. -/
structure Safe (W : World K C ι) (f : K → Except PathV.Err C) (T : K) (a b : C) : Prop extends Route W f T a b where
  free : ∀ t q, 0 ≤ t → t ≤ T → f t = .ok q → W.Free q

/-- The same paths seen through a quantity. -/
def seen (S : Space K C) (φ : C → K) : Ops K (Unit → K) (Line K C) where
  lo p := p.pr.1
  hi p := p.pr.2
  eval p t := ((straightOps S).eval p t).map fun q _ => φ q
  extract := Straight.extract S
  reverse := Straight.reverse S
  constraints _ := none
  copyWith _ p := p

theorem seen_rank (S : Space K C) (φ : C → K) (l : List (Line K C)) (i : Nat) (s : K) : rankLoop (seen S φ) l i s = rankLoop (straightOps S) l i s := by
  induction l generalizing i s with
  | nil => rfl
  | cons p l ih =>
    cases l with
    | nil => rfl
    | cons q l =>
      unfold rankLoop
      rw [ih]
      rfl

theorem seen_eval (S : Space K C) (φ : C → K) (l : List (Line K C)) (s : K) : evalU (seen S φ) l s = (evalU (straightOps S) l s).map fun q _ => φ q := by
  unfold evalU evalV rankAtParam
  simp only [seen_rank, at']
  have e1 : ∀ p, (seen S φ).len p = (straightOps S).len p := fun _ => rfl
  have e2 : ∀ p, (seen S φ).hi p = (straightOps S).hi p := fun _ => rfl
  have e3 : ∀ p, (seen S φ).lo p = (straightOps S).lo p := fun _ => rfl
  have e4 : ∀ p t, (seen S φ).eval p t = ((straightOps S).eval p t).map fun q _ => φ q := fun _ _ => rfl
  simp only [e1, e2, e3, e4]
  by_cases hl : l = []
  · simp [hl, Except.map]
  · simp only [hl, if_false]
    cases hp : l[(rankLoop (straightOps S) l 0 s).1]? with
    | none => split_ifs <;> rfl
    | some p =>
      simp only
      split_ifs <;> simp only [hp, Except.map] <;> (cases (straightOps S).eval p _ <;> rfl)

/-- A sequence of straight paths between successive configurations. -/
theorem connects_ends (W : World K C ι) (hW : W.Ok) (V : SP W → Prop) (l : List (SP W)) (a b : C) (h : Connects (env W hW) V a l b) :
    (l.map bare).IsChain (fun p q : Line K C => p.q1 = q.q0) ∧ (∀ p, (l.map bare).head? = some p → p.q0 = a) ∧ (∀ p, (l.map bare).getLast? = some p → p.q1 = b) := by
  induction l generalizing a with
  | nil => simp
  | cons p l ih =>
    obtain ⟨-, h2, h3⟩ := h
    rw [ini_eq] at h2
    rw [fin_eq] at h3
    obtain ⟨i2, i3, i4⟩ := ih p.1.1.q1 h3
    refine ⟨?_, ?_, ?_⟩
    · rw [List.map_cons, List.isChain_cons]
      exact ⟨fun q hq => (i3 q hq).symm, i2⟩
    · intro x hx
      simp only [List.map_cons, List.head?_cons, Option.some.injEq] at hx
      subst hx
      exact h2
    · intro x hx
      cases l with
      | nil =>
        simp only [List.map_cons, List.map_nil, List.getLast?_singleton, Option.some.injEq] at hx
        subst hx
        exact h3
      | cons y l =>
        rw [List.map_cons, List.map_cons, List.getLast?_cons_cons] at hx
        exact i4 x (by rw [List.map_cons]; exact hx)

/-- Without the ghost bit, all the pieces are free when the first configuration is. -/
theorem connects_free (W : World K C ι) (hW : W.Ok) (l : List (SP W)) (a b : C) (ha : W.Free a) (hg : ∀ p ∈ l, p.1.2 = false)
    (h : Connects (env W hW) (ValidOrPoint (env W hW) (ValidOrTurned W)) a l b) : ∀ p ∈ l, Valid W p.1.1 := by
  induction l generalizing a with
  | nil => simp
  | cons p l ih =>
    obtain ⟨h1, h2, h3⟩ := h
    have hv : Valid W p.1.1 := by
      rcases h1 with (h1 | h1) | ⟨-, h4⟩
      · exact h1
      · rw [hg p (by simp)] at h1; cases h1
      · intro t t0 t1
        have e : p.1.1.pr.1 = p.1.1.pr.2 := h4
        have h0 : p.1.1.pr.1 = 0 := p.2.1.1
        have : t = p.1.1.pr.1 := le_antisymm (by rw [e]; exact t1) (by rw [h0]; exact t0)
        have h2' : conf W p.1.1 p.1.1.pr.1 = a := h2
        rw [this, h2']; exact ha
    have hq1 : W.Free ((env W hW).fin p) := hv _ p.2.1.2.1 le_rfl
    intro x hx
    rcases List.mem_cons.1 hx with rfl | hx
    · exact hv
    · exact ih _ hq1 (fun q hq => hg q (by simp [hq])) h3 x hx

/-- From the list of paths to the path vector. -/
theorem route_of_connects (W : World K C ι) (hW : W.Ok) (V : SP W → Prop) (l : List (SP W)) (a b : C) (hne : l ≠ []) (h : Connects (env W hW) V a l b) :
    Route W (evalV (straightOps W.space) (pathVector l)) (pathVector l).tr.2 a b ∧
    ∀ t q, 0 ≤ t → t ≤ (pathVector l).tr.2 → evalV (straightOps W.space) (pathVector l) t = .ok q → ∃ p ∈ l, ∃ u, 0 ≤ u ∧ u ≤ p.1.1.pr.2 ∧ q = conf W p.1.1 u := by
  obtain ⟨h2, h3, h4⟩ := connects_ends W hW V l a b h
  have hne' : l.map bare ≠ [] := fun h => hne (List.map_eq_nil_iff.1 h)
  have hlen : ∀ p ∈ l.map bare, (straightOps W.space).lo p ≤ (straightOps W.space).hi p := by
    intro p hp
    obtain ⟨x, -, rfl⟩ := List.mem_map.1 hp
    exact good x
  have hlen' : ∀ p ∈ l.map bare, 0 ≤ (straightOps W.space).len p := fun p hp => sub_nonneg.2 (hlen p hp)
  have hev : ∀ s, evalV (straightOps W.space) (pathVector l) s = evalU (straightOps W.space) (l.map bare) s := by
    intro s
    rw [pathVector_eq]; exact evalV_none _ _ rfl s
  have hT : (pathVector l).tr.2 = total (straightOps W.space) (l.map bare) := by rw [pathVector_eq]
  have hini : ∀ x : SP W, conf W (bare x) (bare x).pr.1 = (bare x).q0 := fun x => ini_eq (hW := hW) x
  have hfin : ∀ x : SP W, conf W (bare x) (bare x).pr.2 = (bare x).q1 := fun x => fin_eq (hW := hW) x
  have hbl : ∀ (x : SP W) (t : K), (straightOps W.space).eval (bare x) t = .ok (conf W (bare x) t) := fun x t => eval_line W x.2.1 t
  have hchain : Chained (straightOps W.space) (l.map bare) := by
    have : ∀ ps : List (SP W), (ps.map bare).IsChain (fun p q : Line K C => p.q1 = q.q0) → Chained (straightOps W.space) (ps.map bare) := by
      intro ps
      induction ps with
      | nil => intro _; exact List.IsChain.nil
      | cons p ps ih =>
        intro hc
        rw [List.map_cons, List.isChain_cons] at hc
        unfold Chained
        rw [List.map_cons, List.isChain_cons]
        refine ⟨fun q hq => ?_, ih hc.2⟩
        obtain ⟨x, hx, rfl⟩ := List.mem_map.1 (List.mem_of_mem_head? hq)
        rw [hbl p, hbl x]
        exact congrArg _ ((hfin p).trans ((hc.1 _ hq).trans (hini x).symm))
    exact this l h2
  have hpaths : (pathVector l).paths = l.map bare := by rw [pathVector_eq]
  have htot : 0 ≤ total (straightOps W.space) (l.map bare) := by
    unfold total
    apply List.sum_nonneg
    intro x hx
    obtain ⟨p, hp, rfl⟩ := List.mem_map.1 hx
    exact hlen' p hp
  have hc : (pathVector l).cons = none := by rw [pathVector_eq]
  have hat : ∀ t, 0 ≤ t → t ≤ (pathVector l).tr.2 → ∃ p ∈ l, ∃ u, 0 ≤ u ∧ u ≤ p.1.1.pr.2 ∧ evalV (straightOps W.space) (pathVector l) t = .ok (conf W p.1.1 u) := by
    intro t t0 t1
    rw [hT] at t1
    obtain ⟨i, p, x, -, k2, k3, k4, -, -, k5⟩ := C19_eval (straightOps W.space) (pathVector l) (by rw [hpaths]; exact hne') (by rw [hpaths]; exact hlen) t t0
      (by rw [hpaths]; exact t1)
    rw [hpaths] at k2
    obtain ⟨y, hy, rfl⟩ := List.mem_map.1 (List.mem_of_getElem? k2)
    refine ⟨y, hy, x, ?_, k4, ?_⟩
    · have h0 : y.1.1.pr.1 = 0 := y.2.1.1
      rw [← h0]; exact k3
    · rw [k5, hc, hbl y]; rfl
  refine ⟨⟨?_, ?_, ?_, ?_, ?_⟩, ?_⟩
  · rw [hT]; exact htot
  · obtain ⟨p, ps, e⟩ := List.exists_cons_of_ne_nil hne
    subst e
    rw [hev]
    have := chained_at (straightOps W.space) [] (ps.map bare) (bare p) 0 (by simp) hchain le_rfl (hlen' _ (by simp))
    simp only [List.nil_append, total, List.map_nil, List.sum_nil, add_zero] at this
    rw [List.map_cons, this, hbl p]
    exact congrArg _ ((hini p).trans (h3 _ (by simp)))
  · rw [hev, hT]
    obtain ⟨A, p, e⟩ : ∃ A p, l = A ++ [p] := ⟨_, _, (List.dropLast_append_getLast hne).symm⟩
    subst e
    have e1 : (A ++ [p]).map bare = A.map bare ++ bare p :: [] := by simp
    have := chained_at (straightOps W.space) (A.map bare) [] (bare p) ((straightOps W.space).len (bare p))
      (fun q hq => hlen' q (by rw [e1]; exact List.mem_append_left _ hq)) (by rw [← e1]; exact hchain) (hlen' _ (by rw [e1]; simp)) le_rfl
    have e2 : total (straightOps W.space) ((A ++ [p]).map bare) = total (straightOps W.space) (A.map bare) + (straightOps W.space).len (bare p) := by
      rw [e1]; unfold total; rw [List.map_append, List.sum_append, List.map_cons, List.map_nil, List.sum_cons, List.sum_nil, add_zero]
    rw [e2, e1, this, len_hi, hbl p]
    exact congrArg _ ((hfin p).trans (h4 _ (by simp)))
  · intro t t0 t1
    obtain ⟨p, -, u, -, -, e⟩ := hat t t0 t1
    exact ⟨_, e⟩
  · intro φ hφ
    have hd : ∀ p : SP W, ∃ L, 0 ≤ L ∧ ∀ s t, 0 ≤ s → s ≤ t → t ≤ p.1.1.pr.2 → |φ (conf W p.1.1 t) - φ (conf W p.1.1 s)| ≤ L * (t - s) := by
      intro p
      rcases p.2.1.2.1.eq_or_lt with e | e
      · refine ⟨0, le_rfl, fun s t _ _ _ => ?_⟩
        rw [conf_point W p.2.1 e.symm, conf_point W p.2.1 e.symm]; simp
      · obtain ⟨L, hL, hl⟩ := hφ p.1.1.q0 p.1.1.q1
        refine ⟨L / p.1.1.pr.2, div_nonneg hL e.le, fun s t s0 st t1 => ?_⟩
        rw [conf_interp W p.2.1 e, conf_interp W p.2.1 e]
        refine (hl _ _ (div_nonneg (s0.trans st) e.le) ((div_le_one e).2 t1) (div_nonneg s0 e.le) ((div_le_one e).2 (st.trans t1))).trans (le_of_eq ?_)
        rw [← sub_div, abs_of_nonneg (div_nonneg (sub_nonneg.2 st) e.le)]
        field_simp
    classical
    let L : Line K C → K := fun p => if h : ∃ x : SP W, bare x = p then Classical.choose (hd (Classical.choose h)) else 0
    have hL : ∀ x : SP W, ∀ s t, 0 ≤ s → s ≤ t → t ≤ (bare x).pr.2 → |φ (conf W (bare x) t) - φ (conf W (bare x) s)| ≤ L (bare x) * (t - s) := by
      intro x s t s0 st t1
      have hx : ∃ y : SP W, bare y = bare x := ⟨x, rfl⟩
      have e : L (bare x) = Classical.choose (hd (Classical.choose hx)) := dif_pos hx
      have hs := (Classical.choose_spec (hd (Classical.choose hx))).2 s t s0 st
      rw [← e] at hs
      have ey : (Classical.choose hx).1.1 = bare x := Classical.choose_spec hx
      rw [ey] at hs
      exact hs t1
    have hseen : ∀ s, evalU (seen W.space φ) (l.map bare) s = (evalU (straightOps W.space) (l.map bare) s).map fun q _ => φ q := seen_eval W.space φ _
    obtain ⟨R, -, hR⟩ := C61_velocityBound (seen W.space φ) (fun p _ _ _ => L p) ⟨none, (0, total (straightOps W.space) (l.map bare)), l.map bare⟩ hne' hlen
      (by
        unfold Chained at hchain ⊢
        refine hchain.imp fun p q hpq => ?_
        show ((straightOps W.space).eval p _).map _ = ((straightOps W.space).eval q _).map _
        rw [show (straightOps W.space).eval p ((seen W.space φ).hi p) = (straightOps W.space).eval q ((seen W.space φ).lo q) from hpq]) rfl
      (by
        intro p hp x _ _
        obtain ⟨y, -, rfl⟩ := List.mem_map.1 hp
        refine ⟨fun _ => φ (conf W (bare y) x), ?_⟩
        show ((straightOps W.space).eval (bare y) x).map _ = _
        rw [hbl y]; rfl)
      (by
        intro p hp x x' k1 k2 k3 s s' m1 m2 m3 q q' hq hq' i
        obtain ⟨y, -, rfl⟩ := List.mem_map.1 hp
        change ((straightOps W.space).eval (bare y) s).map _ = _ at hq
        change ((straightOps W.space).eval (bare y) s').map _ = _ at hq'
        rw [hbl y] at hq hq'
        obtain rfl := Except.ok.inj hq
        obtain rfl := Except.ok.inj hq'
        have h0 : (bare y).pr.1 = 0 := y.2.1.1
        have k1' : (bare y).pr.1 ≤ x := k1
        exact hL y s s' (by rw [← h0]; exact k1'.trans m1) m2 (m3.trans k3)) 0 (total (straightOps W.space) (l.map bare)) le_rfl htot le_rfl
    refine ⟨R (), fun s t q q' s0 st tT hs ht => ?_⟩
    rw [hev] at hs ht
    rw [hT] at tT
    refine hR s t s0 st tT (fun _ => φ q) (fun _ => φ q') ?_ ?_ ()
    · rw [evalV_none _ _ rfl, hseen, hs]; rfl
    · rw [evalV_none _ _ rfl, hseen, ht]; rfl
  · intro t q t0 t1 hq
    obtain ⟨p, hp, u, u0, u1, e⟩ := hat t t0 t1
    rw [e] at hq
    exact ⟨p, hp, u, u0, u1, (Except.ok.inj hq).symm⟩

/-- Specification: the path vector goes to `b`, and is free of collision if none of its pieces comes from the reversal of half a turn. -/
def Good (W : World K C ι) (l : List (SP W)) (a b : C) : Prop :=
  Route W (evalV (straightOps W.space) (pathVector l)) (pathVector l).tr.2 a b ∧
  ((∀ p ∈ l, p.1.2 = false) → Safe W (evalV (straightOps W.space) (pathVector l)) (pathVector l).tr.2 a b) ∧
  ∀ p ∈ l, p.1.2 = false → Valid W p.1.1 ∨ p.1.1.pr.2 = 0

theorem good_of_connects (W : World K C ι) (hW : W.Ok) (l : List (SP W)) (a b : C) (hne : l ≠ []) (ha : W.Free a)
    (h : Connects (env W hW) (ValidOrPoint (env W hW) (ValidOrTurned W)) a l b) : Good W l a b := by
  obtain ⟨h1, h2⟩ := route_of_connects W hW _ l a b hne h
  refine ⟨h1, fun hg => ⟨h1, fun t q t0 t1 hq => ?_⟩, ?_⟩
  · obtain ⟨p, hp, u, u0, u1, rfl⟩ := h2 t q t0 t1 hq
    exact connects_free W hW l a b ha hg h p hp u u0 u1
  · clear h1 h2 hne ha
    induction l generalizing a with
    | nil => simp
    | cons p l ih =>
      obtain ⟨k1, -, k3⟩ := h
      intro x hx hb
      rcases List.mem_cons.1 hx with rfl | hx
      · rcases k1 with (k1 | k1) | ⟨-, k1⟩
        · exact Or.inl k1
        · rw [hb] at k1; cases k1
        · right
          have e : x.1.1.pr.1 = x.1.1.pr.2 := k1
          rw [← e]; exact x.2.1.1
      · exact ih _ k3 x hx hb

theorem connects_mono {W : World K C ι} (E : PEnv C (SP W) K) (V V' : SP W → Prop) (hV : ∀ p, V p → V' p) (l : List (SP W)) (a b : C) (h : Connects E V a l b) : Connects E V' a l b := by
  induction l generalizing a with
  | nil => exact h
  | cons p l ih => exact ⟨hV _ h.1, h.2.1, ih _ h.2.2⟩

/-- A path reduced to a point. -/
theorem connects_refl (W : World K C ι) (hW : W.Ok) (q0 : C) (h0 : W.Free q0) :
    Connects (env W hW) (ValidOrPoint (env W hW) (ValidOrTurned W)) q0 [line W hW q0 q0] q0 := by
  refine ⟨Or.inl (Or.inl fun t _ _ => ?_), ini_eq _, fin_eq _⟩
  have hs : ∀ u : K, 0 ≤ u → u ≤ 1 → W.space.interp q0 q0 u = q0 := by
    intro u u0 u1
    have := hW.fwd q0 q0 0 0 u le_rfl le_rfl zero_le_one u0 u1
    rw [W.space.zero, sub_zero, mul_zero, add_zero, W.space.zero] at this
    exact this
  have e : conf W (line W hW q0 q0).1.1 t = q0 := by
    rename_i t0 t1
    rcases (line W hW q0 q0).2.1.2.1.eq_or_lt with e | e
    · exact conf_point W (line W hW q0 q0).2.1 e.symm t
    · rw [conf_interp W (line W hW q0 q0).2.1 e]
      exact hs _ (div_nonneg t0 e.le) ((div_le_one e).2 t1)
  rw [e]; exact h0

theorem good_of_solves (W : World K C ι) (hW : W.Ok) (q0 : C) (gs : List C) (l : List (SP W)) (h0 : W.Free q0)
    (h : Solves (env W hW) (ValidOrPoint (env W hW) (ValidOrTurned W)) q0 gs l) : ∃ g ∈ gs, Good W l q0 g := by
  rcases h with ⟨g, hg, hne, hc⟩ | ⟨hq, p, hp, rfl⟩
  · exact ⟨g, hg, good_of_connects W hW l q0 g hne h0 hc⟩
  · obtain rfl := Option.some.inj hp
    exact ⟨q0, hq, good_of_connects W hW _ q0 q0 (by simp) h0 (connects_refl W hW q0 h0)⟩

theorem solves_mono (W : World K C ι) (hW : W.Ok) (q0 : C) (gs : List C) (l : List (SP W)) (h : Solves (env W hW) (ValidOrTurned W) q0 gs l) :
    Solves (env W hW) (ValidOrPoint (env W hW) (ValidOrTurned W)) q0 gs l := by
  rcases h with ⟨g, hg, hne, hc⟩ | h
  · exact Or.inl ⟨g, hg, hne, connects_mono _ _ _ (fun _ => Or.inl) l _ _ hc⟩
  · exact Or.inr h

/-! ## C138: robots with joints of any kind -/

variable [DecidableEq C]

/-- C138, diffusing planner. -/
theorem C138_diffusing_partial (W : World K C ι) (hW : W.Ok) (D : DiffParams K) (heur : Roadmap.Roadmap C (SP W) → Nat → K) (q0 : C) (gs : List C) (shoot : Nat → C)
    (st : Settings K) (late intr : Nat → Bool) (fuel n : Nat) (l : List (SP W)) (h0 : W.Free q0)
    (hl : solve (diffusing (env W hW) D heur q0 gs shoot) st late intr fuel (n, Roadmap.empty) = .path l) : ∃ g ∈ gs, Good W l q0 g :=
  good_of_solves W hW q0 gs l h0 (solves_mono W hW q0 gs l
    (C67_diffusing (contract W hW) D heur q0 gs shoot ⟨Roadmap.Inv.empty, by simp [Roadmap.empty]⟩ st late intr fuel n l hl))

/-- C138, Visibility-PRM. -/
theorem C138_visibility_partial (W : World K C ι) (hW : W.Ok) (heur : Roadmap.Roadmap C (SP W) → Nat → K) (q0 : C) (gs : List C) (sample : Nat → C)
    (st : Settings K) (late intr : Nat → Bool) (fuel : Nat) (x : Nat × (Nat → Bool)) (l : List (SP W)) (h0 : W.Free q0)
    (hl : solve (visibility (env W hW) heur q0 gs sample) st late intr fuel (x, Roadmap.empty) = .path l) : ∃ g ∈ gs, Good W l q0 g :=
  good_of_solves W hW q0 gs l h0 (solves_mono W hW q0 gs l
    (C67_visibility (contract W hW) heur q0 gs sample (s := (x, Roadmap.empty)) ⟨Roadmap.Inv.empty, by simp [Roadmap.empty]⟩ st late intr fuel l hl))

/-- C138, BiRRT. -/
theorem C138_birrt_partial (W : World K C ι) (hW : W.Ok) (heur : Roadmap.Roadmap C (SP W) → Nat → K) (q0 : C) (gs : List C) (shoot : Nat → C)
    (st : Settings K) (late intr : Nat → Bool) (fuel : Nat) (x : BState) (l : List (SP W)) (h0 : W.Free q0)
    (hl : solve (birrt (env W hW) heur q0 gs shoot) st late intr fuel (x, Roadmap.empty) = .path l) : ∃ g ∈ gs, Good W l q0 g :=
  good_of_solves W hW q0 gs l h0
    (C67_birrt_partial (contract W hW) (pointContract W hW) (fun _ _ => rfl) heur q0 gs shoot (s := (x, Roadmap.empty))
      ⟨Roadmap.Inv.empty, by simp [Roadmap.empty]⟩ st late intr fuel l hl)

/-- C138, k-PRM*. -/
theorem C138_kprm_partial {H : Type} (W : World K C ι) (hW : W.Ok) (E : KEnv C (SP W) K H) (hE : E.toPEnv = env W hW) (hk : 0 < E.k) (hN : 0 < E.nodes)
    (heur : Roadmap.Roadmap C (SP W) → Nat → K) (q0 : C) (gs : List C) (st : Settings K) (late intr : Nat → Bool) (fuel : Nat) (x : KState)
    (l : List (SP W)) (h0 : W.Free q0) (hl : solve (kprm E heur q0 gs) st late intr fuel (x, Roadmap.empty) = .path l) : ∃ g ∈ gs, Good W l q0 g := by
  refine good_of_solves W hW q0 gs l h0 (solves_mono W hW q0 gs l ?_)
  rw [← hE]
  exact C67_kprm (by rw [hE]; exact contract W hW) hk hN heur q0 gs (s := (x, Roadmap.empty)) ⟨Roadmap.Inv.empty, by simp [Roadmap.empty]⟩ st late intr fuel l hl

theorem starContract (W : World K C ι) (hW : W.Ok) (E : Star.SEnv C (SP W) K) (hE : E.toPEnv = env W hW) (hm : 0 < E.minLen) : Star.SContract E (ValidOrTurned W) := by
  refine ⟨by rw [hE]; exact contract W hW, ?_, ?_, hm⟩
  · intro p
    rw [hE]
    exact sub_nonneg.2 (good p)
  · intro p
    rw [hE]
    show |p.1.1.pr.1 - p.1.1.pr.2| - 0 = p.1.1.pr.2 - p.1.1.pr.1
    rw [sub_zero, abs_sub_comm, abs_of_nonneg (sub_nonneg.2 (good p))]

/-- C138, BiRRT*. -/
theorem C138_birrtstar_partial (W : World K C ι) (hW : W.Ok) (E : Star.SEnv C (SP W) K) (hE : E.toPEnv = env W hW) (hm : 0 < E.minLen)
    {pop : List (Star.WNode (SP W) K) → Option (Star.WNode (SP W) K × List (Star.WNode (SP W) K))} (hp : Star.PopOk pop)
    (heur : Roadmap.Roadmap C (SP W) → Nat → K) (fc fp : Nat) (q0 g : C) (draws : Nat → Star.Draw C) (x : Star.Trees (SP W) × Nat)
    (st : Settings K) (late intr : Nat → Bool) (fuel : Nat) (l : List (SP W)) (h0 : W.Free q0)
    (hl : solve (Star.birrtstar E heur pop fc fp q0 [g] draws) st late intr fuel (x, Roadmap.empty) = .path l) : Good W l q0 g := by
  have hS := starContract W hW E hE hm
  have h := Star.C67_birrtstar hS hp heur fc fp q0 g draws x st late intr fuel l hl
  rw [hE] at h
  obtain ⟨g', hg, h⟩ := good_of_solves W hW q0 [g] l h0 (solves_mono W hW q0 [g] l h)
  rw [List.mem_singleton.1 hg] at h
  exact h

omit [DecidableEq C] in
/-- Where no two configurations are half a turn apart, the result is free of collision. -/
theorem C138_safe (W : World K C ι) (hs : ∀ a b, W.short a b) (l : List (SP W)) (a b : C) (h : Good W l a b) :
    Safe W (evalV (straightOps W.space) (pathVector l)) (pathVector l).tr.2 a b := by
  refine h.2.1 fun p _ => ?_
  cases hb : p.1.2 with
  | false => rfl
  | true =>
    obtain ⟨x, y, hxy⟩ := p.2.2.2 hb
    exact absurd (hs x y) hxy

end Verif.Turns
