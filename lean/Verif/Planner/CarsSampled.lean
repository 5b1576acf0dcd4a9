import Verif.Planner.CarsOptimize
import Verif.Planner.OneWay
import Verif.Validation.Discretized
set_option linter.unusedSectionVars false

/-!
# Cars and discretized validation (C162)

As in `Planner/Cars.lean`, with the discretized validation of paths (C29, C30) instead of the continuous one.  A vector of paths is validated as a whole, from its beginning or from its end, so that
BiRRT, which validates from the end the paths that reach its goals (bi-rrt-planner.cc:146-153), can be used: it is the only planner that keeps the direction of the paths (C158).

Simplifications: those of `Planner/Cars.lean`, except the one about the validation from the end; joint bounds are not validated.
-/
namespace Verif.Planner.CarsSampled
open Verif.Car Verif.PathV Verif.Planner Verif.Roadmap Verif.Planner.Cars
open Classical

variable {ι : Type} [Fintype ι]

/-- A problem for a car (the kind of continuous validation is not used), with the step of the discretized validation.  `vmax` is used in the specification only: bounds of the displacement of the
other degrees of freedom for one unit of the extra length. -/
structure Bench (ι : Type) where
  X : World ι
  step : ℝ
  vmax : ι → ℝ

/-- What is assumed. -/
structure Bench.Ok (B : Bench ι) : Prop where
  world : B.X.Ok
  step : 0 < B.step
  vmax : ∀ j, 0 ≤ B.vmax j
  slow : ∀ (a b : Cfg (ι → ℝ) Unit) j, |b.o j - a.o j| ≤ B.vmax j * B.X.extra a (extraEnd a b)

/-- Specification: a bound of the velocity of the distances of a pair of bodies, for a car of unit speed. -/
noncomputable def Bench.vel (B : Bench ι) (c : CarPair ι Unit) : ℝ :=
  (if c.coef.planar then c.coef.xy * √(1 + (1 / B.X.rho) ^ 2) else c.coef.xy + c.coef.rz * (1 / B.X.rho)) + ∑ j, c.coef.other j * B.vmax j

/-- Specification: no pair of objects penetrates more than it can move in half a step. -/
def Bench.Free (B : Bench ι) (q : Cfg (ι → ℝ) Unit) : Prop := ∀ c ∈ B.X.pairs, ∀ o ∈ c.objs, -(B.vel c * (B.step / 2)) ≤ o.dist q

/-- Arcs along which the car and the other degrees of freedom are slow. -/
def Slow (B : Bench ι) (K : CC (ι → ℝ) Unit) : Prop := |K.curveLength| ≤ K.t1 - K.t0 ∧ ∀ j, |K.fin.o j - K.init.o j| ≤ B.vmax j * (K.t1 - K.t0)

/-- The paths of the problem. -/
abbrev SP (B : Bench ι) := { l : Arcs ι // Chain B.X l ∧ ∀ K ∈ l, Slow B K }

variable {B : Bench ι}

/-- The path, without the bounds of the velocities. -/
def low (p : SP B) : Cars.SP B.X := ⟨p.1, p.2.1⟩

/-! ## The calls of the planners -/

/-- Configuration validation of the discretized path validation: collision-validation.cc:60-88 (no pair is in collision). -/
def okConf (B : Bench ι) (q : Cfg (ι → ℝ) Unit) : Bool := B.X.pairs.all fun c => c.objs.all fun o => (o.collide q).isSome

/-- `Discretized::validate` on a vector of paths: path-validation/discretized.cc:55-107.  The number of iterations is enough for the loop to end (`check_spec`). -/
noncomputable def check (B : Bench ι) (rev : Bool) (v : Piece ι) : Except PathV.Err (Bool × Piece ι × Option ℝ × Nat) :=
  Validation.discretized (vecOps ccOps) (okConf B) B.step rev (⌊v.tr.2 / B.step⌋₊ + 1 + 2) v

/-- The vector if it is one of the paths considered (always: `part`). -/
noncomputable def mk (B : Bench ι) (l : Arcs ι) (p : SP B) : SP B := if h : Chain B.X l ∧ ∀ K ∈ l, Slow B K then ⟨l, h⟩ else p

theorem slow_reverse {K : CC (ι → ℝ) Unit} (h : Slow B K) : Slow B K.reverse := by
  refine ⟨?_, fun j => ?_⟩
  · show |-K.curveLength| ≤ K.t1 - K.t0 - 0
    rw [abs_neg, sub_zero]; exact h.1
  · show |K.init.o j - K.fin.o j| ≤ B.vmax j * (K.t1 - K.t0 - 0)
    rw [abs_sub_comm, sub_zero]; exact h.2 j

/-- The reversed vector (`Cars.rev_eq`: it is the reversal of vectors of paths). -/
noncomputable def rev (p : SP B) : SP B := ⟨p.1.reverse.map CC.reverse, chain_reverse p.2.1, by
  intro K hK
  obtain ⟨K0, hK0, rfl⟩ := List.mem_map.1 hK
  exact slow_reverse (p.2.2 K0 (List.mem_reverse.1 hK0))⟩

/-- The calls of the planners.  Planners extract inside of the range of the path (diffusing-planner.cc:132-135, 219-223): elsewhere `extract` is left equal to the identity.  No constraint: every
configuration is its own projection. -/
noncomputable def env (B : Bench ι) : PEnv (Conf ι) (SP B) ℝ where
  dist := B.X.metric
  rev := rev
  zeroLength p := decide (total ccOps p.1 = 0)
  ini p := ini (low p)
  fin p := fin (low p)
  t0 p := (vec p.1).tr.1
  t1 p := (vec p.1).tr.2
  len p := (vec p.1).tr.2 - (vec p.1).tr.1
  extract p a b := if 0 ≤ b ∧ b ≤ total ccOps p.1 then match extractV ccOps (vec p.1) a b with
      | .error _ => p
      | .ok r => mk B r.paths p
    else p
  steer a b := match path B.X a b with
    | .error _ => none
    | .ok l => if h : Chain B.X l ∧ ∀ K ∈ l, Slow B K then some ⟨l, h⟩ else none
  projector := none
  validate rev p := match check B rev (vec p.1) with
    | .error _ => (false, p)
    | .ok r => (r.1, mk B r.2.1.paths p)
  onKernel _ q := some q

/-- The path is free at all parameters. -/
def Valid (B : Bench ι) (p : SP B) : Prop := ∀ K ∈ p.1, ∀ t, K.t0 ≤ t → t ≤ K.t1 → B.Free (K.eval t)

/-! ## Velocities -/

theorem slow_extract {K : CC (ι → ℝ) Unit} (hK : Arc K) (h : Slow B K) {a b : ℝ} (ha : K.t0 ≤ a) (hab : a ≤ b) (hb : b ≤ K.t1) : Slow B (K.extract a b) := by
  obtain ⟨-, x2, x3, -⟩ := hK.extract ha hab hb
  unfold Slow
  rw [x2, x3, sub_zero]
  have ei : (K.extract a b).init = K.eval a := bound_eq hK a
  have ef : (K.extract a b).fin = K.eval b := bound_eq hK b
  rw [ei, ef]
  rcases hK.le.eq_or_lt with e | e
  · have e1 : a = b := by linarith
    subst e1
    have ec : (K.extract a a).curveLength = 0 := by simp [CC.extract]
    rw [ec]
    simp
  · have hp : 0 < K.t1 - K.t0 := sub_pos.2 e
    have hd : 0 ≤ b - a := sub_nonneg.2 hab
    refine ⟨?_, fun j => ?_⟩
    · have ec : (K.extract a b).curveLength = (b - a) / (K.t1 - K.t0) * K.curveLength := by simp [CC.extract, hp.ne']
      rw [ec, abs_mul, abs_of_nonneg (div_nonneg hd hp.le), div_mul_eq_mul_div, div_le_iff₀ hp]
      exact mul_le_mul_of_nonneg_left h.1 hd
    · have eo : (K.eval b).o j - (K.eval a).o j = (b - a) / (K.t1 - K.t0) * (K.fin.o j - K.init.o j) := by
        simp only [CC.eval, lerp, CC.ratio, if_neg hp.ne', Pi.add_apply, Pi.smul_apply, Pi.sub_apply, smul_eq_mul]
        field_simp
        ring
      rw [eo, abs_mul, abs_of_nonneg (div_nonneg hd hp.le), div_mul_eq_mul_div, div_le_iff₀ hp, mul_assoc, mul_left_comm]
      have := mul_le_mul_of_nonneg_left (h.2 j) hd
      linarith

theorem vel_nonneg (hB : B.Ok) {c : CarPair ι Unit} (hc : c ∈ B.X.pairs) : 0 ≤ B.vel c := by
  obtain ⟨n1, n2, n3, -⟩ := (hB.world.pairs c hc).nonneg
  have hr := hB.world.radius
  have hs : 0 ≤ ∑ j, c.coef.other j * B.vmax j := Finset.sum_nonneg fun j _ => mul_nonneg (n3 j) (hB.vmax j)
  unfold Bench.vel
  split <;> positivity

theorem least_le (hB : B.Ok) {c : CarPair ι Unit} (hc : c ∈ B.X.pairs) {K : CC (ι → ℝ) Unit} (hK : ArcG B.X K) (h : Slow B K) : c.coef.least K ≤ B.vel c := by
  obtain ⟨n1, n2, n3, -⟩ := (hB.world.pairs c hc).nonneg
  have hr := hB.world.radius
  by_cases e : K.t0 = K.t1
  · rw [Coefs.least, if_pos e]; exact vel_nonneg hB hc
  · have hp : 0 < K.t1 - K.t0 := sub_pos.2 (lt_of_le_of_ne hK.1.le e)
    have s1 : |K.speed| ≤ 1 := by
      unfold CC.speed
      rw [abs_div, abs_of_pos hp, div_le_one hp]; exact h.1
    have s2 : |K.speed * K.curvature| ≤ 1 / B.X.rho := by
      rw [abs_mul]
      have hk : |K.curvature| ≤ 1 / B.X.rho := by
        rcases hK.2.2 with hk | hk
        · rw [hk, abs_zero]; positivity
        · exact hk.le
      calc |K.speed| * |K.curvature| ≤ 1 * (1 / B.X.rho) := mul_le_mul s1 hk (abs_nonneg _) one_pos.le
        _ = _ := one_mul _
    have s3 : ∑ j, c.coef.other j * (|K.fin.o j - K.init.o j| / (K.t1 - K.t0)) ≤ ∑ j, c.coef.other j * B.vmax j := by
      refine Finset.sum_le_sum fun j _ => mul_le_mul_of_nonneg_left ?_ (n3 j)
      rw [div_le_iff₀ hp]; exact h.2 j
    rw [Coefs.least, if_neg e, Bench.vel]
    refine add_le_add ?_ s3
    split
    · refine mul_le_mul_of_nonneg_left (Real.sqrt_le_sqrt ?_) n1
      have q1 : K.speed ^ 2 ≤ 1 := by rw [← sq_abs]; nlinarith [abs_nonneg K.speed]
      have q2 : (K.speed * K.curvature) ^ 2 ≤ (1 / B.X.rho) ^ 2 := by
        rw [← sq_abs]; exact pow_le_pow_left₀ (abs_nonneg _) s2 2
      linarith
    · have m1 := mul_le_mul_of_nonneg_left s1 n1
      have m2 := mul_le_mul_of_nonneg_left s2 n2
      linarith

/-! ## Vectors -/

theorem vval (p : SP B) {t : ℝ} (h0 : 0 ≤ t) (h1 : t ≤ total ccOps p.1) : ∃ K ∈ p.1, ∃ u, K.t0 ≤ u ∧ u ≤ K.t1 ∧ evalV ccOps (vec p.1) t = .ok (K.eval u) := vec_value (low p) h0 h1

theorem tnn (p : SP B) : 0 ≤ total ccOps p.1 := Cars.total_nonneg p.2.1

/-- The distances of a pair vary no faster than the bound along the whole vector. -/
theorem vec_lip (hB : B.Ok) (p : SP B) {c : CarPair ι Unit} (hc : c ∈ B.X.pairs) {o : CarObj ι Unit} (ho : o ∈ c.objs) {s t : ℝ} {q q' : Cfg (ι → ℝ) Unit} (h0 : 0 ≤ s) (hst : s ≤ t)
    (h1 : t ≤ total ccOps p.1) (hq : evalV ccOps (vec p.1) s = .ok q) (hq' : evalV ccOps (vec p.1) t = .ok q') : |o.dist q - o.dist q'| ≤ B.vel c * (t - s) := by
  have hlen : ∀ K ∈ p.1, 0 ≤ ccOps.len K := fun K hK => sub_nonneg.2 (p.2.1.arc K hK).1.le
  have hch := chained_of (fun K hK => (p.2.1.arc K hK).1) p.2.1.link
  have hv := vel_nonneg hB hc
  have key : ∀ (M A : Arcs ι), p.1 = A ++ M → ∀ s t q q', total ccOps A ≤ s → s ≤ t → t ≤ total ccOps p.1 → evalV ccOps (vec p.1) s = .ok q → evalV ccOps (vec p.1) t = .ok q' →
      |o.dist q - o.dist q'| ≤ B.vel c * (t - s) := by
    intro M
    induction M with
    | nil =>
      intro A e s t q q' k1 k2 k3 k4 k5
      rw [List.append_nil] at e
      have : s = t := le_antisymm k2 (by rw [e] at k3; linarith)
      subst this
      obtain rfl : q = q' := Except.ok.inj (k4.symm.trans k5)
      simp
    | cons K M ih =>
      intro A e s t q q' k1 k2 k3 k4 k5
      have hK : K ∈ p.1 := by rw [e]; simp
      have hA : ∀ K ∈ A, 0 ≤ ccOps.len K := fun k hk => hlen k (by rw [e]; simp [hk])
      have hlK : ccOps.len K = K.t1 - K.t0 := rfl
      have at' : ∀ u, 0 ≤ u → u ≤ ccOps.len K → evalV ccOps (vec p.1) (total ccOps A + u) = .ok (K.eval (K.t0 + u)) := by
        intro u u0 u1
        rw [evalV_none _ _ (cons_vec p.1), paths_vec, e, chained_at ccOps A M K u hA (by rw [← e]; exact hch) u0 u1]
        rfl
      have direct : ∀ s t q q', total ccOps A ≤ s → s ≤ t → t ≤ total ccOps A + ccOps.len K → evalV ccOps (vec p.1) s = .ok q → evalV ccOps (vec p.1) t = .ok q' →
          |o.dist q - o.dist q'| ≤ B.vel c * (t - s) := by
        intro s t q q' m1 m2 m3 m4 m5
        have e1 := at' (s - total ccOps A) (by linarith) (by linarith)
        have e2 := at' (t - total ccOps A) (by linarith) (by linarith)
        rw [add_sub_cancel] at e1 e2
        obtain rfl := Except.ok.inj (e1.symm.trans m4)
        obtain rfl := Except.ok.inj (e2.symm.trans m5)
        have l := least_lip ((hB.world.pairs c hc).coef o ho) K (p.2.1.arc K hK).1.le (p.2.1.arc K hK).1.unit (u := K.t0 + (s - total ccOps A)) (v := K.t0 + (t - total ccOps A))
          (by linarith) (by linarith) (by linarith) (by linarith)
        refine l.trans ?_
        rw [show K.t0 + (s - total ccOps A) - (K.t0 + (t - total ccOps A)) = -(t - s) by ring, abs_neg, abs_of_nonneg (sub_nonneg.2 m2)]
        exact mul_le_mul_of_nonneg_right (least_le hB hc (p.2.1.arc K hK) (p.2.2 K hK)) (sub_nonneg.2 m2)
      have eA : total ccOps (A ++ [K]) = total ccOps A + ccOps.len K := by rw [total_append, total_cons, total_nil, add_zero]
      have eL : p.1 = (A ++ [K]) ++ M := by rw [e]; simp
      rcases le_total t (total ccOps A + ccOps.len K) with ht | ht
      · exact direct s t q q' k1 k2 ht k4 k5
      · rcases le_total s (total ccOps A + ccOps.len K) with hs | hs
        · have em := at' (ccOps.len K) (hlen K hK) le_rfl
          have d1 := direct s _ q _ k1 hs le_rfl k4 em
          have d2 := ih (A ++ [K]) eL _ t _ q' eA.le ht k3 em k5
          calc |o.dist q - o.dist q'| ≤ _ := abs_sub_le _ (o.dist (K.eval (K.t0 + ccOps.len K))) _
            _ ≤ _ := add_le_add d1 d2
            _ = _ := by ring
        · exact ih (A ++ [K]) eL s t q q' (by rw [eA]; exact hs) k2 k3 k4 k5
  exact key p.1 [] rfl s t q q' (by simpa using h0) hst h1 hq hq'

/-- Extraction inside of a path of the problem. -/
theorem part (p : SP B) {a b : ℝ} (h0 : 0 ≤ a) (hab : a ≤ b) (hb : b ≤ total ccOps p.1) : ∃ p' : SP B, extractV ccOps (vec p.1) a b = .ok (vec p'.1) ∧ total ccOps p'.1 = b - a ∧
    (∀ x, 0 ≤ x → x ≤ b - a → evalV ccOps (vec p'.1) x = evalV ccOps (vec p.1) (a + x)) ∧ ((∀ K ∈ p.1, Sgn B.X K) → ∀ K ∈ p'.1, Sgn B.X K) := by
  obtain ⟨r, hr⟩ := C21_defined (O := ccOps) (vec p.1) (by rw [paths_vec]; exact p.2.1.ne) (by rw [paths_vec]; exact fun K hK => (p.2.1.arc K hK).1.le) (fun K _ a b _ _ _ _ => ⟨_, rfl⟩)
    (fun K _ => ⟨_, rfl⟩) a b h0 (by rw [paths_vec]; exact hab.trans hb) (h0.trans hab) (by rw [paths_vec]; exact hb)
  obtain ⟨⟨f1, f2⟩, f3, f4⟩ := (fit_lawful B.X).fwd (vec p.1) a b r (fit_vec (low p)) (by rw [show vec p.1 = vec (low p).1 from rfl, vlo]; exact h0) hab
    (by rw [show vec p.1 = vec (low p).1 from rfl, vhi]; exact hb) hr
  have slow : ∀ K ∈ r.paths, Slow B K := by
    have hL : LawfulF ccOps fun K => ArcG B.X K ∧ Slow B K := by
      refine ⟨fun K hK => (arc_lawful B.X).nonneg K hK.1, ?_⟩
      intro K a b r hK h1 h2 h3 hr
      obtain ⟨m1, m2, m3⟩ := (arc_lawful B.X).fwd K a b r hK.1 h1 h2 h3 hr
      refine ⟨⟨m1, ?_⟩, m2, m3⟩
      obtain rfl := Except.ok.inj hr
      exact slow_extract hK.1.1 hK.2 h1 h2 h3
    exact fun K hK => ((extract_fwd hL (vec p.1) ⟨by rw [tr_vec, paths_vec], by rw [paths_vec]; exact fun K hK => ⟨p.2.1.arc K hK, p.2.2 K hK⟩⟩ (evalV_none _ _ (cons_vec p.1)) a b h0 hab
      (by rw [paths_vec]; exact hb) r hr).2.1.2 K hK).2
  have hlo : (vecOps (ccOps (E := ι → ℝ) (W := Unit))).lo r = 0 := by show r.tr.1 = 0; rw [f1, tr_vec]
  refine ⟨⟨r.paths, f2, slow⟩, by rw [hr, ← f1], ?_, ?_, ?_⟩
  · rw [← f3]
    show total ccOps r.paths = r.tr.2 - r.tr.1
    have e : r.tr = (0, total ccOps r.paths) := (congrArg (·.tr) f1).trans (tr_vec _)
    rw [e, sub_zero]
  · intro x x0 x1
    have := f4 x x0 x1
    rw [hlo, zero_add] at this
    show evalV ccOps (vec r.paths) x = _
    rw [← f1]; exact this
  · intro hs
    exact ((fitD_lawful B.X).fwd (vec p.1) a b r ⟨fit_vec (low p), by rw [paths_vec]; exact hs⟩ (by rw [show vec p.1 = vec (low p).1 from rfl, vlo]; exact h0) hab
      (by rw [show vec p.1 = vec (low p).1 from rfl, vhi]; exact hb) hr).1.2

/-- Validity in terms of the parameters of the vector. -/
theorem valid_iff (p : SP B) : Valid B p ↔ ∀ t, 0 ≤ t → t ≤ total ccOps p.1 → ∀ q, evalV ccOps (vec p.1) t = .ok q → B.Free q := by
  constructor
  · intro h t t0 t1 q hq
    obtain ⟨K, hK, u, u0, u1, e⟩ := vval p t0 t1
    obtain rfl := Except.ok.inj (e.symm.trans hq)
    exact h K hK u u0 u1
  · intro h K hK u u0 u1
    obtain ⟨t, t0, t1, e⟩ := arc_value (low p) hK u0 u1
    exact h t t0 t1 _ e

theorem sampling_range {L : List ℝ} {a b h : ℝ} (hL : Validation.Sampling L a b h) : ∀ u ∈ L, a ≤ u ∧ u ≤ b := by
  obtain ⟨hh, hl, hg⟩ := hL
  induction L generalizing a with
  | nil => simp
  | cons x L ih =>
    rw [List.head?_cons, Option.some.injEq] at hh
    subst hh
    rw [List.isChain_cons] at hg
    cases L with
    | nil =>
      rw [List.getLast?_singleton, Option.some.injEq] at hl
      subst hl
      simp
    | cons y L =>
      rw [List.getLast?_cons_cons] at hl
      have := ih rfl hl hg.2
      have hxy := (hg.1 y (by simp)).1
      intro u hu
      rcases List.mem_cons.1 hu with rfl | hu
      · exact ⟨le_rfl, hxy.trans (this y (by simp)).2⟩
      · exact ⟨hxy.trans (this u hu).1, (this u hu).2⟩

/-- Free between accepted samples. -/
theorem sampled_free (hB : B.Ok) (p : SP B) (L : List ℝ) {a b : ℝ} (ha : 0 ≤ a) (hb : b ≤ total ccOps p.1) (hL : Validation.Sampling L a b B.step)
    (hg : ∀ t ∈ L, Validation.Good (vecOps ccOps) (okConf B) (vec p.1) t) {t : ℝ} (h1 : a ≤ t) (h2 : t ≤ b) {q : Cfg (ι → ℝ) Unit} (hq : evalV ccOps (vec p.1) t = .ok q) : B.Free q := by
  intro c hc o ho
  obtain ⟨x, hx, y, hy, x1, y1, xy⟩ := hL.between hB.step.le t h1 h2
  have hv := vel_nonneg hB hc
  have ok : ∀ u ∈ L, ∃ r, evalV ccOps (vec p.1) u = .ok r ∧ 0 < o.dist r := by
    intro u hu
    obtain ⟨r, e, h⟩ := hg u hu
    refine ⟨r, e, ?_⟩
    unfold okConf at h
    rw [List.all_eq_true] at h
    have := h c hc
    rw [List.all_eq_true] at this
    obtain ⟨d, hd⟩ := Option.isSome_iff_exists.1 (this o ho)
    obtain ⟨d1, d2⟩ := (hB.world.pairs c hc).lower o ho r d hd
    linarith
  have rng : ∀ u ∈ L, a ≤ u ∧ u ≤ b := sampling_range hL
  rcases le_total (t - x) (y - t) with h | h
  · obtain ⟨r, e, hr⟩ := ok x hx
    have l := vec_lip hB p hc ho (ha.trans (rng x hx).1) x1 (h2.trans hb) e hq
    have m : B.vel c * (t - x) ≤ B.vel c * (B.step / 2) := mul_le_mul_of_nonneg_left (by linarith) hv
    have := (abs_le.1 l).2
    linarith
  · obtain ⟨r, e, hr⟩ := ok y hy
    have l := vec_lip hB p hc ho (ha.trans h1) y1 ((rng y hy).2.trans hb) hq e
    have m : B.vel c * (y - t) ≤ B.vel c * (B.step / 2) := mul_le_mul_of_nonneg_left (by linarith) hv
    have := (abs_le.1 l).1
    linarith

/-! ## Validation -/

/-- The discretized validation ends if extraction is defined inside of the range (C30 assumes it everywhere). -/
theorem discretized_ends {P Q : Type} (O : Ops ℝ Q P) (okc : Q → Bool) {h : ℝ} (hh : 0 < h) (rev : Bool) {fuel m : Nat} {p : P} (hp : O.lo p ≤ O.hi p) (hm : O.hi p - O.lo p < m * h)
    (hfuel : m + 2 ≤ fuel) (hex : ∀ a b, O.lo p ≤ a → a ≤ b → b ≤ O.hi p → ∃ q, O.extract p a b = .ok q) : ∃ r, Validation.discretized O okc h rev fuel p = .ok r := by
  cases rev with
  | false =>
    obtain ⟨r, hr, -⟩ := Validation.discLoop_bound (Validation.sampleOk O okc p) (O.hi p) h hh m fuel (O.lo p) (O.lo p) 0 0 (Or.inl ⟨rfl, hp, hm, by omega⟩)
    have sp := Validation.discLoop_spec _ _ _ h hp hh fuel _ _ 0 0 r (Validation.DInv.init _ _ _ _) hr
    simp only [Validation.discretized, Bool.false_eq_true, if_false, hr, bind, Except.bind]
    cases hv : r.valid with
    | true => exact ⟨_, rfl⟩
    | false =>
      obtain ⟨tf, -, -, k1, k2⟩ := sp.2 hv
      obtain ⟨q, hq⟩ := hex (O.lo p) r.last le_rfl (by rcases k2 with ⟨-, e⟩ | ⟨L, -, -, e, -⟩; exacts [e.ge, e])
        (by rcases k2 with ⟨-, e⟩ | ⟨L, -, -, -, e, -⟩; exacts [e.le.trans hp, e.le.trans k1])
      simp only [hq]
      exact ⟨_, rfl⟩
  | true =>
    obtain ⟨r, hr, -⟩ := Validation.discLoop_bound (fun x => Validation.sampleOk O okc p (-x)) (-O.lo p) h hh m fuel (-O.hi p) (-O.hi p) 0 0
      (Or.inl ⟨rfl, by linarith, by linarith, by omega⟩)
    have sp := Validation.discLoop_spec _ _ _ h (by linarith : -O.hi p ≤ -O.lo p) hh fuel _ _ 0 0 r (Validation.DInv.init _ _ _ _) hr
    simp only [Validation.discretized, if_true]
    rw [Validation.discLoop_mirror, hr]
    simp only [bind, Except.bind, Except.map]
    cases hv : r.valid with
    | true => exact ⟨_, rfl⟩
    | false =>
      obtain ⟨tf, -, -, k1, k2⟩ := sp.2 hv
      obtain ⟨q, hq⟩ := hex (-r.last) (O.hi p) (by rcases k2 with ⟨-, e⟩ | ⟨L, -, -, -, e, -⟩ <;> linarith) (by rcases k2 with ⟨-, e⟩ | ⟨L, -, -, e, -⟩ <;> linarith) le_rfl
      simp only [hq]
      exact ⟨_, rfl⟩

theorem mk_eq (p' p : SP B) : mk B p'.1 p = p' := by unfold mk; rw [dif_pos p'.2]

/-- The validation of a path of the problem ends.  If the answer is positive the path is free.  Otherwise the valid part is a part from the beginning, or to the end, of the path; it is free or of
length zero. -/
theorem check_spec (hB : B.Ok) (rv : Bool) (p : SP B) :
    (((env B).validate rv p).1 = true ∧ ((env B).validate rv p).2 = p ∧ Valid B p) ∨
    (((env B).validate rv p).1 = false ∧ ∃ a b, 0 ≤ a ∧ a ≤ b ∧ b ≤ total ccOps p.1 ∧ (if rv then b = total ccOps p.1 else a = 0) ∧
      extractV ccOps (vec p.1) a b = .ok (vec ((env B).validate rv p).2.1) ∧
      (a = b ∨ ∀ t, a ≤ t → t ≤ b → ∀ q, evalV ccOps (vec p.1) t = .ok q → B.Free q)) := by
  have hlo : (vecOps (ccOps (E := ι → ℝ) (W := Unit))).lo (vec p.1) = 0 := vlo (low p)
  have hhi : (vecOps (ccOps (E := ι → ℝ) (W := Unit))).hi (vec p.1) = total ccOps p.1 := vhi (low p)
  have hle : (vecOps (ccOps (E := ι → ℝ) (W := Unit))).lo (vec p.1) ≤ (vecOps ccOps).hi (vec p.1) := by rw [hlo, hhi]; exact tnn p
  have hex : ∀ a b, (vecOps (ccOps (E := ι → ℝ) (W := Unit))).lo (vec p.1) ≤ a → a ≤ b → b ≤ (vecOps ccOps).hi (vec p.1) → ∃ q, (vecOps ccOps).extract (vec p.1) a b = .ok q := by
    intro a b h1 h2 h3
    rw [hlo] at h1
    rw [hhi] at h3
    obtain ⟨p', e, -⟩ := part p h1 h2 h3
    exact ⟨_, e⟩
  obtain ⟨⟨v, vp, rep, n⟩, hr⟩ := discretized_ends (vecOps ccOps) (okConf B) hB.step rv (fuel := ⌊(vec p.1).tr.2 / B.step⌋₊ + 1 + 2) (m := ⌊(vec p.1).tr.2 / B.step⌋₊ + 1) hle
    (by
      rw [hlo, hhi, tr_vec, sub_zero, ← div_lt_iff₀ hB.step]
      push_cast
      exact Nat.lt_floor_add_one _) le_rfl hex
  have hc : check B rv (vec p.1) = .ok (v, vp, rep, n) := hr
  have hval : (env B).validate rv p = (v, mk B vp.paths p) := by simp only [env, hc]
  rw [hval]
  cases v with
  | true =>
    obtain ⟨k1, -, L, k2, k3⟩ := Validation.C29_valid _ _ _ hB.step rv _ (vec p.1) hle vp rep n hr
    rw [hlo, hhi] at k2
    subst k1
    refine Or.inl ⟨rfl, by rw [paths_vec]; exact mk_eq p p, ?_⟩
    rw [valid_iff]
    exact fun t t0 t1 q hq => sampled_free hB p L le_rfl le_rfl k2 k3 t0 t1 hq
  | false =>
    right
    refine ⟨rfl, ?_⟩
    obtain ⟨tf, -, k1, k2, -, k3⟩ := Validation.C29_fail _ _ _ hB.step rv _ (vec p.1) hle vp rep n hr
    rw [hlo] at k1
    rw [hhi] at k2
    have fin : ∀ a b, 0 ≤ a → a ≤ b → b ≤ total ccOps p.1 → (vecOps ccOps).extract (vec p.1) a b = .ok vp → extractV ccOps (vec p.1) a b = .ok (vec (mk B vp.paths p).1) := by
      intro a b h1 h2 h3 h4
      obtain ⟨p', e, -⟩ := part p h1 h2 h3
      obtain rfl := Except.ok.inj (e.symm.trans h4)
      rw [paths_vec, mk_eq]; exact e
    cases rv with
    | true =>
      simp only [if_true, hlo, hhi] at k3 ⊢
      rcases k3 with ⟨-, k4⟩ | ⟨tl, L, k4, k5, k6, k7, -⟩
      · exact ⟨_, _, tnn p, le_rfl, le_rfl, rfl, fin _ _ (tnn p) le_rfl le_rfl k4, Or.inl rfl⟩
      · exact ⟨tl, _, k1.trans k7.le, k5.le, le_rfl, rfl, fin _ _ (k1.trans k7.le) k5.le le_rfl k4,
          Or.inr fun t t0 t1 q hq => sampled_free hB p L (k1.trans k7.le) le_rfl k5 k6 t0 t1 hq⟩
    | false =>
      simp only [Bool.false_eq_true, if_false, hlo, hhi] at k3 ⊢
      rcases k3 with ⟨-, k4⟩ | ⟨tl, L, k4, k5, k6, k7, -⟩
      · exact ⟨0, 0, le_rfl, le_rfl, tnn p, rfl, fin _ _ le_rfl le_rfl (tnn p) k4, Or.inl rfl⟩
      · exact ⟨0, tl, le_rfl, k5.le, k7.le.trans k2, rfl, fin _ _ le_rfl k5.le (k7.le.trans k2) k4,
          Or.inr fun t t0 t1 q hq => sampled_free hB p L le_rfl (k7.le.trans k2) k5 k6 t0 t1 hq⟩

/-- C162: the validation, from both ends, accepts the paths all of whose configurations are without collision. -/
theorem C162_accepts (hB : B.Ok) (rv : Bool) (p : SP B) (h : ∀ K ∈ p.1, ∀ t, K.t0 ≤ t → t ≤ K.t1 → ∀ c ∈ B.X.pairs, ∀ o ∈ c.objs, o.collide (K.eval t) ≠ none) : ((env B).validate rv p).1 = true := by
  have hlo : (vecOps (ccOps (E := ι → ℝ) (W := Unit))).lo (vec p.1) = 0 := vlo (low p)
  have hhi : (vecOps (ccOps (E := ι → ℝ) (W := Unit))).hi (vec p.1) = total ccOps p.1 := vhi (low p)
  have hle : (vecOps (ccOps (E := ι → ℝ) (W := Unit))).lo (vec p.1) ≤ (vecOps ccOps).hi (vec p.1) := by rw [hlo, hhi]; exact tnn p
  have hex : ∀ a b, (vecOps (ccOps (E := ι → ℝ) (W := Unit))).lo (vec p.1) ≤ a → a ≤ b → b ≤ (vecOps ccOps).hi (vec p.1) → ∃ q, (vecOps ccOps).extract (vec p.1) a b = .ok q := by
    intro a b h1 h2 h3
    rw [hlo] at h1
    rw [hhi] at h3
    obtain ⟨p', e, -⟩ := part p h1 h2 h3
    exact ⟨_, e⟩
  obtain ⟨⟨v, vp, rep, n⟩, hr⟩ := discretized_ends (vecOps ccOps) (okConf B) hB.step rv (fuel := ⌊(vec p.1).tr.2 / B.step⌋₊ + 1 + 2) (m := ⌊(vec p.1).tr.2 / B.step⌋₊ + 1) hle
    (by
      rw [hlo, hhi, tr_vec, sub_zero, ← div_lt_iff₀ hB.step]
      push_cast
      exact Nat.lt_floor_add_one _) le_rfl hex
  have hc : check B rv (vec p.1) = .ok (v, vp, rep, n) := hr
  have hval : (env B).validate rv p = (v, mk B vp.paths p) := by simp only [env, hc]
  rw [hval]
  cases v with
  | true => rfl
  | false =>
    obtain ⟨tf, -, k1, k2, k3, -⟩ := Validation.C29_fail _ _ _ hB.step rv _ (vec p.1) hle vp rep n hr
    rw [hlo] at k1
    rw [hhi] at k2
    obtain ⟨K, hK, u, u0, u1, e⟩ := vval p k1 k2
    refine absurd ⟨_, e, ?_⟩ k3
    unfold okConf
    rw [List.all_eq_true]
    intro c hc
    rw [List.all_eq_true]
    exact fun o ho => Option.isSome_iff_ne_none.2 (h K hK u u0 u1 c hc o ho)

/-- What is known of a part. -/
theorem part_of {p p' : SP B} {a b : ℝ} (h0 : 0 ≤ a) (hab : a ≤ b) (hb : b ≤ total ccOps p.1) (h : extractV ccOps (vec p.1) a b = .ok (vec p'.1)) :
    total ccOps p'.1 = b - a ∧ (∀ x, 0 ≤ x → x ≤ b - a → evalV ccOps (vec p'.1) x = evalV ccOps (vec p.1) (a + x)) ∧ ((∀ K ∈ p.1, Sgn B.X K) → ∀ K ∈ p'.1, Sgn B.X K) ∧
    (a = 0 → ini (low p') = ini (low p)) ∧ (b = total ccOps p.1 → fin (low p') = fin (low p)) ∧
    ((∀ t, a ≤ t → t ≤ b → ∀ q, evalV ccOps (vec p.1) t = .ok q → B.Free q) → Valid B p') := by
  obtain ⟨p1, e, k1, k2, k3⟩ := part p h0 hab hb
  obtain rfl : p1 = p' := by
    have := congrArg (·.paths) (Except.ok.inj (e.symm.trans h))
    simp only [paths_vec] at this
    exact Subtype.ext this
  refine ⟨k1, k2, k3, ?_, ?_, ?_⟩
  · intro ha
    have := k2 0 le_rfl (sub_nonneg.2 hab)
    rw [ha, add_zero] at this
    exact Subtype.ext (Except.ok.inj ((vec_ends (low p1)).1.symm.trans (this.trans (vec_ends (low p)).1)))
  · intro ht
    have := k2 (b - a) (sub_nonneg.2 hab) le_rfl
    rw [add_sub_cancel, ht] at this
    have e1 := (vec_ends (low p1)).2
    change evalV ccOps (vec p1.1) (total ccOps p1.1) = _ at e1
    rw [k1, ht] at e1
    exact Subtype.ext (Except.ok.inj (e1.symm.trans (this.trans (vec_ends (low p)).2)))
  · intro hf
    rw [valid_iff]
    intro t t0 t1 q hq
    rw [k1] at t1
    rw [k2 t t0 t1] at hq
    exact hf (a + t) (by linarith) (by linarith) q hq

/-! ## Steering -/

/-- Velocities along the paths of Dubins. -/
theorem dubins_slow {rho extra : ℝ} (hr : 0 < rho) (he : 0 ≤ extra) {q0 q1 : Cfg (ι → ℝ) Unit} (h0 : q0.Unit) (h1 : q1.Unit) {interp : Cfg (ι → ℝ) Unit → Cfg (ι → ℝ) Unit → ℝ → Cfg (ι → ℝ) Unit}
    (hi : ∀ a b u, (interp a b u).o = lerp a.o b.o u) {v : ι → ℝ} (hv : ∀ j, 0 ≤ v j) (hs : ∀ j, |q1.o j - q0.o j| ≤ v j * extra) {l : Arcs ι}
    (h : dubinsPath interp (fun _ => ()) rho extra q0 q1 = .ok l) : ∀ K ∈ l, |K.curveLength| ≤ K.t1 - K.t0 ∧ ∀ j, |K.fin.o j - K.init.o j| ≤ v j * (K.t1 - K.t0) := by
  obtain ⟨w, T, ⟨ht, hp, hq⟩, -, -, hpath⟩ := dubins_best hr h0 h1 interp (fun _ => ()) extra
  rw [h] at hpath
  split at hpath
  · simp at hpath
  next hL =>
  have hL : w.cost ≠ 0 := hL
  have hLp : 0 < w.cost := lt_of_le_of_ne (by unfold Lens.cost; linarith) (Ne.symm hL)
  have piece : ∀ (a b : Cfg (ι → ℝ) Unit) (x k : ℝ), 0 ≤ x → (∀ j, b.o j - a.o j = x / w.cost * (q1.o j - q0.o j)) →
      let K := CC.create a b (rho * x) (rho * x + x / w.cost * extra) k ()
      (|K.curveLength| ≤ K.t1 - K.t0 ∧ ∀ j, |K.fin.o j - K.init.o j| ≤ v j * (K.t1 - K.t0)) ∧ K.fin.o = b.o := by
    intro a b x k hx hb K
    obtain ⟨-, c2, c3, -, -, hA, hB⟩ := C85_create a b (rho * x) (rho * x + x / w.cost * extra) k ()
    have x1 : 0 ≤ rho * x := by positivity
    have x2 : 0 ≤ x / w.cost * extra := by positivity
    have c2 : K.t0 = 0 := c2
    have c3 : K.t1 = rho * x + x / w.cost * extra := c3.trans (abs_of_nonneg (by linarith))
    have hfin : K.fin.o = b.o := by
      by_cases hz : rho * x + x / w.cost * extra = 0
      · have : rho * x = 0 := by linarith
        have hx0 : x = 0 := by rcases mul_eq_zero.1 this with h | h; exacts [absurd h hr.ne', h]
        have e : K.fin.o = a.o := (hB hz).2
        rw [e]
        funext j
        have := hb j
        rw [hx0, zero_div, zero_mul] at this
        linarith
      · exact (hA hz).2
    rw [c2, c3, sub_zero]
    refine ⟨⟨?_, fun j => ?_⟩, hfin⟩
    · show |rho * x| ≤ _
      rw [abs_of_nonneg x1]; linarith
    · rw [hfin]
      show |b.o j - a.o j| ≤ _
      rw [hb j, abs_mul, abs_of_nonneg (by positivity : 0 ≤ x / w.cost)]
      have m1 := mul_le_mul_of_nonneg_left (hs j) (by positivity : 0 ≤ x / w.cost)
      have m2 := mul_nonneg (hv j) x1
      nlinarith
  obtain rfl := Except.ok.inj hpath
  have lp : ∀ (u : ℝ) j, (interp q0 q1 u).o j = q0.o j + u * (q1.o j - q0.o j) := by
    intro u j; rw [hi]; simp [lerp]
  obtain ⟨a1, b1⟩ := piece q0 (interp q0 q1 (w.t / w.cost)) w.t (T.1.curv / rho) ht (fun j => by rw [lp]; ring)
  obtain ⟨a2, b2⟩ := piece (CC.create q0 (interp q0 q1 (w.t / w.cost)) (rho * w.t) (rho * w.t + w.t / w.cost * extra) (T.1.curv / rho) ()).fin
    (interp q0 q1 ((w.t + w.p) / w.cost)) w.p (T.2.1.curv / rho) hp (fun j => by rw [b1, lp, lp]; ring)
  obtain ⟨a3, -⟩ := piece (CC.create (CC.create q0 (interp q0 q1 (w.t / w.cost)) (rho * w.t) (rho * w.t + w.t / w.cost * extra) (T.1.curv / rho) ()).fin
    (interp q0 q1 ((w.t + w.p) / w.cost)) (rho * w.p) (rho * w.p + w.p / w.cost * extra) (T.2.1.curv / rho) ()).fin q1 w.q (T.2.2.curv / rho) hq (fun j => by
      rw [b2, lp]
      have : (w.t + w.p) / w.cost = 1 - w.q / w.cost := by rw [eq_sub_iff_add_eq, ← add_div, div_eq_one_iff_eq hL]; rfl
      rw [this]; ring)
  intro K hK
  simp only [List.mem_cons, List.not_mem_nil, or_false] at hK
  rcases hK with rfl | rfl | rfl
  · exact a1
  · exact a2
  · exact a3

/-- Velocities along the paths of the steering method. -/
theorem path_slow (hB : B.Ok) {a b : Conf ι} {l : Arcs ι} (h : path B.X a b = .ok l) : ∀ K ∈ l, Slow B K := by
  unfold path at h
  split at h
  · unfold snibudSteer at h
    split at h
    · simp at h
    · next l' hl' =>
      obtain rfl := Except.ok.inj h
      have := dubins_slow hB.world.radius (hB.world.extra _ _) b.2 a.2 hB.world.between hB.vmax (fun j => by rw [abs_sub_comm]; exact hB.slow a.1 b.1 j) hl'
      intro K hK
      obtain ⟨K0, hK0, rfl⟩ := List.mem_map.1 hK
      exact slow_reverse (this K0 (List.mem_reverse.1 hK0))
  · exact dubins_slow hB.world.radius (hB.world.extra _ _) a.2 b.2 hB.world.between hB.vmax (fun j => hB.slow a.1 b.1 j) h

theorem steer_low {a b : Conf ι} {p : SP B} (h : (env B).steer a b = some p) : (Cars.env B.X).steer a b = some (low p) := by
  simp only [env] at h
  simp only [Cars.env]
  split at h
  · simp at h
  · next l hl =>
    split at h
    · next hc =>
      obtain rfl := Option.some.inj h
      simp only [hl]
      rw [dif_pos hc.1]
      rfl
    · simp at h

/-- C162: between configurations of different poses, the steering method gives one of the paths considered. -/
theorem C162_steer (hB : B.Ok) {a b : Conf ι} (hne : a.1.pose ≠ b.1.pose) : ∃ p, (env B).steer a b = some p := by
  obtain ⟨p, hp⟩ := C160_steer hB.world hne
  simp only [Cars.env] at hp
  simp only [env]
  split at hp
  · simp at hp
  · next l hl =>
    split at hp
    · next hc =>
      simp only [hl]
      rw [dif_pos ⟨hc, path_slow hB hl⟩]
      exact ⟨_, rfl⟩
    · simp at hp

/-! ## The contracts -/

theorem extract_spec (p : SP B) (t : ℝ) : (env B).extract p ((env B).t0 p) t = p ∨ (0 ≤ t ∧ t ≤ total ccOps p.1 ∧
    extractV ccOps (vec p.1) 0 t = .ok (vec ((env B).extract p ((env B).t0 p) t).1)) := by
  have e0 : (env B).t0 p = 0 := by show (vec p.1).tr.1 = 0; rw [tr_vec]
  rw [e0]
  simp only [env]
  split
  · next ht =>
    obtain ⟨p', e, -⟩ := part p le_rfl ht.1 ht.2
    right
    refine ⟨ht.1, ht.2, ?_⟩
    rw [e]
    simp only [paths_vec, mk_eq]
  · exact Or.inl rfl

theorem contract (hB : B.Ok) : Contract (env B) (Valid B) := by
  have et0 : ∀ p : SP B, (env B).t0 p = 0 := fun p => by show (vec p.1).tr.1 = 0; rw [tr_vec]
  have et1 : ∀ p : SP B, (env B).t1 p = total ccOps p.1 := fun p => by show (vec p.1).tr.2 = _; rw [tr_vec]
  have elen : ∀ p : SP B, (env B).len p = total ccOps p.1 := fun p => by show (vec p.1).tr.2 - (vec p.1).tr.1 = _; rw [tr_vec, sub_zero]
  refine ⟨fun a b p h => steer_spec hB.world (steer_low h), ?_, ?_, fun f p b p' h => (by simp [env] at h), fun f p h => (by simp [env] at h), ?_, ?_, ?_, ?_, ?_, ?_, ?_⟩
  · intro p t
    rcases extract_spec p t with h | ⟨h0, h1, h⟩
    · rw [h]
    · exact (part_of le_rfl h0 h1 h).2.2.2.1 rfl
  · intro p t hv
    rcases extract_spec p t with h | ⟨h0, h1, h⟩
    · rw [h]; exact hv
    · exact (part_of le_rfl h0 h1 h).2.2.2.2.2 fun s s0 s1 => (valid_iff p).1 hv s s0 (s1.trans h1)
  · intro p
    rcases check_spec hB false p with ⟨-, h, -⟩ | ⟨-, a, b, h1, h2, h3, h4, h5, -⟩
    · rw [h]
    · exact (part_of h1 h2 h3 h5).2.2.2.1 h4
  · intro p h
    rcases check_spec hB false p with ⟨-, h1, h2⟩ | ⟨-, a, b, h1, h2, h3, h4, h5, h6⟩
    · rw [h1]; exact h2
    · obtain ⟨k1, -, -, -, -, k2⟩ := part_of h1 h2 h3 h5
      rw [et0, et1, elen, k1] at h
      rcases h6 with rfl | h6
      · simp at h
      · exact k2 h6
  · intro b p h
    rcases check_spec hB b p with ⟨-, h1, h2⟩ | ⟨h1, -⟩
    · rw [h1]; exact ⟨h2, h2, rfl, rfl⟩
    · rw [h] at h1; simp at h1
  · intro p
    rcases check_spec hB true p with ⟨-, h, -⟩ | ⟨-, a, b, h1, h2, h3, h4, h5, -⟩
    · rw [h]
    · exact (part_of h1 h2 h3 h5).2.2.2.2.1 h4
  · intro p
    exact (Cars.contract hB.world).rev_ini (low p)
  · intro p
    exact (Cars.contract hB.world).rev_fin (low p)
  · intro p hv K hK t t0 t1
    obtain ⟨K0, hK0, rfl⟩ := List.mem_map.1 hK
    have hK0 := List.mem_reverse.1 hK0
    have ha := (p.2.1.arc K0 hK0).1
    change 0 ≤ t at t0
    change t ≤ K0.t1 - K0.t0 at t1
    rw [reverse_eval ha t0 t1]
    exact hv K0 hK0 _ (by linarith) (by linarith)

theorem pointContract (hB : B.Ok) : PointContract (env B) (Valid B) := by
  have et0 : ∀ p : SP B, (env B).t0 p = 0 := fun p => by show (vec p.1).tr.1 = 0; rw [tr_vec]
  have et1 : ∀ p : SP B, (env B).t1 p = total ccOps p.1 := fun p => by show (vec p.1).tr.2 = _; rw [tr_vec]
  have point : ∀ p : SP B, total ccOps p.1 = 0 → Point (env B) p := by
    intro p h
    refine ⟨?_, by rw [et0, et1, h]⟩
    have e := (vec_ends (low p)).2
    change evalV ccOps (vec p.1) (total ccOps p.1) = _ at e
    rw [h] at e
    exact Subtype.ext (Except.ok.inj ((vec_ends (low p)).1.symm.trans e))
  have zero : ∀ p : SP B, Point (env B) p → total ccOps p.1 = 0 := by
    intro p h
    have := h.2
    rw [et0, et1] at this
    exact this.symm
  refine ⟨?_, ?_, ?_⟩
  · intro p h
    rcases check_spec hB true p with ⟨-, h1, h2⟩ | ⟨-, a, b, h1, h2, h3, h4, h5, h6⟩
    · rw [h1]; exact Or.inl h2
    · obtain ⟨k1, -, -, -, -, k2⟩ := part_of h1 h2 h3 h5
      rcases h6 with rfl | h6
      · exact Or.inr (point _ (by rw [k1, sub_self]))
      · exact Or.inl (k2 h6)
  · intro p t h
    rcases extract_spec p t with e | ⟨h0, h1, e⟩
    · rw [e]; exact h
    · rw [zero p h] at h1
      have ht : t = 0 := le_antisymm h1 h0
      exact point _ (by rw [(part_of le_rfl h0 (by rw [zero p h]; exact h1) e).1, ht, sub_self])
  · intro p h
    refine point _ ?_
    have hr : total ccOps (rev p).1 = total ccOps p.1 := by
      show total ccOps (p.1.reverse.map CC.reverse) = _
      unfold total
      rw [List.map_map, ← List.sum_reverse, ← List.map_reverse, List.reverse_reverse]
      congr 1
      refine List.map_congr_left fun K _ => ?_
      show K.t1 - K.t0 - 0 = K.t1 - K.t0
      rw [sub_zero]
    rw [show (env B).rev p = rev p from rfl, hr]
    exact zero p h

/-- The paths driven in the direction of the steering method. -/
def Along (B : Bench ι) (p : SP B) : Prop := ∀ K ∈ p.1, Sgn B.X K

theorem follows (hB : B.Ok) : OneWay.Follows (env B) (Along B) := by
  refine ⟨fun a b p h => steer_driven hB.world (steer_low h), fun f p b p' h => (by simp [env] at h), ?_⟩
  intro b p h
  rcases check_spec hB b p with ⟨-, e, -⟩ | ⟨-, x, y, h1, h2, h3, -, h5, -⟩
  · rw [e]; exact h
  · exact (part_of h1 h2 h3 h5).2.2.1 h

/-! ## The path vector -/

/-- The path vector returned: the path of each edge is itself a vector (astar.hh:98-107). -/
noncomputable def pathVector (l : List (SP B)) : Whole ι := (l.map fun p => vec p.1).foldl (appendPath (vecOps ccOps)) (create none)

/-- Specification: what a user wants of a path of a car on `[0, T]`, made of the arcs `ks`: from `a` to `b`; each arc is straight or of the minimal radius, and starts where the previous one ends;
at every parameter the configuration is one of these arcs, and no pair of objects penetrates by more than it can move in half a step. -/
structure Safe (B : Bench ι) (f : ℝ → Except PathV.Err (Cfg (ι → ℝ) Unit)) (T : ℝ) (ks : Arcs ι) (a b : Conf ι) : Prop where
  len : T = (ks.map fun K => K.t1 - K.t0).sum
  nonneg : 0 ≤ T
  ini : f 0 = .ok a.1
  fin : f T = .ok b.1
  arcs : Chain B.X ks
  free : ∀ t, 0 ≤ t → t ≤ T → ∃ K ∈ ks, ∃ u, K.t0 ≤ u ∧ u ≤ K.t1 ∧ f t = .ok (K.eval u) ∧ B.Free (K.eval u)

/-- The same world without obstacles, to use the results on the path vector. -/
def bare (X : World ι) : World ι := { X with pairs := [] }

def up (p : SP B) : Cars.SP (bare B.X) := ⟨p.1, p.2.1.ne, p.2.1.arc, p.2.1.link⟩

theorem connects_up {V : SP B → Prop} (l : List (SP B)) {a b : Conf ι} (h : Connects (env B) V a l b) : Connects (Cars.env (bare B.X)) (Cars.Valid (bare B.X)) a (l.map up) b := by
  induction l generalizing a with
  | nil => exact h
  | cons p l ih =>
    obtain ⟨-, h2, h3⟩ := h
    exact ⟨fun K _ t _ _ c hc => absurd hc (by simp [bare]), h2, ih h3⟩

/-- A path reduced to a point that starts at a free configuration is free. -/
theorem point_free {p : SP B} (h : Point (env B) p) (hf : B.Free (ini (low p)).1) : Valid B p := by
  have e : total ccOps p.1 = 0 := by
    have := h.2
    change (vec p.1).tr.1 = (vec p.1).tr.2 at this
    rw [tr_vec] at this
    exact this.symm
  rw [valid_iff]
  intro t t0 t1 q hq
  have : t = 0 := le_antisymm (by rw [← e]; exact t1) t0
  subst this
  rw [← Except.ok.inj ((vec_ends (low p)).1.symm.trans hq)]
  exact hf

theorem end_free {p : SP B} (h : Valid B p) : B.Free (fin (low p)).1 := (valid_iff p).1 h _ (tnn p) le_rfl _ (vec_ends (low p)).2

theorem connects_valid (l : List (SP B)) {a b : Conf ι} {V : SP B → Prop} (hV : ∀ p, V p → ValidOrPoint (env B) (Valid B) p) (ha : B.Free a.1) (h : Connects (env B) V a l b) :
    ∀ p ∈ l, Valid B p := by
  induction l generalizing a with
  | nil => simp
  | cons p l ih =>
    obtain ⟨h1, h2, h3⟩ := h
    have hi : ini (low p) = a := h2
    have hv : Valid B p := by
      rcases hV p h1 with h1 | h1
      · exact h1
      · exact point_free h1 (by rw [hi]; exact ha)
    intro x hx
    rcases List.mem_cons.1 hx with rfl | hx
    · exact hv
    · exact ih (end_free hv) h3 x hx

theorem safe_of_connects (l : List (SP B)) {a b : Conf ι} {V : SP B → Prop} (hV : ∀ p, V p → ValidOrPoint (env B) (Valid B) p) (hne : l ≠ []) (ha : B.Free a.1)
    (h : Connects (env B) V a l b) : Safe B (evalV (vecOps ccOps) (pathVector l)) (pathVector l).tr.2 (l.flatMap fun p => p.1) a b := by
  have hv := connects_valid l hV ha h
  have e1 : Cars.pathVector (l.map up) = pathVector l := by unfold Cars.pathVector pathVector; rw [List.map_map]; rfl
  have e2 : ((l.map up).flatMap fun p => p.1) = l.flatMap fun p => p.1 := by rw [List.flatMap_map]; rfl
  have s := Cars.safe_of_connects (l.map up) a b (fun e => hne (List.map_eq_nil_iff.1 e)) (connects_up l h)
  rw [e1, e2] at s
  refine ⟨s.len, s.nonneg, s.ini, s.fin, ⟨s.arcs.ne, s.arcs.arc, s.arcs.link⟩, fun t t0 t1 => ?_⟩
  obtain ⟨K, hK, u, u0, u1, e, -⟩ := s.free t t0 t1
  obtain ⟨p, hp, hKp⟩ := List.mem_flatMap.1 hK
  exact ⟨K, hK, u, u0, u1, e, hv p hp K hKp u u0 u1⟩

theorem steer_self (hB : B.Ok) (q : Conf ι) : (env B).steer q q = none := by
  cases h : (env B).steer q q with
  | none => rfl
  | some p =>
    have := steer_low h
    rw [Cars.steer_self hB.world] at this
    simp at this

theorem safe_of_solves (hB : B.Ok) {q0 : Conf ι} {gs : List (Conf ι)} {l : List (SP B)} {V : SP B → Prop} (hV : ∀ p, V p → ValidOrPoint (env B) (Valid B) p) (ha : B.Free q0.1)
    (h : Solves (env B) V q0 gs l) : ∃ g ∈ gs, Safe B (evalV (vecOps ccOps) (pathVector l)) (pathVector l).tr.2 (l.flatMap fun p => p.1) q0 g := by
  rcases h with ⟨g, hg, hne, hc⟩ | ⟨-, p, hp, -⟩
  · exact ⟨g, hg, safe_of_connects l hV hne ha hc⟩
  · rw [steer_self hB] at hp; simp at hp

/-! ## C162 -/

/-- C162, BiRRT: for a car steered by Dubins or Snibud, with discretized validation, from a free configuration, whatever the configurations that are shot, the limits and the interruptions: the path
that is returned is a sequence of arcs, straight or of the minimal radius, each one starting where the previous one ends, from the initial configuration to a goal; nowhere along it do two objects
penetrate by more than they can move in half a step; the car drives forward only along it for Dubins, backward only for Snibud. -/
theorem C162_birrt_partial (hB : B.Ok) (heur : Roadmap (Conf ι) (SP B) → Nat → ℝ) (q0 : Conf ι) (gs : List (Conf ι)) (shoot : Nat → Conf ι) (st : Settings ℝ) (late intr : Nat → Bool)
    (fuel : Nat) (x : BState) (l : List (SP B)) (h0 : B.Free q0.1) (hl : solve (birrt (env B) heur q0 gs shoot) st late intr fuel (x, Roadmap.empty) = .path l) :
    (∃ g ∈ gs, Safe B (evalV (vecOps ccOps) (pathVector l)) (pathVector l).tr.2 (l.flatMap fun p => p.1) q0 g) ∧
      ∀ K ∈ l.flatMap fun p => p.1, if B.X.back then K.curveLength ≤ 0 else 0 ≤ K.curveLength := by
  obtain ⟨h1, h2⟩ := OneWay.C158_birrt_partial (follows hB) (contract hB) (pointContract hB) (fun _ _ => rfl) heur q0 gs shoot (s := (x, Roadmap.empty))
    ⟨Inv.empty, by simp [Roadmap.empty]⟩ (by simp [OneWay.Edges, Roadmap.empty]) st late intr fuel l hl
  refine ⟨safe_of_solves hB (fun p h => h.1) h0 h1, fun K hK => ?_⟩
  obtain ⟨p, hp, hKp⟩ := List.mem_flatMap.1 hK
  exact h2 p hp K hKp

/-- C162, diffusing planner (the direction is not kept: `C158_reverse_counterexample`). -/
theorem C162_diffusing_partial (hB : B.Ok) (D : DiffParams ℝ) (heur : Roadmap (Conf ι) (SP B) → Nat → ℝ) (q0 : Conf ι) (gs : List (Conf ι)) (shoot : Nat → Conf ι)
    (st : Settings ℝ) (late intr : Nat → Bool) (fuel n : Nat) (l : List (SP B)) (h0 : B.Free q0.1)
    (hl : solve (diffusing (env B) D heur q0 gs shoot) st late intr fuel (n, Roadmap.empty) = .path l) :
    ∃ g ∈ gs, Safe B (evalV (vecOps ccOps) (pathVector l)) (pathVector l).tr.2 (l.flatMap fun p => p.1) q0 g :=
  safe_of_solves hB (fun p h => Or.inl h) h0 (C67_diffusing (contract hB) D heur q0 gs shoot ⟨Inv.empty, by simp [Roadmap.empty]⟩ st late intr fuel n l hl)

/-- C162, Visibility-PRM. -/
theorem C162_visibility_partial (hB : B.Ok) (heur : Roadmap (Conf ι) (SP B) → Nat → ℝ) (q0 : Conf ι) (gs : List (Conf ι)) (sample : Nat → Conf ι)
    (st : Settings ℝ) (late intr : Nat → Bool) (fuel : Nat) (x : Nat × (Nat → Bool)) (l : List (SP B)) (h0 : B.Free q0.1)
    (hl : solve (visibility (env B) heur q0 gs sample) st late intr fuel (x, Roadmap.empty) = .path l) :
    ∃ g ∈ gs, Safe B (evalV (vecOps ccOps) (pathVector l)) (pathVector l).tr.2 (l.flatMap fun p => p.1) q0 g :=
  safe_of_solves hB (fun p h => Or.inl h) h0 (C67_visibility (contract hB) heur q0 gs sample (s := (x, Roadmap.empty)) ⟨Inv.empty, by simp [Roadmap.empty]⟩ st late intr fuel l hl)

/-- C162, k-PRM*. -/
theorem C162_kprm_partial {H : Type} (hB : B.Ok) (C : KEnv (Conf ι) (SP B) ℝ H) (hC : C.toPEnv = env B) (hk : 0 < C.k) (hN : 0 < C.nodes)
    (heur : Roadmap (Conf ι) (SP B) → Nat → ℝ) (q0 : Conf ι) (gs : List (Conf ι)) (st : Settings ℝ) (late intr : Nat → Bool) (fuel : Nat) (x : KState)
    (l : List (SP B)) (h0 : B.Free q0.1) (hl : solve (kprm C heur q0 gs) st late intr fuel (x, Roadmap.empty) = .path l) :
    ∃ g ∈ gs, Safe B (evalV (vecOps ccOps) (pathVector l)) (pathVector l).tr.2 (l.flatMap fun p => p.1) q0 g := by
  refine safe_of_solves (V := Valid B) hB (fun p h => Or.inl h) h0 ?_
  rw [← hC]
  exact C67_kprm (by rw [hC]; exact contract hB) hk hN heur q0 gs (s := (x, Roadmap.empty)) ⟨Inv.empty, by simp [Roadmap.empty]⟩ st late intr fuel l hl

/-! ## A car that drives below a wall -/

namespace Demo
open Verif.Car.Demo Cars.Demo

noncomputable def bench : Bench (Fin 0) := ⟨world, 1 / 10, fun _ => 0⟩

theorem bench_ok : bench.Ok := ⟨world_ok, by norm_num [bench], fun j => j.elim0, fun _ _ j => j.elim0⟩

/-- A path that turns. -/
noncomputable def turn : SP bench := ⟨[arc1], arc1_chain, by
  intro K hK
  rw [List.mem_singleton.1 hK]
  refine ⟨?_, fun j => j.elim0⟩
  simp [arc1, CC.create]⟩

theorem below (t : ℝ) : (arc1.eval t).y ≤ 2 := by
  have := Real.neg_one_le_cos (arc1.curvature * (arc1.ratio t * arc1.curveLength))
  have e : (arc1.eval t).y = 1 - Real.cos (arc1.curvature * (arc1.ratio t * arc1.curveLength)) := by
    simp [CC.eval, arc1, CC.create]
  rw [e]; linarith

/-- It is accepted from both ends: the hypotheses of `C162_accepts` and of `safe_of_connects` hold. -/
example (rv : Bool) : ((env bench).validate rv turn).1 = true ∧ bench.Free (ini (low turn)).1 ∧ Connects (env bench) (Valid bench) (ini (low turn)) [turn] (fin (low turn)) := by
  have acc : ∀ rv, ((env bench).validate rv turn).1 = true := by
    intro rv
    refine C162_accepts bench_ok rv turn ?_
    intro K hK t t0 t1 c hc o ho
    rw [List.mem_singleton.1 hK]
    obtain rfl : c = wall := by simpa [bench, world] using hc
    obtain rfl : o = ⟨fun q => 4 - q.y, fun q => if 0 < 4 - q.y then some (4 - q.y) else none⟩ := by simpa [wall] using ho
    have := below t
    simp only
    rw [if_pos (by linarith)]
    simp
  have hv : Valid bench turn := ((contract bench_ok).valid_true false turn (acc false)).1
  refine ⟨acc rv, ?_, hv, rfl, rfl⟩
  exact (valid_iff turn).1 hv 0 le_rfl (tnn turn) _ (vec_ends (low turn)).1

/-- The steering method answers, from the start to the end of this path. -/
example : ∃ p, (env bench).steer (ini (low turn)) (fin (low turn)) = some p := by
  refine C162_steer bench_ok fun h => ?_
  have e : arc1.fin.s = Real.sin 1 := by simp [arc1, CC.create, CC.eval, CC.ratio]
  have h0 : arc1.init.s = 0 := rfl
  have := congrArg (fun p : Pose => p.2.im) h
  change arc1.init.s = arc1.fin.s at this
  rw [h0, e] at this
  have := Real.sin_pos_of_pos_of_le_one one_pos le_rfl
  linarith

end Demo

end Verif.Planner.CarsSampled
