import Verif.ContinuousValidation.Dichotomy
import Mathlib.Order.WithBot
import Mathlib.Tactic.FieldSimp
set_option linter.unusedSectionVars false

/-!
# Pairs of bodies in continuous validation (C34, C35)

A pair of bodies holds a list of pairs of objects.  For each of them `collide t` is the answer of the collision library at parameter `t`
of the path (`none`: collision, `some d`: distance lower bound) and `dist` the actual signed distance along the path, which only appears in
the specification.  `vel` stands for `computeMaximalVelocity (path->velocityBound (tm, tM))` (bounds of the velocity are C55, C61, C62).
Infinite parameters and intervals are kept: a parameter of an interval is in `EB K = WithBot (WithTop K)`, a length is an `Option K` with
`none` for infinity.
-/
namespace Verif.CV
open Verif.PathV (Ops Err)
open Verif.Intervals
variable {K C P : Type} [Field K] [LinearOrder K] [IsStrictOrderedRing K]

abbrev EB (K : Type) := WithBot (WithTop K)

/-- A finite parameter. -/
def fin (x : K) : EB K := ((x : WithTop K) : WithBot (WithTop K))

@[simp] theorem fin_le {x y : K} : fin x ≤ fin y ↔ x ≤ y := by simp [fin]
@[simp] theorem fin_lt {x y : K} : fin x < fin y ↔ x < y := by simp [fin]

structure ObjPair (K : Type) where
  collide : K → Option K
  dist : K → K

/-- Constant members of a pair of bodies once the path is set: include/hpp/core/continuous-validation/interval-validation.hh:92-105. -/
structure PairCfg (K : Type) where
  objs : List (ObjPair K)
  vel : Option K → Option K → K
  tol : K
  lo : K
  hi : K
  /-- path of type `StraightPath`: body-pair-collision.cc:103-106 -/
  straight : Bool

/-- Members `valid_` and `validInterval_` (a `boost::icl::interval_set`, whose documented behaviour is that of the verified `Intervals`). -/
structure PairSt (K : Type) where
  valid : Bool
  ivs : List (EB K × EB K)

/-- `IntervalValidation::path`: interval-validation.hh:84-90. -/
def setPath : PairSt K := ⟨false, []⟩

/-- `computeDistanceLowerBound`: src/continuous-validation/body-pair-collision.cc:177-198. Outer `none`: collision. Inner `none`:
infinity. -/
def lowerBoundLoop (t : K) : List (ObjPair K) → Option K → Option (Option K)
  | [], acc => some acc
  | o :: os, acc => match o.collide t with
    | none => none
    | some d => match acc with
      | none => lowerBoundLoop t os (some d)
      | some m => if d < m then lowerBoundLoop t os (some d) else lowerBoundLoop t os (some m)

def computeDistanceLowerBound (c : PairCfg K) (t : K) : Option (Option K) := lowerBoundLoop t c.objs none

/-- `setupPath`: body-pair-collision.cc:102-120, `maximalVelocity_` (`none`: infinity). -/
def maximalVelocity (c : PairCfg K) : Option K := if c.hi - c.lo = 0 then none else some (c.vel (some c.lo) (some c.hi))

/-- `setupPath`, `refine_`. -/
def refine (c : PairCfg K) : Bool := !c.straight && !decide (c.hi - c.lo = 0)

/-- `distanceLowerBound / v` for a positive distance: infinity when `v` is zero. -/
def divI (d v : K) : Option K := if v = 0 then none else some (d / v)

/-- One step of the refinement: body-pair-collision.cc:158-162. -/
def refineStep (c : PairCfg K) (t d : K) (left right : Bool) (T : Option K) : Option K × K :=
  let v := c.vel (if left then some t else T.map (fun x => t - x)) (if right then some t else T.map (fun x => t + x))
  (divI d v, v)

/-- `tm < timeRange.first`: body-pair-collision.cc:132-134. -/
def leftValid (c : PairCfg K) (t : K) (T : Option K) : Bool := match T with
  | none => true
  | some x => decide (t - x < c.lo)
def rightValid (c : PairCfg K) (t : K) (T : Option K) : Bool := match T with
  | none => true
  | some x => decide (c.hi < t + x)

/-- `collisionFreeInterval`: body-pair-collision.cc:119-173 (`Nrefine = 2`), for a finite `maximalVelocity_ = v0`. Returns the half length
and the velocity. -/
def collisionFreeInterval (c : PairCfg K) (v0 t d : K) : Option K × K :=
  let T0 := divI d v0
  if !refine c then (T0, v0)
  else
    let l := leftValid c t T0
    let r := rightValid c t T0
    if l && r then (T0, v0)
    else
      let s1 := refineStep c t d l r T0
      let s2 := refineStep c t d l r s1.1
      let s3 := refineStep c t d l r s2.1
      refineStep c t d l r s3.1

/-- `halfLengthDist + halfLengthTol`: body-pair-collision.cc:71-87. -/
def halfLength (c : PairCfg K) (t : K) : Option K → Option K
  | none => none
  | some d => match maximalVelocity c with
    | none => some 0
    | some v0 =>
      let r := collisionFreeInterval c v0 t d
      if r.2 = 0 then none else r.1.map (fun x => x + 2 * c.tol / r.2)

/-- The interval centered at `t`: body-pair-collision.cc:90-91. -/
def centered (t : K) : Option K → EB K × EB K
  | none => (⊥, ⊤)
  | some x => (fin (t - x), fin (t + x))

/-- `BodyPairCollision::validateConfiguration`: body-pair-collision.cc:45-100. -/
def validatePair (c : PairCfg K) (s : PairSt K) (t : K) (I : EB K × EB K) : Option ((EB K × EB K) × PairSt K) :=
  if s.valid then some ((fin c.lo, fin c.hi), s)
  else if containsInterval I.1 I.2 s.ivs then some (I, s)
  else match computeDistanceLowerBound c t with
    | none => none
    | some d =>
      let J := centered t (halfLength c t d)
      let ivs := unionInterval J.1 J.2 s.ivs
      some (J, ⟨containsInterval (fin c.lo) (fin c.hi) ivs, ivs⟩)

/-- `ContinuousValidation::validateIntervals`: include/hpp/core/continuous-validation.hh:267-298, for arbitrary interval validations
(`V` is the state of one of them).  Returns the interval, the validations after the call and the rank of the smallest
interval; `k` is the rank of the first element of the list, `m` the current smallest. -/
def validateIntervals {V : Type} (val : V → K → EB K × EB K → Option ((EB K × EB K) × V)) (t : K) :
    Nat → Nat → List V → EB K × EB K → Option ((EB K × EB K) × List V × Nat)
  | _, m, [], I => some (I, [], m)
  | k, m, v :: vs, I => match val v t I with
    | none => none
    | some (J, v') =>
      match validateIntervals val t (k + 1) (if J.2 < I.2 then k else m) vs (max I.1 J.1, min I.2 J.2) with
      | none => none
      | some (R, vs', m') => some (R, v' :: vs', m')

/-- `std::iter_swap (begin, smallest)`: src/continuous-validation.cc:143-146. -/
def swapFront {V : Type} (l : List V) (m : Nat) : List V :=
  match l[0]?, l[m]? with
  | some x, some y => (l.set 0 y).set m x
  | _, _ => l

/-- `ContinuousValidation::validateConfiguration`: continuous-validation.cc:128-148. -/
def validateConfiguration {V : Type} (val : V → K → EB K × EB K → Option ((EB K × EB K) × V)) (vs : List V) (t : K) :
    Option ((EB K × EB K) × List V) :=
  match validateIntervals val t 0 0 vs (⊥, ⊤) with
  | none => none
  | some (I, vs', m) => some (I, swapFront vs' m)

/-- A bound as a number; an infinite bound is replaced by the corresponding end of the time range (all later uses compare the bound with
parameters of the time range). -/
def toK (dflt : K) : EB K → K
  | ⊥ => dflt
  | (⊤ : WithTop K) => dflt
  | ((x : K) : WithTop K) => x

/-- The query made by the loops of `Progressive` and `Dichotomy` (progressive.cc:103-116, dichotomy.cc:86-98): evaluation of the path,
then validation of the configuration for all the pairs. -/
def cvQuery (evalOk : K → Bool) (lo hi : K) (vs : List (PairCfg K × PairSt K)) (t : K) :
    Option ((K × K) × List (PairCfg K × PairSt K)) :=
  if evalOk t then
    match validateConfiguration (fun v t I => (validatePair v.1 v.2 t I).map (fun r => (r.1, (v.1, r.2)))) vs t with
    | none => none
    | some (I, vs') => some ((toK lo I.1, toK hi I.2), vs')
  else none

/-! ## Specification -/

/-- `u` is in the interval of bounds `tm`, `tM` (`none`: infinite). -/
def InB (tm tM : Option K) (u : K) : Prop := (∀ x ∈ tm, x ≤ u) ∧ ∀ x ∈ tM, u ≤ x

/-- Inclusion of intervals. -/
def Incl (tm tM tm' tM' : Option K) : Prop := (∀ x' ∈ tm', ∃ x ∈ tm, x' ≤ x) ∧ ∀ x' ∈ tM', ∃ x ∈ tM, x ≤ x'

/-- Assumptions on a pair: lower bounds of the collision library are positive and below the distance; the distance varies no faster
than the velocity bound on any interval; the velocity bound is non negative and monotone. -/
structure CfgOK (c : PairCfg K) : Prop where
  le : c.lo ≤ c.hi
  tol : 0 ≤ c.tol
  lower : ∀ o ∈ c.objs, ∀ t d, o.collide t = some d → 0 < d ∧ d ≤ o.dist t
  lip : ∀ o ∈ c.objs, ∀ tm tM u v, c.lo ≤ u → u ≤ c.hi → c.lo ≤ v → v ≤ c.hi → InB tm tM u → InB tm tM v →
    |o.dist u - o.dist v| ≤ c.vel tm tM * |u - v|
  nonneg : ∀ tm tM, 0 ≤ c.vel tm tM
  mono : ∀ tm tM tm' tM', Incl tm tM tm' tM' → c.vel tm tM ≤ c.vel tm' tM'

/-- Penetration at most twice the tolerance for all pairs of objects. -/
def PairFree (c : PairCfg K) (u : K) : Prop := ∀ o ∈ c.objs, -(2 * c.tol) ≤ o.dist u

/-! ## Lemmas -/

theorem lowerBoundLoop_spec (t : K) (os : List (ObjPair K)) (acc r : Option K) (h : lowerBoundLoop t os acc = some r) :
    (∀ m ∈ acc, ∃ d ∈ r, d ≤ m) ∧ (∀ o ∈ os, ∃ x, o.collide t = some x ∧ ∃ d ∈ r, d ≤ x) ∧
    (∀ d ∈ r, d ∈ acc ∨ ∃ o ∈ os, o.collide t = some d) := by
  induction os generalizing acc with
  | nil =>
    simp [lowerBoundLoop] at h
    subst h
    exact ⟨fun m hm => ⟨m, hm, le_rfl⟩, by simp, fun d hd => Or.inl hd⟩
  | cons o os ih =>
    unfold lowerBoundLoop at h
    cases hc : o.collide t with
    | none => rw [hc] at h; simp at h
    | some x =>
      rw [hc] at h
      have fin : ∀ y, (∀ d ∈ r, d ∈ (some y : Option K) ∨ ∃ o' ∈ os, o'.collide t = some d) → y = x ∨ y ∈ acc →
          ∀ d ∈ r, d ∈ acc ∨ ∃ o' ∈ o :: os, o'.collide t = some d := by
        intro y hy hyx d hd
        rcases hy d hd with h1 | ⟨o', h1, h2⟩
        · simp at h1
          subst h1
          rcases hyx with rfl | hyx
          · exact Or.inr ⟨o, by simp, hc⟩
          · exact Or.inl hyx
        · exact Or.inr ⟨o', by simp [h1], h2⟩
      cases acc with
      | none =>
        simp only at h
        obtain ⟨h1, h2, h3⟩ := ih _ h
        refine ⟨by simp, ?_, fin x h3 (Or.inl rfl)⟩
        intro o' ho'
        rcases List.mem_cons.1 ho' with rfl | ho'
        · exact ⟨x, hc, h1 x rfl⟩
        · exact h2 o' ho'
      | some m =>
        simp only at h
        by_cases hlt : x < m
        · rw [if_pos hlt] at h
          obtain ⟨h1, h2, h3⟩ := ih _ h
          obtain ⟨d, hd, hdx⟩ := h1 x rfl
          refine ⟨?_, ?_, fin x h3 (Or.inl rfl)⟩
          · intro m' hm'
            simp at hm'
            subst hm'
            exact ⟨d, hd, le_trans hdx (le_of_lt hlt)⟩
          · intro o' ho'
            rcases List.mem_cons.1 ho' with rfl | ho'
            · exact ⟨x, hc, d, hd, hdx⟩
            · exact h2 o' ho'
        · rw [if_neg hlt] at h
          push Not at hlt
          obtain ⟨h1, h2, h3⟩ := ih _ h
          obtain ⟨d, hd, hdx⟩ := h1 m rfl
          refine ⟨h1, ?_, fin m h3 (Or.inr rfl)⟩
          intro o' ho'
          rcases List.mem_cons.1 ho' with rfl | ho'
          · exact ⟨x, hc, d, hd, le_trans hdx hlt⟩
          · exact h2 o' ho'

/-- The distance lower bound is below every distance, and positive; it is infinite only without objects. -/
theorem lowerBound_spec (c : PairCfg K) (hc : CfgOK c) (t : K) (r : Option K) (h : computeDistanceLowerBound c t = some r) :
    (r = none → c.objs = []) ∧ ∀ d ∈ r, 0 < d ∧ ∀ o ∈ c.objs, d ≤ o.dist t := by
  obtain ⟨-, h2, h3⟩ := lowerBoundLoop_spec t c.objs none r h
  constructor
  · rintro rfl
    by_contra hne
    obtain ⟨o, ho⟩ := List.exists_mem_of_ne_nil _ hne
    obtain ⟨x, -, d, hd, -⟩ := h2 o ho
    simp at hd
  · intro d hd
    constructor
    · rcases h3 d hd with h | ⟨o, ho, h⟩
      · simp at h
      · exact (hc.lower o ho t d h).1
    · intro o ho
      obtain ⟨x, hx, d', hd', hle⟩ := h2 o ho
      rw [Option.mem_def] at hd hd'
      rw [hd] at hd'
      obtain rfl := Option.some.inj hd'
      exact le_trans hle (hc.lower o ho t x hx).2

/-- Collision is reported iff one of the pairs of objects collides. -/
theorem lowerBound_none (c : PairCfg K) (t : K) : computeDistanceLowerBound c t = none ↔ ∃ o ∈ c.objs, o.collide t = none := by
  have key : ∀ (os : List (ObjPair K)) (acc : Option K), lowerBoundLoop t os acc = none ↔ ∃ o ∈ os, o.collide t = none := by
    intro os
    induction os with
    | nil => simp [lowerBoundLoop]
    | cons o os ih =>
      intro acc
      unfold lowerBoundLoop
      cases hc : o.collide t with
      | none => simp [hc]
      | some x =>
        cases acc with
        | none => simp [hc, ih]
        | some m =>
          simp only
          split <;> simp [hc, ih]
  exact key c.objs none

/-- Variation of the distance from `t` to `u` under the velocity bound on an interval containing both. -/
theorem dist_ge {c : PairCfg K} (hc : CfgOK c) {o : ObjPair K} (ho : o ∈ c.objs) {tm tM : Option K} {t u : K}
    (ht1 : c.lo ≤ t) (ht2 : t ≤ c.hi) (hu1 : c.lo ≤ u) (hu2 : u ≤ c.hi) (h1 : InB tm tM t) (h2 : InB tm tM u) :
    o.dist t - c.vel tm tM * |u - t| ≤ o.dist u := by
  have := hc.lip o ho tm tM t u ht1 ht2 hu1 hu2 h1 h2
  rw [abs_sub_comm t u] at this
  have := (abs_le.1 this).2
  linarith

theorem divI_le {d v v' : K} (hd : 0 < d) (hv : 0 ≤ v) (h : v ≤ v') : ∀ x ∈ divI d v, ∃ x' ∈ divI d v', x' ≤ x := by
  intro x hx
  unfold divI at hx
  by_cases h0 : v = 0
  · rw [if_pos h0] at hx; simp at hx
  · rw [if_neg h0] at hx
    simp at hx
    subst hx
    have hv0 : 0 < v := lt_of_le_of_ne hv (Ne.symm h0)
    have hv' : 0 < v' := lt_of_lt_of_le hv0 h
    refine ⟨d / v', by simp [divI, ne_of_gt hv'], ?_⟩
    exact div_le_div_of_nonneg_left (le_of_lt hd) hv0 h

/-- Order on lengths with `none` for infinity: `T ≤ T'`. -/
def LeI (T T' : Option K) : Prop := ∀ x' ∈ T', ∃ x ∈ T, x ≤ x'

theorem incl_step (t : K) (l r : Bool) {T T' : Option K} (h : LeI T T') :
    Incl (if l then some t else T.map (fun x => t - x)) (if r then some t else T.map (fun x => t + x))
      (if l then some t else T'.map (fun x => t - x)) (if r then some t else T'.map (fun x => t + x)) := by
  constructor
  · cases l with
    | true => intro x hx; exact ⟨x, hx, le_rfl⟩
    | false =>
      intro x hx
      simp at hx
      obtain ⟨y, hy, rfl⟩ := hx
      obtain ⟨z, hz, hzy⟩ := h y hy
      exact ⟨t - z, by simp; exact hz, by linarith⟩
  · cases r with
    | true => intro x hx; exact ⟨x, hx, le_rfl⟩
    | false =>
      intro x hx
      simp at hx
      obtain ⟨y, hy, rfl⟩ := hx
      obtain ⟨z, hz, hzy⟩ := h y hy
      exact ⟨t + z, by simp; exact hz, by linarith⟩

theorem divI_nonneg {d v x : K} (hd : 0 < d) (hv : 0 ≤ v) (h : x ∈ divI d v) : 0 ≤ x ∧ v * x = d := by
  unfold divI at h
  by_cases h0 : v = 0
  · rw [if_pos h0] at h; simp at h
  · rw [if_neg h0] at h
    simp at h
    subst h
    exact ⟨div_nonneg (le_of_lt hd) hv, mul_div_cancel₀ _ h0⟩

/-- What `collisionFreeInterval` guarantees: at distance at most `x` of `t`, for any `x` with `x ≤ T` in case of refinement, the distance
decreased by at most `V x`. -/
theorem collisionFree_spec (c : PairCfg K) (hc : CfgOK c) (t d : K) (ht1 : c.lo ≤ t) (ht2 : t ≤ c.hi) (hd : 0 < d)
    (hdist : ∀ o ∈ c.objs, d ≤ o.dist t) (T : Option K) (v : K)
    (h : collisionFreeInterval c (c.vel (some c.lo) (some c.hi)) t d = (T, v)) :
    T = divI d v ∧ 0 ≤ v ∧ (refine c = false → v = c.vel (some c.lo) (some c.hi)) ∧
    ∀ u, c.lo ≤ u → u ≤ c.hi → (∀ x ∈ T, |u - t| ≤ x) → ∀ o ∈ c.objs, 0 ≤ o.dist u := by
  set v0 := c.vel (some c.lo) (some c.hi) with hv0
  have hin0 : ∀ u, c.lo ≤ u → u ≤ c.hi → InB (some c.lo) (some c.hi) u := by
    intro u h1 h2
    exact ⟨fun x hx => by simp at hx; rw [← hx]; exact h1, fun x hx => by simp at hx; rw [← hx]; exact h2⟩
  have hv0n : 0 ≤ v0 := hc.nonneg _ _
  -- the bound with the velocity on the whole range
  have base : ∀ u, c.lo ≤ u → u ≤ c.hi → (∀ x ∈ divI d v0, |u - t| ≤ x) → ∀ o ∈ c.objs, 0 ≤ o.dist u := by
    intro u h1 h2 hx o ho
    have hge := dist_ge hc ho ht1 ht2 h1 h2 (hin0 t ht1 ht2) (hin0 u h1 h2)
    rw [← hv0] at hge
    have hdo := hdist o ho
    by_cases hz : v0 = 0
    · rw [hz] at hge; linarith
    · have hm := hx (d / v0) (by simp [divI, hz])
      have : v0 * |u - t| ≤ v0 * (d / v0) := mul_le_mul_of_nonneg_left hm hv0n
      rw [mul_div_cancel₀ _ hz] at this
      linarith
  unfold collisionFreeInterval at h
  cases href : refine c with
  | false =>
    simp [href] at h
    obtain ⟨rfl, rfl⟩ := h
    exact ⟨rfl, hv0n, fun _ => rfl, base⟩
  | true =>
    simp only [href, Bool.not_true, Bool.false_eq_true, if_false] at h
    by_cases hlr : (leftValid c t (divI d v0) && rightValid c t (divI d v0)) = true
    · rw [if_pos hlr] at h
      simp at h
      obtain ⟨rfl, rfl⟩ := h
      exact ⟨rfl, hv0n, fun _ => rfl, base⟩
    · rw [if_neg hlr] at h
      set T0 := divI d v0 with hT0
      set l := leftValid c t T0 with hl
      set r := rightValid c t T0 with hr
      -- the successive velocities and lengths
      set V : Option K → K := fun T => c.vel (if l then some t else T.map (fun x => t - x)) (if r then some t else T.map (fun x => t + x))
        with hV
      have hstep : ∀ T, refineStep c t d l r T = (divI d (V T), V T) := fun T => rfl
      simp only [hstep] at h
      have hVn : ∀ T, 0 ≤ V T := fun T => hc.nonneg _ _
      have hVm : ∀ T T', LeI T T' → V T ≤ V T' := fun T T' h => hc.mono _ _ _ _ (incl_step t l r h)
      -- not both sides are valid: T0 is finite
      obtain ⟨x0, hx0⟩ : ∃ x0, T0 = some x0 := by
        cases hcase : T0 with
        | none => simp [hl, hr, leftValid, rightValid, hcase] at hlr
        | some x0 => exact ⟨x0, rfl⟩
      have hx0v := divI_nonneg hd hv0n (x := x0) (by rw [← hT0, hx0]; rfl)
      have hV1 : V T0 ≤ v0 := by
        refine hc.mono _ _ _ _ ⟨?_, ?_⟩
        · intro x hx
          simp at hx
          subst hx
          cases hlv : l with
          | true => exact ⟨t, by simp, ht1⟩
          | false =>
            rw [hl, hx0] at hlv
            simp [leftValid] at hlv
            exact ⟨t - x0, by simp [hx0], hlv⟩
        · intro x hx
          simp at hx
          subst hx
          cases hrv : r with
          | true => exact ⟨t, by simp, ht2⟩
          | false =>
            rw [hr, hx0] at hrv
            simp [rightValid] at hrv
            exact ⟨t + x0, by simp [hx0], hrv⟩
      have l01 : LeI T0 (divI d (V T0)) := divI_le hd (hVn _) hV1
      have l21 : LeI (divI d (V (divI d (V T0)))) (divI d (V T0)) := divI_le hd (hVn _) (hVm _ _ l01)
      have l23 : LeI (divI d (V (divI d (V T0)))) (divI d (V (divI d (V (divI d (V T0)))))) := divI_le hd (hVn _) (hVm _ _ l21)
      set T3 := divI d (V (divI d (V (divI d (V T0))))) with hT3
      have l43 : LeI (divI d (V T3)) T3 := divI_le hd (hVn _) (hVm _ _ l23)
      simp only [Prod.mk.injEq] at h
      obtain ⟨rfl, rfl⟩ := h
      refine ⟨rfl, hVn _, by simp, ?_⟩
      intro u hu1 hu2 hx o ho
      have hdo := hdist o ho
      -- `u` and `t` in the interval of the last velocity bound, or valid side
      have key : InB (if l then some t else T3.map (fun x => t - x)) (if r then some t else T3.map (fun x => t + x)) u →
          0 ≤ o.dist u := by
        intro hin
        have ht : InB (if l then some t else T3.map (fun x => t - x)) (if r then some t else T3.map (fun x => t + x)) t := by
          have hnn : ∀ y ∈ T3, 0 ≤ y := fun y hy => (divI_nonneg hd (hVn _) hy).1
          constructor
          · cases l with
            | true => intro x hx; simp at hx; rw [hx]
            | false =>
              intro x hx
              simp at hx
              obtain ⟨y, hy, rfl⟩ := hx
              linarith [hnn y hy]
          · cases r with
            | true => intro x hx; simp at hx; rw [hx]
            | false =>
              intro x hx
              simp at hx
              obtain ⟨y, hy, rfl⟩ := hx
              linarith [hnn y hy]
        have hge := dist_ge hc ho ht1 ht2 hu1 hu2 ht hin
        change o.dist t - V T3 * |u - t| ≤ o.dist u at hge
        by_cases hz : V T3 = 0
        · rw [hz] at hge; linarith
        · have hm := hx (d / V T3) (by simp [divI, hz])
          have : V T3 * |u - t| ≤ V T3 * (d / V T3) := mul_le_mul_of_nonneg_left hm (hVn _)
          rw [mul_div_cancel₀ _ hz] at this
          linarith
      have hx3 : ∀ y ∈ T3, |u - t| ≤ y := by
        intro y hy
        obtain ⟨z, hz, hzy⟩ := l43 y hy
        exact le_trans (hx z hz) hzy
      rcases le_total t u with htu | htu
      · cases hrv : r with
        | true =>
          refine base u hu1 hu2 ?_ o ho
          intro y hy
          rw [hx0] at hy
          simp at hy
          rw [hr, hx0] at hrv
          simp [rightValid] at hrv
          rw [abs_of_nonneg (by linarith)]
          linarith
        | false =>
          refine key ⟨?_, ?_⟩
          · intro y hy
            cases hlv : l with
            | true => rw [hlv] at hy; simp at hy; rw [← hy]; exact htu
            | false =>
              rw [hlv] at hy
              simp at hy
              obtain ⟨z, hz, rfl⟩ := hy
              have := hx3 z hz
              have := abs_nonneg (u - t)
              linarith
          · intro y hy
            rw [hrv] at hy
            simp at hy
            obtain ⟨z, hz, rfl⟩ := hy
            have := (abs_le.1 (hx3 z hz)).2
            linarith
      · cases hlv : l with
        | true =>
          refine base u hu1 hu2 ?_ o ho
          intro y hy
          rw [hx0] at hy
          simp at hy
          rw [hl, hx0] at hlv
          simp [leftValid] at hlv
          rw [abs_of_nonpos (by linarith)]
          linarith
        | false =>
          refine key ⟨?_, ?_⟩
          · intro y hy
            rw [hlv] at hy
            simp at hy
            obtain ⟨z, hz, rfl⟩ := hy
            have := (abs_le.1 (hx3 z hz)).1
            linarith
          · intro y hy
            cases hrv : r with
            | true => rw [hrv] at hy; simp at hy; rw [← hy]; exact htu
            | false =>
              rw [hrv] at hy
              simp at hy
              obtain ⟨z, hz, rfl⟩ := hy
              have := hx3 z hz
              have := abs_nonneg (u - t)
              linarith

theorem halfLength_nonneg (c : PairCfg K) (hc : CfgOK c) (t : K) (ht1 : c.lo ≤ t) (ht2 : t ≤ c.hi) (r : Option K)
    (h : computeDistanceLowerBound c t = some r) : ∀ x ∈ halfLength c t r, 0 ≤ x := by
  obtain ⟨-, h2⟩ := lowerBound_spec c hc t r h
  intro x hx
  cases r with
  | none => simp [halfLength] at hx
  | some d =>
    obtain ⟨hd, hdist⟩ := h2 d rfl
    unfold halfLength maximalVelocity at hx
    by_cases hz : c.hi - c.lo = 0
    · simp [hz] at hx; rw [← hx]
    · simp only [hz, if_false] at hx
      obtain ⟨k1, k2, -, -⟩ := collisionFree_spec c hc t d ht1 ht2 hd hdist _ _ (Prod.mk.eta (p := collisionFreeInterval c (c.vel (some c.lo) (some c.hi)) t d)).symm
      by_cases hv : (collisionFreeInterval c (c.vel (some c.lo) (some c.hi)) t d).2 = 0
      · rw [if_pos hv] at hx; simp at hx
      · rw [if_neg hv, k1] at hx
        simp at hx
        obtain ⟨y, hy, rfl⟩ := hx
        have := (divI_nonneg hd k2 hy).1
        have : 0 ≤ 2 * c.tol / (collisionFreeInterval c (c.vel (some c.lo) (some c.hi)) t d).2 :=
          div_nonneg (by linarith [hc.tol]) k2
        linarith

/-- Every parameter of the range at distance at most `halfLength` of `t` is free (up to twice the tolerance) if the velocity is not
refined or the tolerance is zero. -/
theorem halfLength_free (c : PairCfg K) (hc : CfgOK c) (hr : refine c = false ∨ c.tol = 0) (t : K) (ht1 : c.lo ≤ t) (ht2 : t ≤ c.hi)
    (r : Option K) (h : computeDistanceLowerBound c t = some r) (u : K) (hu1 : c.lo ≤ u) (hu2 : u ≤ c.hi)
    (hx : ∀ x ∈ halfLength c t r, |u - t| ≤ x) : PairFree c u := by
  obtain ⟨h1, h2⟩ := lowerBound_spec c hc t r h
  cases r with
  | none => intro o ho; rw [h1 rfl] at ho; simp at ho
  | some d =>
    obtain ⟨hd, hdist⟩ := h2 d rfl
    intro o ho
    unfold halfLength maximalVelocity at hx
    by_cases hz : c.hi - c.lo = 0
    · have : u = t := by linarith
      rw [this]
      have := hdist o ho
      linarith [hc.tol]
    · simp only [hz, if_false] at hx
      obtain ⟨k1, k2, k3, k4⟩ := collisionFree_spec c hc t d ht1 ht2 hd hdist _ _ (Prod.mk.eta (p := collisionFreeInterval c (c.vel (some c.lo) (some c.hi)) t d)).symm
      set R := collisionFreeInterval c (c.vel (some c.lo) (some c.hi)) t d with hR
      by_cases hv : R.2 = 0
      · have : R.1 = none := by rw [k1]; simp [divI, hv]
        have := k4 u hu1 hu2 (by rw [this]; simp) o ho
        linarith [hc.tol]
      · rw [if_neg hv, k1] at hx
        have hmem : d / R.2 ∈ divI d R.2 := by simp [divI, hv]
        have hle := hx (d / R.2 + 2 * c.tol / R.2) (by
          rw [Option.mem_def, Option.map_eq_some_iff]
          exact ⟨_, hmem, rfl⟩)
        rcases hr with hr | hr
        · have hvel := k3 hr
          have hpos : 0 < R.2 := lt_of_le_of_ne k2 (Ne.symm hv)
          have hge := dist_ge hc ho ht1 ht2 hu1 hu2 (tm := some c.lo) (tM := some c.hi)
            ⟨by simp [ht1], by simp [ht2]⟩ ⟨by simp [hu1], by simp [hu2]⟩
          rw [← hvel] at hge
          have hm : R.2 * |u - t| ≤ R.2 * (d / R.2 + 2 * c.tol / R.2) := mul_le_mul_of_nonneg_left hle k2
          have he : R.2 * (d / R.2 + 2 * c.tol / R.2) = d + 2 * c.tol := by field_simp
          have := hdist o ho
          linarith
        · rw [hr] at hle
          simp at hle
          have := k4 u hu1 hu2 (by
            intro x hx'
            rw [k1] at hx'
            simp [divI, hv] at hx'
            rw [← hx']; exact hle) o ho
          rw [hr]
          simpa using this

theorem centered_mem (t u : K) (h : Option K) : (centered t h).1 ≤ fin u ∧ fin u ≤ (centered t h).2 ↔ ∀ x ∈ h, |u - t| ≤ x := by
  cases h with
  | none => simp [centered]
  | some x =>
    simp only [centered, fin_le, Option.mem_def, Option.some.injEq, forall_eq', abs_le]
    constructor
    · rintro ⟨h1, h2⟩; constructor <;> linarith
    · rintro ⟨h1, h2⟩; constructor <;> linarith

/-- Invariant of the memory of a pair. -/
structure PairInv (c : PairCfg K) (s : PairSt K) : Prop where
  sep : Separated s.ivs
  free : ∀ u, c.lo ≤ u → u ≤ c.hi → Covers s.ivs (fin u) → PairFree c u
  valid : s.valid = true → ∀ u, c.lo ≤ u → u ≤ c.hi → PairFree c u

theorem PairInv.init (c : PairCfg K) : PairInv c setPath :=
  ⟨⟨by simp [setPath], by simp [setPath]⟩, fun u _ _ h => by obtain ⟨i, hi, -⟩ := h; simp [setPath] at hi, by simp [setPath]⟩

/-- C34: an interval certified by a pair of bodies contains the tested parameter, and at every parameter of it (in the time range) no pair
of objects penetrates more than twice the tolerance; the memory of the pair stays sound.  Missing for a path with
refinement of the velocity (not straight): a positive tolerance, see `C34_refine_counterexample`.  Twice the tolerance cannot be
replaced by the tolerance, see `C34_tolerance_counterexample`. -/
theorem C34_pair_partial (c : PairCfg K) (hc : CfgOK c) (hr : refine c = false ∨ c.tol = 0) (s : PairSt K) (hs : PairInv c s)
    (t : K) (ht1 : c.lo ≤ t) (ht2 : t ≤ c.hi) (I : EB K × EB K) (hI : I.1 ≤ fin t ∧ fin t ≤ I.2) (J : EB K × EB K) (s' : PairSt K)
    (h : validatePair c s t I = some (J, s')) :
    PairInv c s' ∧ (J.1 ≤ fin t ∧ fin t ≤ J.2) ∧
    ∀ u, J.1 ≤ fin u → fin u ≤ J.2 → c.lo ≤ u → u ≤ c.hi → PairFree c u := by
  unfold validatePair at h
  cases hv : s.valid with
  | true =>
    simp [hv] at h
    obtain ⟨rfl, rfl⟩ := h
    exact ⟨hs, by simp [ht1, ht2], fun u _ _ h1 h2 => hs.valid hv u h1 h2⟩
  | false =>
    simp only [hv, Bool.false_eq_true, if_false] at h
    by_cases hcont : containsInterval I.1 I.2 s.ivs = true
    · rw [if_pos hcont] at h
      simp at h
      obtain ⟨rfl, rfl⟩ := h
      refine ⟨hs, hI, ?_⟩
      intro u h1 h2 h3 h4
      obtain ⟨i, hi, hi1, hi2⟩ := (containsInterval_iff _ _ _).1 hcont
      exact hs.free u h3 h4 ⟨i, hi, le_trans hi1 h1, le_trans h2 hi2⟩
    · rw [if_neg hcont] at h
      cases hd : computeDistanceLowerBound c t with
      | none => rw [hd] at h; simp at h
      | some r =>
        rw [hd] at h
        simp at h
        obtain ⟨rfl, rfl⟩ := h
        have hfree : ∀ u, (centered t (halfLength c t r)).1 ≤ fin u → fin u ≤ (centered t (halfLength c t r)).2 → c.lo ≤ u → u ≤ c.hi →
            PairFree c u :=
          fun u h1 h2 h3 h4 => halfLength_free c hc hr t ht1 ht2 r hd u h3 h4 ((centered_mem t u _).1 ⟨h1, h2⟩)
        have hmem : (centered t (halfLength c t r)).1 ≤ fin t ∧ fin t ≤ (centered t (halfLength c t r)).2 := by
          rw [centered_mem]
          intro x hx
          simpa using halfLength_nonneg c hc t ht1 ht2 r hd x hx
        obtain ⟨s1, -, s3⟩ := unionInterval_spec _ _ (le_trans hmem.1 hmem.2) s.ivs hs.sep
        have hcov : ∀ u, c.lo ≤ u → u ≤ c.hi →
            Covers (unionInterval (centered t (halfLength c t r)).1 (centered t (halfLength c t r)).2 s.ivs) (fin u) → PairFree c u := by
          intro u h1 h2 h3
          rcases (s3 (fin u)).1 h3 with h3 | h3
          · exact hfree u h3.1 h3.2 h1 h2
          · exact hs.free u h1 h2 h3
        refine ⟨⟨s1, hcov, ?_⟩, hmem, hfree⟩
        intro hval u h1 h2
        obtain ⟨i, hi, hi1, hi2⟩ := (containsInterval_iff _ _ _).1 hval
        exact hcov u h1 h2 ⟨i, hi, le_trans hi1 (fin_le.2 h1), le_trans (fin_le.2 h2) hi2⟩

/-! ## All the pairs -/

/-- Membership in an interval. -/
def Mem (I : EB K × EB K) (x : EB K) : Prop := I.1 ≤ x ∧ x ≤ I.2

theorem mem_inter (I J : EB K × EB K) (x : EB K) : Mem (max I.1 J.1, min I.2 J.2) x ↔ Mem I x ∧ Mem J x := by
  simp only [Mem, max_le_iff, le_min_iff]
  tauto

/-- Specification of the calls: each validation is asked about the intersection of the interval given at first with the answers so far;
`Js` are the answers, `vs'` the validations after the calls. -/
inductive Ran {V : Type} (val : V → K → EB K × EB K → Option ((EB K × EB K) × V)) (t : K) :
    List V → EB K × EB K → List (EB K × EB K) → List V → Prop
  | nil (I : EB K × EB K) : Ran val t [] I [] []
  | cons {v v' : V} {vs vs' : List V} {I J : EB K × EB K} {Js : List (EB K × EB K)} : val v t I = some (J, v') →
      Ran val t vs (max I.1 J.1, min I.2 J.2) Js vs' → Ran val t (v :: vs) I (J :: Js) (v' :: vs')

section
variable {V : Type} (val : V → K → EB K × EB K → Option ((EB K × EB K) × V)) (t : K)

/-- C35: on success every validation succeeded and the interval is the intersection of the answers. -/
theorem C35_interval (k m : Nat) (vs : List V) (I R : EB K × EB K) (vs' : List V) (m' : Nat)
    (h : validateIntervals val t k m vs I = some (R, vs', m')) :
    ∃ Js, Ran val t vs I Js vs' ∧ ∀ x, Mem R x ↔ Mem I x ∧ ∀ J ∈ Js, Mem J x := by
  induction vs generalizing k m I R vs' m' with
  | nil =>
    simp [validateIntervals] at h
    obtain ⟨rfl, rfl, rfl⟩ := h
    exact ⟨[], Ran.nil _, by simp⟩
  | cons v vs ih =>
    unfold validateIntervals at h
    cases hv : val v t I with
    | none => rw [hv] at h; simp at h
    | some y =>
      obtain ⟨J, v'⟩ := y
      rw [hv] at h
      simp only at h
      cases hr : validateIntervals val t (k + 1) (if J.2 < I.2 then k else m) vs (max I.1 J.1, min I.2 J.2) with
      | none => rw [hr] at h; simp at h
      | some z =>
        obtain ⟨R1, vs1, m1⟩ := z
        rw [hr] at h
        simp at h
        obtain ⟨rfl, rfl, rfl⟩ := h
        obtain ⟨Js, h1, h2⟩ := ih _ _ _ _ _ _ hr
        refine ⟨J :: Js, Ran.cons hv h1, ?_⟩
        intro x
        rw [h2, mem_inter]
        simp only [List.mem_cons, forall_eq_or_imp]
        tauto

/-- C35: the call fails iff some validation fails, all those before it having succeeded. -/
theorem C35_fails (k m : Nat) (vs : List V) (I : EB K × EB K) :
    validateIntervals val t k m vs I = none ↔
    ∃ pre v post Js pre', vs = pre ++ v :: post ∧ Ran val t pre I Js pre' ∧
      val v t (Js.foldl (fun I J => (max I.1 J.1, min I.2 J.2)) I) = none := by
  constructor
  · intro h
    induction vs generalizing k m I with
    | nil => simp [validateIntervals] at h
    | cons v vs ih =>
      unfold validateIntervals at h
      cases hv : val v t I with
      | none => exact ⟨[], v, vs, [], [], rfl, Ran.nil _, hv⟩
      | some y =>
        obtain ⟨J, v'⟩ := y
        rw [hv] at h
        simp only at h
        cases hr : validateIntervals val t (k + 1) (if J.2 < I.2 then k else m) vs (max I.1 J.1, min I.2 J.2) with
        | some z => rw [hr] at h; simp at h
        | none =>
          obtain ⟨pre, w, post, Js, pre', h1, h2, h4⟩ := ih _ _ _ hr
          exact ⟨v :: pre, w, post, J :: Js, v' :: pre', by rw [h1]; rfl, Ran.cons hv h2, h4⟩
  · rintro ⟨pre, v, post, Js, pre', rfl, h2, h4⟩
    induction h2 generalizing k m with
    | nil I =>
      simp only [List.foldl_nil, List.nil_append] at h4 ⊢
      unfold validateIntervals
      rw [h4]
    | cons hv hr ih =>
      simp only [List.cons_append]
      unfold validateIntervals
      rw [hv]
      simp only
      rw [ih _ _ h4]

/-- The rank returned is the one given or that of a validation whose answer has the smallest upper bound. -/
theorem C35_smallest (k m : Nat) (vs : List V) (I R : EB K × EB K) (vs' : List V) (m' : Nat)
    (h : validateIntervals val t k m vs I = some (R, vs', m')) :
    (m' = m ∧ R.2 = I.2) ∨ ∃ i J v v' A, m' = k + i ∧ vs[i]? = some v ∧ vs'[i]? = some v' ∧ val v t A = some (J, v') ∧ R.2 = J.2 := by
  induction vs generalizing k m I R vs' m' with
  | nil =>
    simp [validateIntervals] at h
    obtain ⟨rfl, rfl, rfl⟩ := h
    exact Or.inl ⟨rfl, rfl⟩
  | cons v vs ih =>
    unfold validateIntervals at h
    cases hv : val v t I with
    | none => rw [hv] at h; simp at h
    | some y =>
      obtain ⟨J, v'⟩ := y
      rw [hv] at h
      simp only at h
      cases hr : validateIntervals val t (k + 1) (if J.2 < I.2 then k else m) vs (max I.1 J.1, min I.2 J.2) with
      | none => rw [hr] at h; simp at h
      | some z =>
        obtain ⟨R1, vs1, m1⟩ := z
        rw [hr] at h
        simp at h
        obtain ⟨rfl, rfl, rfl⟩ := h
        rcases ih _ _ _ _ _ _ hr with ⟨h1, h2⟩ | ⟨i, J', w, w', A, h1, h2, h3, h4, h5⟩
        · by_cases hlt : J.2 < I.2
          · rw [if_pos hlt] at h1
            refine Or.inr ⟨0, J, v, v', I, by simpa using h1, rfl, rfl, hv, ?_⟩
            rw [h2]; exact min_eq_right (le_of_lt hlt)
          · rw [if_neg hlt] at h1
            refine Or.inl ⟨h1, ?_⟩
            rw [h2]; exact min_eq_left (not_lt.1 hlt)
        · exact Or.inr ⟨i + 1, J', w, w', A, by omega, by simpa using h2, by simpa using h3, h4, h5⟩

theorem swapFront_perm (l : List V) (m : Nat) : (swapFront l m).Perm l := by
  unfold swapFront
  cases h0 : l[0]? with
  | none => exact List.Perm.refl _
  | some x =>
    cases hm : l[m]? with
    | none => exact List.Perm.refl _
    | some y =>
      obtain ⟨k0, e0⟩ := List.getElem?_eq_some_iff.1 h0
      obtain ⟨km, em⟩ := List.getElem?_eq_some_iff.1 hm
      have := List.set_set_perm (as := l) (i := 0) (j := m) k0 km
      rw [e0, em] at this
      exact this

/-- Invariants of the validations, and a property of intervals stable under intersection, are preserved. -/
theorem validateIntervals_inv (Inv : V → Prop) (Q : EB K × EB K → Prop) (Free : V → K → Prop) (X : Type) (key : V → X)
    (hQ : ∀ I J, Q I → Q J → Q (max I.1 J.1, min I.2 J.2))
    (hval : ∀ v A J v', Inv v → Q A → val v t A = some (J, v') → Inv v' ∧ Q J ∧ key v' = key v ∧ ∀ u, Mem J (fin u) → Free v' u)
    (k m : Nat) (vs : List V) (I R : EB K × EB K) (vs' : List V) (m' : Nat) (hI : Q I) (hvs : ∀ v ∈ vs, Inv v)
    (h : validateIntervals val t k m vs I = some (R, vs', m')) :
    Q R ∧ vs'.map key = vs.map key ∧ (∀ x, Mem R x → Mem I x) ∧ ∀ v ∈ vs', Inv v ∧ ∀ u, Mem R (fin u) → Free v u := by
  induction vs generalizing k m I R vs' m' with
  | nil =>
    simp [validateIntervals] at h
    obtain ⟨rfl, rfl, rfl⟩ := h
    exact ⟨hI, rfl, fun _ h => h, by simp⟩
  | cons v vs ih =>
    unfold validateIntervals at h
    cases hv : val v t I with
    | none => rw [hv] at h; simp at h
    | some y =>
      obtain ⟨J, v'⟩ := y
      rw [hv] at h
      simp only at h
      cases hr : validateIntervals val t (k + 1) (if J.2 < I.2 then k else m) vs (max I.1 J.1, min I.2 J.2) with
      | none => rw [hr] at h; simp at h
      | some z =>
        obtain ⟨R1, vs1, m1⟩ := z
        rw [hr] at h
        simp at h
        obtain ⟨rfl, rfl, rfl⟩ := h
        obtain ⟨a1, a2, a3, a4⟩ := hval v I J v' (hvs v (by simp)) hI hv
        obtain ⟨b1, b2, b3, b4⟩ := ih _ _ _ _ _ _ (hQ _ _ hI a2) (fun w hw => hvs w (by simp [hw])) hr
        refine ⟨b1, by simp [a3, b2], fun x hx => ((mem_inter _ _ _).1 (b3 x hx)).1, ?_⟩
        intro w hw
        rcases List.mem_cons.1 hw with rfl | hw
        · exact ⟨a1, fun u hu => a4 u ((mem_inter _ _ _).1 (b3 _ hu)).2⟩
        · exact b4 w hw
end

/-! ## The loops with the pairs of bodies -/

/-- An interval extends at least `δ` around `t`, or up to the ends of the range. -/
def Wide (lo hi t δ : K) (J : EB K × EB K) : Prop :=
  (J.1 ≤ fin (t - δ) ∨ J.1 ≤ fin lo) ∧ (fin (t + δ) ≤ J.2 ∨ fin hi ≤ J.2)

theorem collisionFree_vel_le (c : PairCfg K) (V : K) (hV : ∀ tm tM, c.vel tm tM ≤ V) (t d : K) :
    (collisionFreeInterval c (c.vel (some c.lo) (some c.hi)) t d).2 ≤ V := by
  unfold collisionFreeInterval
  simp only
  split
  · exact hV _ _
  · split
    · exact hV _ _
    · exact hV _ _

theorem halfLength_wide (c : PairCfg K) (hc : CfgOK c) (V : K) (hV : ∀ tm tM, c.vel tm tM ≤ V) (t : K)
    (ht1 : c.lo ≤ t) (ht2 : t ≤ c.hi) (r : Option K) (h : computeDistanceLowerBound c t = some r) :
    c.lo = c.hi ∨ ∀ x ∈ halfLength c t r, 2 * c.tol / V ≤ x := by
  obtain ⟨-, h2⟩ := lowerBound_spec c hc t r h
  by_cases hz : c.hi - c.lo = 0
  · left; linarith
  · right
    intro x hx
    cases r with
    | none => simp [halfLength] at hx
    | some d =>
      obtain ⟨hd, hdist⟩ := h2 d rfl
      unfold halfLength maximalVelocity at hx
      simp only [hz, if_false] at hx
      obtain ⟨k1, k2, -, -⟩ := collisionFree_spec c hc t d ht1 ht2 hd hdist _ _ (Prod.mk.eta (p := collisionFreeInterval c (c.vel (some c.lo) (some c.hi)) t d)).symm
      by_cases hv : (collisionFreeInterval c (c.vel (some c.lo) (some c.hi)) t d).2 = 0
      · rw [if_pos hv] at hx; simp at hx
      · rw [if_neg hv, k1] at hx
        simp at hx
        obtain ⟨y, hy, rfl⟩ := hx
        have h0 := (divI_nonneg hd k2 hy).1
        have hpos : 0 < (collisionFreeInterval c (c.vel (some c.lo) (some c.hi)) t d).2 := lt_of_le_of_ne k2 (Ne.symm hv)
        have := div_le_div_of_nonneg_left (by linarith [hc.tol] : 0 ≤ 2 * c.tol) hpos (collisionFree_vel_le c V hV t d)
        linarith

/-- The certified interval extends at least `2 tol / V` around the parameter, or up to the ends of the range, or is the one asked for. -/
theorem validatePair_wide (c : PairCfg K) (hc : CfgOK c) (V δ : K) (hV : ∀ tm tM, c.vel tm tM ≤ V) (hδ : δ ≤ 2 * c.tol / V) (s : PairSt K)
    (t : K) (ht1 : c.lo ≤ t) (ht2 : t ≤ c.hi) (I : EB K × EB K) (hI : Wide c.lo c.hi t δ I) (J : EB K × EB K) (s' : PairSt K)
    (h : validatePair c s t I = some (J, s')) : Wide c.lo c.hi t δ J := by
  unfold validatePair at h
  cases hv : s.valid with
  | true =>
    simp [hv] at h
    obtain ⟨rfl, rfl⟩ := h
    exact ⟨Or.inr le_rfl, Or.inr le_rfl⟩
  | false =>
    simp only [hv, Bool.false_eq_true, if_false] at h
    by_cases hcont : containsInterval I.1 I.2 s.ivs = true
    · rw [if_pos hcont] at h
      simp at h
      obtain ⟨rfl, rfl⟩ := h
      exact hI
    · rw [if_neg hcont] at h
      cases hd : computeDistanceLowerBound c t with
      | none => rw [hd] at h; simp at h
      | some r =>
        rw [hd] at h
        simp at h
        obtain ⟨rfl, rfl⟩ := h
        have hmem : (centered t (halfLength c t r)).1 ≤ fin t ∧ fin t ≤ (centered t (halfLength c t r)).2 := by
          rw [centered_mem]
          intro x hx
          simpa using halfLength_nonneg c hc t ht1 ht2 r hd x hx
        rcases halfLength_wide c hc V hV t ht1 ht2 r hd with he | hw
        · refine ⟨Or.inr (le_trans hmem.1 (fin_le.2 (by linarith))), Or.inr (le_trans (fin_le.2 (by linarith)) hmem.2)⟩
        · cases hh : halfLength c t r with
          | none => simp [Wide, centered]
          | some x =>
            have := hw x (by rw [hh]; rfl)
            exact ⟨Or.inl (fin_le.2 (by linarith)), Or.inl (fin_le.2 (by linarith))⟩

theorem Wide.inter {lo hi t δ : K} (I J : EB K × EB K) (h1 : Wide lo hi t δ I) (h2 : Wide lo hi t δ J)
    (_hlo : lo ≤ t) (_hhi : t ≤ hi) : Wide lo hi t δ (max I.1 J.1, min I.2 J.2) := by
  constructor
  · rcases le_total (t - δ) lo with h | h
    · right
      have h1' : I.1 ≤ fin lo := h1.1.elim (fun k => le_trans k (fin_le.2 h)) id
      have h2' : J.1 ≤ fin lo := h2.1.elim (fun k => le_trans k (fin_le.2 h)) id
      exact max_le h1' h2'
    · left
      have h1' : I.1 ≤ fin (t - δ) := h1.1.elim id (fun k => le_trans k (fin_le.2 h))
      have h2' : J.1 ≤ fin (t - δ) := h2.1.elim id (fun k => le_trans k (fin_le.2 h))
      exact max_le h1' h2'
  · rcases le_total (t + δ) hi with h | h
    · left
      have h1' : fin (t + δ) ≤ I.2 := h1.2.elim id (fun k => le_trans (fin_le.2 h) k)
      have h2' : fin (t + δ) ≤ J.2 := h2.2.elim id (fun k => le_trans (fin_le.2 h) k)
      exact le_min h1' h2'
    · right
      have h1' : fin hi ≤ I.2 := h1.2.elim (fun k => le_trans (fin_le.2 h) k) id
      have h2' : fin hi ≤ J.2 := h2.2.elim (fun k => le_trans (fin_le.2 h) k) id
      exact le_min h1' h2'

theorem toK_lower {lo : K} {x : EB K} {u t : K} (hx : x ≤ fin t) (h : toK lo x ≤ u) : x ≤ fin u := by
  match x with
  | ⊥ => exact bot_le
  | ((⊤ : WithTop K) : WithBot (WithTop K)) => simp [fin] at hx
  | (((y : K) : WithTop K) : WithBot (WithTop K)) => exact fin_le.2 h

theorem toK_upper {hi : K} {x : EB K} {u t : K} (hx : fin t ≤ x) (h : u ≤ toK hi x) : fin u ≤ x := by
  match x with
  | ⊥ => simp [fin] at hx
  | ((⊤ : WithTop K) : WithBot (WithTop K)) => exact le_top
  | (((y : K) : WithTop K) : WithBot (WithTop K)) => exact fin_le.2 h

theorem toK_lower_le {lo : K} {x : EB K} {u : K} (hlo : lo ≤ u) (h : x ≤ fin u) : toK lo x ≤ u := by
  match x with
  | ⊥ => exact hlo
  | ((⊤ : WithTop K) : WithBot (WithTop K)) => simp [fin] at h
  | (((y : K) : WithTop K) : WithBot (WithTop K)) => exact fin_le.1 h

theorem toK_upper_le {hi : K} {x : EB K} {u : K} (hhi : u ≤ hi) (h : fin u ≤ x) : u ≤ toK hi x := by
  match x with
  | ⊥ => simp [fin] at h
  | ((⊤ : WithTop K) : WithBot (WithTop K)) => exact hhi
  | (((y : K) : WithTop K) : WithBot (WithTop K)) => exact fin_le.1 h

/-- A pair with its memory during the validation of a path defined on `[lo, hi]`. -/
structure VOK (lo hi : K) (v : PairCfg K × PairSt K) : Prop where
  cfg : CfgOK v.1
  lo : v.1.lo = lo
  hi : v.1.hi = hi
  ref : refine v.1 = false ∨ v.1.tol = 0
  inv : PairInv v.1 v.2

/-- Invariant of the list of pairs along the loop: a permutation of the initial pairs, with sound memories. -/
def ListInv (lo hi : K) (cfgs : List (PairCfg K)) (vs : List (PairCfg K × PairSt K)) : Prop :=
  (vs.map Prod.fst).Perm cfgs ∧ ∀ v ∈ vs, VOK lo hi v

theorem cvQuery_ok (evalOk : K → Bool) (lo hi : K) (cfgs : List (PairCfg K)) :
    QueryOK (cvQuery evalOk lo hi) lo hi (ListInv lo hi cfgs) (fun u => ∀ c ∈ cfgs, PairFree c u) := by
  constructor
  rintro vs t I vs' ⟨hperm, hvs⟩ ht1 ht2 h
  unfold cvQuery at h
  split at h
  · unfold validateConfiguration at h
    cases hr : validateIntervals (fun v t I => (validatePair v.1 v.2 t I).map (fun r => (r.1, (v.1, r.2)))) t 0 0 vs (⊥, ⊤) with
    | none => rw [hr] at h; simp at h
    | some z =>
      obtain ⟨R, vs1, m⟩ := z
      rw [hr] at h
      simp at h
      obtain ⟨rfl, rfl⟩ := h
      obtain ⟨h1, h2, -, h4⟩ := validateIntervals_inv _ t (VOK lo hi) (fun I => Mem I (fin t))
        (fun v u => lo ≤ u → u ≤ hi → PairFree v.1 u) _ Prod.fst (fun I J h1 h2 => (mem_inter I J _).2 ⟨h1, h2⟩) (by
          intro v A J v' hv hA hval
          simp only [Option.map_eq_some_iff] at hval
          obtain ⟨r, hr, he⟩ := hval
          simp only [Prod.mk.injEq] at he
          obtain ⟨rfl, rfl⟩ := he
          obtain ⟨g1, g2, g3⟩ := C34_pair_partial v.1 hv.cfg hv.ref v.2 hv.inv t (by rw [hv.lo]; exact ht1) (by rw [hv.hi]; exact ht2) A hA
            r.1 r.2 hr
          refine ⟨⟨hv.cfg, hv.lo, hv.hi, hv.ref, g1⟩, g2, rfl, ?_⟩
          intro u hu hu1 hu2
          exact g3 u hu.1 hu.2 (by rw [hv.lo]; exact hu1) (by rw [hv.hi]; exact hu2)) 0 0 vs (⊥, ⊤) R vs1 m (by simp [Mem]) hvs hr
      have hp := swapFront_perm vs1 m
      refine ⟨⟨((hp.map Prod.fst).trans (by rw [h2])).trans hperm, fun v hv => (h4 v (hp.mem_iff.1 hv)).1⟩, ?_, ?_, ?_⟩
      · exact toK_lower_le ht1 h1.1
      · exact toK_upper_le ht2 h1.2
      · intro u hu1 hu2 hu3 hu4 c hc
        obtain ⟨v, hv, rfl⟩ := List.mem_map.1 (hperm.mem_iff.2 hc)
        have : v.1 ∈ vs1.map Prod.fst := by rw [h2]; exact List.mem_map.2 ⟨v, hv, rfl⟩
        obtain ⟨w, hw, hwe⟩ := List.mem_map.1 this
        rw [← hwe]
        exact (h4 w hw).2 u ⟨toK_lower h1.1 hu1, toK_upper h1.2 hu2⟩ hu3 hu4
  · simp at h

/-- The pairs at the beginning of the validation of a path. -/
def startPairs (cfgs : List (PairCfg K)) : List (PairCfg K × PairSt K) := cfgs.map (fun c => (c, setPath))

/-- Assumptions on the pairs for a path defined on `[lo, hi]`. -/
def PairsOK (lo hi : K) (cfgs : List (PairCfg K)) : Prop :=
  ∀ c ∈ cfgs, CfgOK c ∧ c.lo = lo ∧ c.hi = hi ∧ (refine c = false ∨ c.tol = 0)

theorem startPairs_inv (lo hi : K) (cfgs : List (PairCfg K)) (h : PairsOK lo hi cfgs) : ListInv lo hi cfgs (startPairs cfgs) := by
  constructor
  · simp [startPairs, Function.comp_def]
  · intro v hv
    simp [startPairs] at hv
    obtain ⟨c, hc, rfl⟩ := hv
    obtain ⟨h1, h2, h3, h4⟩ := h c hc
    exact ⟨h1, h2, h3, h4, PairInv.init c⟩

/-- C34, whole path: if continuous validation (progressive) accepts a path, no pair of objects penetrates more than twice the tolerance
at any parameter.  Missing: positive tolerance for paths that are not straight. -/
theorem C34_progressive_partial (O : Ops K C P) (evalOk : K → Bool) (rev : Bool) (fuel : Nat) (p : P) (hp : O.lo p ≤ O.hi p)
    (cfgs : List (PairCfg K)) (hc : PairsOK (O.lo p) (O.hi p) cfgs) (vp : P) (rep : Option K) (n : Nat)
    (h : progressive O (cvQuery evalOk (O.lo p) (O.hi p)) (startPairs cfgs) rev fuel p = .ok (true, vp, rep, n)) :
    ∀ t, O.lo p ≤ t → t ≤ O.hi p → ∀ c ∈ cfgs, ∀ o ∈ c.objs, -(2 * c.tol) ≤ o.dist t :=
  (C31_valid O _ _ rev fuel p hp _ _ (cvQuery_ok evalOk _ _ cfgs) (startPairs_inv _ _ _ hc) vp rep n h).2.2

/-- C34, whole path, for the dichotomy. -/
theorem C34_dichotomy_partial (O : Ops K C P) (evalOk : K → Bool) (rev : Bool) (fuel : Nat) (p : P) (hp : O.lo p ≤ O.hi p)
    (cfgs : List (PairCfg K)) (hc : PairsOK (O.lo p) (O.hi p) cfgs) (vp : P) (rep : Option K) (n : Nat)
    (h : dichotomy O (cvQuery evalOk (O.lo p) (O.hi p)) (startPairs cfgs) rev fuel p = .ok (true, vp, rep, n)) :
    ∀ t, O.lo p ≤ t → t ≤ O.hi p → ∀ c ∈ cfgs, ∀ o ∈ c.objs, -(2 * c.tol) ≤ o.dist t :=
  (C32_valid O _ _ rev fuel p hp _ _ (cvQuery_ok evalOk _ _ cfgs) (startPairs_inv _ _ _ hc) vp rep n h).2.2

/-! ## Termination -/

/-- Constant part of the pairs used for termination. -/
def TermInv (lo hi V δ : K) (vs : List (PairCfg K × PairSt K)) : Prop :=
  ∀ v ∈ vs, CfgOK v.1 ∧ v.1.lo = lo ∧ v.1.hi = hi ∧ (∀ tm tM, v.1.vel tm tM ≤ V) ∧ δ ≤ 2 * v.1.tol / V

theorem cvQuery_wide (evalOk : K → Bool) (lo hi V δ : K) (hδ : 0 < δ) (vs : List (PairCfg K × PairSt K)) (hvs : TermInv lo hi V δ vs) (t : K)
    (ht1 : lo ≤ t) (ht2 : t ≤ hi) (I : K × K) (vs' : List (PairCfg K × PairSt K)) (h : cvQuery evalOk lo hi vs t = some (I, vs')) :
    TermInv lo hi V δ vs' ∧ (I.1 ≤ t - δ ∨ I.1 ≤ lo) ∧ (t + δ ≤ I.2 ∨ hi ≤ I.2) ∧ I.1 ≤ t ∧ t ≤ I.2 := by
  unfold cvQuery at h
  split at h
  · unfold validateConfiguration at h
    cases hr : validateIntervals (fun v t I => (validatePair v.1 v.2 t I).map (fun r => (r.1, (v.1, r.2)))) t 0 0 vs (⊥, ⊤) with
    | none => rw [hr] at h; simp at h
    | some z =>
      obtain ⟨R, vs1, m⟩ := z
      rw [hr] at h
      simp at h
      obtain ⟨rfl, rfl⟩ := h
      obtain ⟨h1, -, -, h4⟩ := validateIntervals_inv _ t
        (fun v : PairCfg K × PairSt K => CfgOK v.1 ∧ v.1.lo = lo ∧ v.1.hi = hi ∧ (∀ tm tM, v.1.vel tm tM ≤ V) ∧ δ ≤ 2 * v.1.tol / V)
        (fun I => Wide lo hi t δ I)
        (fun _ _ => True) _ Prod.fst (fun I J h1 h2 => Wide.inter I J h1 h2 ht1 ht2) (by
          intro v A J v' hv hA hval
          simp only [Option.map_eq_some_iff] at hval
          obtain ⟨r, hr, he⟩ := hval
          simp only [Prod.mk.injEq] at he
          obtain ⟨rfl, rfl⟩ := he
          obtain ⟨e1, e2, e3, e4, e5⟩ := hv
          refine ⟨⟨e1, e2, e3, e4, e5⟩, ?_, rfl, fun _ _ => trivial⟩
          have := validatePair_wide v.1 e1 V δ e4 e5 v.2 t (by rw [e2]; exact ht1) (by rw [e3]; exact ht2) A (by rw [e2, e3]; exact hA) r.1 r.2 hr
          rwa [e2, e3] at this) 0 0 vs (⊥, ⊤) R vs1 m (by simp [Wide]) hvs hr
      have hp := swapFront_perm vs1 m
      have hL : toK lo R.1 ≤ t - δ ∨ toK lo R.1 ≤ lo := by
        rcases h1.1 with k | k
        · rcases le_total lo (t - δ) with h5 | h5
          · exact Or.inl (toK_lower_le h5 k)
          · exact Or.inr (toK_lower_le le_rfl (le_trans k (fin_le.2 h5)))
        · exact Or.inr (toK_lower_le le_rfl k)
      have hU : t + δ ≤ toK hi R.2 ∨ hi ≤ toK hi R.2 := by
        rcases h1.2 with k | k
        · rcases le_total (t + δ) hi with h5 | h5
          · exact Or.inl (toK_upper_le h5 k)
          · exact Or.inr (toK_upper_le le_rfl (le_trans (fin_le.2 h5) k))
        · exact Or.inr (toK_upper_le le_rfl k)
      refine ⟨fun v hv => (h4 v (hp.mem_iff.1 hv)).1, hL, hU, ?_, ?_⟩
      · rcases hL with k | k <;> simp only <;> linarith
      · rcases hU with k | k <;> simp only <;> linarith
  · simp at h

/-- C64: with a positive tolerance and velocities bounded by `V`, progressive continuous validation terminates after at most `m + 2`
evaluations, where `m · 2 tol / V` is at least the length of the path (every pair has tolerance at least `tol`). -/
theorem C64_progressive (O : Ops K C P) (evalOk : K → Bool) (rev : Bool) (fuel m : Nat) (p : P) (hp : O.lo p ≤ O.hi p)
    (cfgs : List (PairCfg K)) (V tol : K) (hV : 0 < V) (htol : 0 < tol)
    (hc : ∀ c ∈ cfgs, CfgOK c ∧ c.lo = O.lo p ∧ c.hi = O.hi p ∧ (∀ tm tM, c.vel tm tM ≤ V) ∧ tol ≤ c.tol)
    (hm : O.len p ≤ m * (2 * tol / V)) (hfuel : m + 3 ≤ fuel) (hex : ∀ a b, ∃ q, O.extract p a b = .ok q) :
    ∃ v vp rep n, progressive O (cvQuery evalOk (O.lo p) (O.hi p)) (startPairs cfgs) rev fuel p = .ok (v, vp, rep, n) ∧ n ≤ m + 2 := by
  have hδ : 0 < 2 * tol / V := div_pos (by linarith) hV
  refine C31_terminates O _ _ rev fuel m p hp (2 * tol / V) hδ (TermInv (O.lo p) (O.hi p) V (2 * tol / V)) ?_ ?_ hm hfuel hex
  · intro v hv
    simp [startPairs] at hv
    obtain ⟨c, hcm, rfl⟩ := hv
    obtain ⟨h1, h2, h3, h4, h5⟩ := hc c hcm
    exact ⟨h1, h2, h3, h4, div_le_div_of_nonneg_right (by linarith) (le_of_lt hV)⟩
  · intro s t I s' hs h1 h2 h3
    obtain ⟨k1, k2, k3, -, -⟩ := cvQuery_wide evalOk _ _ V _ hδ s hs t h1 h2 I s' h3
    refine ⟨k1, ?_⟩
    split
    · exact k2
    · exact k3

/-- C64 for the dichotomy. -/
theorem C64_dichotomy (O : Ops K C P) (evalOk : K → Bool) (rev : Bool) (fuel : Nat) (p : P) (hp : O.lo p ≤ O.hi p)
    (cfgs : List (PairCfg K)) (V tol : K) (hV : 0 < V) (htol : 0 < tol)
    (hc : ∀ c ∈ cfgs, CfgOK c ∧ c.lo = O.lo p ∧ c.hi = O.hi p ∧ (∀ tm tM, c.vel tm tM ≤ V) ∧ tol ≤ c.tol)
    (hfuel : O.len p < fuel * (2 * tol / V)) (hex : ∀ a b, ∃ q, O.extract p a b = .ok q) :
    ∃ v vp rep n, dichotomy O (cvQuery evalOk (O.lo p) (O.hi p)) (startPairs cfgs) rev (fuel + 1) p = .ok (v, vp, rep, n) ∧
      ((n : K) - 1) * (2 * tol / V) ≤ O.len p := by
  have hδ : 0 < 2 * tol / V := div_pos (by linarith) hV
  refine C32_terminates O _ _ rev fuel p hp (2 * tol / V) hδ (TermInv (O.lo p) (O.hi p) V (2 * tol / V)) ?_ ?_ hfuel hex
  · intro v hv
    simp [startPairs] at hv
    obtain ⟨c, hcm, rfl⟩ := hv
    obtain ⟨h1, h2, h3, h4, h5⟩ := hc c hcm
    exact ⟨h1, h2, h3, h4, div_le_div_of_nonneg_right (by linarith) (le_of_lt hV)⟩
  · intro s t I s' hs h1 h2 h3
    exact cvQuery_wide evalOk _ _ V _ hδ s hs t h1 h2 I s' h3

/-! ## Examples and counterexamples -/

/-- One pair of objects at distance `3 - t` along a straight path, velocity bound 1. -/
def exCfg (tol hi : ℚ) : PairCfg ℚ :=
  ⟨[⟨fun t => if 0 < 3 - t then some (3 - t) else none, fun t => 3 - t⟩], fun _ _ => 1, tol, 0, hi, true⟩

theorem exCfg_ok (tol hi : ℚ) (h : 0 ≤ tol) (hh : 0 ≤ hi) : CfgOK (exCfg tol hi) where
  le := hh
  tol := h
  lower := by
    intro o ho t d hd
    simp [exCfg] at ho
    subst ho
    simp only at hd
    split at hd
    · rename_i h3
      simp at hd
      subst hd
      exact ⟨by linarith, le_rfl⟩
    · simp at hd
  lip := by
    intro o ho tm tM u v _ _ _ _ _ _
    simp [exCfg] at ho
    subst ho
    simp only [exCfg, one_mul]
    rw [show (3 - u - (3 - v)) = -(u - v) by ring, abs_neg]
  nonneg := fun _ _ => by simp [exCfg]
  mono := fun _ _ _ _ _ => le_rfl

example : PairsOK 0 2 [exCfg 0 2, exCfg (1 / 10) 2] := by
  intro c hc
  simp at hc
  rcases hc with rfl | rfl
  · exact ⟨exCfg_ok _ _ (by norm_num) (by norm_num), rfl, rfl, Or.inr rfl⟩
  · exact ⟨exCfg_ok _ _ (by norm_num) (by norm_num), rfl, rfl, Or.inl rfl⟩

example : (progressive Validation.exOps (cvQuery (fun _ => true) 0 2) (startPairs [exCfg 0 2, exCfg (1 / 10) 2]) false 20 (0, 2)).toOption.map
    (·.1) = some true := by decide +kernel
example : (dichotomy Validation.exOps (cvQuery (fun _ => true) 0 4) (startPairs [exCfg (1 / 10) 4]) false 20 (0, 4)).toOption.map
    (fun r => (r.1, r.2.2.1)) = some (false, some (18 / 5)) := by decide +kernel
example : (validateConfiguration (fun (v : PairCfg ℚ × PairSt ℚ) t I => (validatePair v.1 v.2 t I).map (fun r => (r.1, (v.1, r.2))))
    (startPairs [exCfg 0 2, exCfg (1 / 10) 2]) 1).map (·.1) = some (fin (-1), fin 3) := by decide +kernel

/-- Distance `1/10 - t`, velocity bound 1, straight path on `[0, 2]`, tolerance 1. -/
def exTol : PairCfg ℚ :=
  ⟨[⟨fun t => if 0 < 1 / 10 - t then some (1 / 10 - t) else none, fun t => 1 / 10 - t⟩], fun _ _ => 1, 1, 0, 2, true⟩

theorem exTol_ok : CfgOK exTol where
  le := by decide +kernel
  tol := by decide +kernel
  lower := by
    intro o ho t d hd
    simp only [exTol, List.mem_singleton] at ho
    subst ho
    simp only at hd
    split at hd
    · rename_i h3
      obtain rfl := Option.some.inj hd
      exact ⟨h3, le_rfl⟩
    · simp at hd
  lip := by
    intro o ho tm tM u v _ _ _ _ _ _
    simp only [exTol, List.mem_singleton] at ho
    subst ho
    simp only [exTol, one_mul]
    rw [show (1 / 10 - u - (1 / 10 - v)) = -(u - v) by ring, abs_neg]
  nonneg := fun _ _ => by simp [exTol]
  mono := fun _ _ _ _ _ => le_rfl

/-- The accepted penetration exceeds the tolerance: here a straight path is accepted with tolerance 1 while the penetration at its end
is `19/10`. -/
theorem C34_tolerance_counterexample :
    PairsOK 0 2 [exTol] ∧
    (progressive Validation.exOps (cvQuery (fun _ => true) 0 2) (startPairs [exTol]) false 20 (0, 2)).toOption.map (·.1) = some true ∧
    ∃ o ∈ exTol.objs, o.dist 2 < -exTol.tol := by
  refine ⟨?_, by decide +kernel, ?_⟩
  · intro c hc
    simp at hc
    subst hc
    exact ⟨exTol_ok, rfl, rfl, Or.inl rfl⟩
  · refine ⟨_, List.mem_singleton.2 rfl, ?_⟩
    norm_num [exTol]

/-- Distance decreasing at speed `1/10` until 1, then at speed 10. -/
def exRefDist (t : ℚ) : ℚ := if t ≤ 1 then 1 / 20 - t / 10 else -1 / 20 - 10 * (t - 1)

/-- A path that is not straight, tolerance `1/10`, with the exact velocity bound on each interval. -/
def exRef : PairCfg ℚ :=
  ⟨[⟨fun t => if 0 < exRefDist t then some (exRefDist t) else none, exRefDist⟩],
   fun _ tM => match tM with
     | none => 10
     | some x => if x ≤ 1 then 1 / 10 else 10,
   1 / 10, 0, 2, false⟩

theorem exRef_lip1 (u v : ℚ) (hu : u ≤ 1) (hv : v ≤ 1) : |exRefDist u - exRefDist v| ≤ 1 / 10 * |u - v| := by
  unfold exRefDist
  rw [if_pos hu, if_pos hv, show 1 / 20 - u / 10 - (1 / 20 - v / 10) = -(1 / 10 * (u - v)) by ring, abs_neg, abs_mul,
    abs_of_pos (by norm_num : (0 : ℚ) < 1 / 10)]

theorem exRef_lip2 (u v : ℚ) : |exRefDist u - exRefDist v| ≤ 10 * |u - v| := by
  unfold exRefDist
  rw [abs_le]
  have h1 := le_abs_self (u - v)
  have h2 := neg_abs_le (u - v)
  split <;> split <;> constructor <;> linarith

theorem exRef_ok : CfgOK exRef where
  le := by decide +kernel
  tol := by decide +kernel
  lower := by
    intro o ho t d hd
    simp only [exRef, List.mem_singleton] at ho
    subst ho
    simp only at hd
    split at hd
    · rename_i h3
      obtain rfl := Option.some.inj hd
      exact ⟨h3, le_rfl⟩
    · simp at hd
  lip := by
    intro o ho tm tM u v _ _ _ _ h1 h2
    simp only [exRef, List.mem_singleton] at ho
    subst ho
    simp only [exRef]
    cases tM with
    | none => exact exRef_lip2 u v
    | some x =>
      simp only
      split
      · rename_i hx
        exact exRef_lip1 u v (le_trans (h1.2 x rfl) hx) (le_trans (h2.2 x rfl) hx)
      · exact exRef_lip2 u v
  nonneg := by
    intro tm tM
    simp only [exRef]
    cases tM with
    | none => norm_num
    | some x => simp only; split <;> norm_num
  mono := by
    rintro tm tM tm' tM' ⟨-, h⟩
    simp only [exRef]
    cases tM' with
    | none =>
      cases tM with
      | none => exact le_rfl
      | some x => simp only; split <;> norm_num
    | some y =>
      obtain ⟨x, hx, hxy⟩ := h y rfl
      rw [Option.mem_def] at hx
      subst hx
      simp only
      split
      · split <;> norm_num
      · rename_i hx
        rw [if_neg (fun hy => hx (le_trans hxy hy))]

/-- With refinement of the velocity the tolerance is divided by the velocity on a small interval and applied outside of it: a path is
accepted with tolerance `1/10` although the penetration at its end is more than 10. -/
theorem C34_refine_counterexample :
    CfgOK exRef ∧
    (progressive Validation.exOps (cvQuery (fun _ => true) 0 2) (startPairs [exRef]) false 20 (0, 2)).toOption.map (·.1) = some true ∧
    ∃ o ∈ exRef.objs, o.dist 2 < -10 := by
  refine ⟨exRef_ok, by decide +kernel, ⟨_, List.mem_singleton.2 rfl, ?_⟩⟩
  norm_num [exRefDist]

end Verif.CV
