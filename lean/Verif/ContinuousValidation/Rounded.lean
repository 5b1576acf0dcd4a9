import Verif.ContinuousValidation.BodyPairs
import Verif.ContinuousValidation.Dichotomy
import Verif.Path.Rounding
set_option linter.unusedSectionVars false

/-!
# Continuous validation with rounded arithmetic (C148)

The model of `BodyPairs.lean` and of the loops `Progressive` and `Dichotomy`, for straight paths, with every arithmetic operation on parameters
rounded by `F` (see `Verif/Path/Rounding.lean`).  Not rounded: the distances and velocity bounds returned by the collision library and by
the path, which are arbitrary numbers satisfying `CfgOK`.
-/
namespace Verif.Rounding
open Verif.CV Verif.Intervals
open Verif.PathV (Ops Err)

/-! ## Model -/

section model
variable {K S C P : Type} [Field K] [LinearOrder K] [IsStrictOrderedRing K]

/-- `maximalVelocity_` in `setupPath`: src/continuous-validation/body-pair-collision.cc:108-117 (`none`: infinity). -/
def maxVelR (F : Fl K) (c : PairCfg K) : Option K := if F.rnd (c.hi - c.lo) = 0 then none else some (c.vel (some c.lo) (some c.hi))

/-- `halfLengthDist + halfLengthTol`: body-pair-collision.cc:71-91 and 119-128 for a straight path (`refine_` false). -/
def halfLengthR (F : Fl K) (c : PairCfg K) : Option K → Option K
  | none => none
  | some d => match maxVelR F c with
    | none => some 0
    | some v => if v = 0 then none else some (F.rnd (F.rnd (d / v) + F.rnd (F.rnd (2 * c.tol) / v)))

/-- The interval around `t`: body-pair-collision.cc:90-91. -/
def centeredR (F : Fl K) (t : K) : Option K → EB K × EB K
  | none => (⊥, ⊤)
  | some x => (fin (F.rnd (t - x)), fin (F.rnd (t + x)))

/-- `BodyPairCollision::validateConfiguration`: body-pair-collision.cc:45-100. -/
def validatePairR (F : Fl K) (c : PairCfg K) (s : PairSt K) (t : K) (I : EB K × EB K) : Option ((EB K × EB K) × PairSt K) :=
  if s.valid then some ((fin c.lo, fin c.hi), s)
  else if containsInterval I.1 I.2 s.ivs then some (I, s)
  else match computeDistanceLowerBound c t with
    | none => none
    | some d =>
      let J := centeredR F t (halfLengthR F c d)
      let ivs := unionInterval J.1 J.2 s.ivs
      some (J, ⟨containsInterval (fin c.lo) (fin c.hi) ivs, ivs⟩)

/-- One iteration of the loops: evaluation of the path and validation for all the pairs (progressive.cc:103-116, dichotomy.cc:86-98,
continuous-validation.cc:128-148). -/
def cvQueryR (F : Fl K) (evalOk : K → Bool) (lo hi : K) (vs : List (PairCfg K × PairSt K)) (t : K) :
    Option ((K × K) × List (PairCfg K × PairSt K)) :=
  if evalOk t then
    match validateConfiguration (fun v t I => (validatePairR F v.1 v.2 t I).map (fun r => (r.1, (v.1, r.2)))) vs t with
    | none => none
    | some (I, vs') => some ((toK lo I.1, toK hi I.2), vs')
  else none

/-- Next parameter of the dichotomy: src/continuous-validation/dichotomy.cc:101-107. -/
def nextParamR (F : Fl K) (rev : Bool) (tr : K × K) (l : List (K × K)) : Except Err K :=
  match ordered rev l with
  | [] => .error .indexOutOfBounds
  | i :: rest =>
    let t0 := isecond rev i
    let t1 := match rest with
      | [] => isecond rev tr
      | j :: _ => ifirst rev j
    .ok (F.rnd (1 / 2 * F.rnd (t0 + t1)))

/-- Loop of `Dichotomy::validateStraightPath`: dichotomy.cc:84-108. -/
def dichoLoopR (F : Fl K) (query : S → K → Option ((K × K) × S)) (rev : Bool) (tr : K × K) :
    Nat → S → K → List (K × K) → Nat → Except Err (DichoRes K)
  | 0, _, _, _, _ => .error .outOfFuel
  | fuel + 1, s, t, l, n =>
    match query s t with
    | none => .ok ⟨false, l, some t, n + 1⟩
    | some (I, s') =>
      if containsInterval tr.1 tr.2 (unionInterval I.1 I.2 l) then .ok ⟨true, unionInterval I.1 I.2 l, none, n + 1⟩
      else do
        let t' ← nextParamR F rev tr (unionInterval I.1 I.2 l)
        dichoLoopR F query rev tr fuel s' t' (unionInterval I.1 I.2 l) (n + 1)

/-- `Dichotomy::validateStraightPath<reverse>`: dichotomy.cc:68-131. -/
def dichotomyR (F : Fl K) (O : Ops K C P) (query : S → K → Option ((K × K) × S)) (s : S) (rev : Bool) (fuel : Nat) (p : P) :
    Except Err (Bool × P × Option K × Nat) := do
  let tr := (O.lo p, O.hi p)
  let t := ifirst rev tr
  let r ← dichoLoopR F query rev tr fuel s t (unionInterval t t []) 0
  if r.valid then .ok (true, p, r.fail, r.tests)
  else
    match ordered rev r.list with
    | [] => .error .indexOutOfBounds
    | i :: _ => do
      let part ← if rev then O.extract p i.1 (O.hi p) else O.extract p (O.lo p) i.2
      .ok (false, part, r.fail, r.tests)

end model

variable {K S C P : Type} [Field K] [LinearOrder K] [IsStrictOrderedRing K]

/-! ## Specification -/

/-- Penetration due to the tolerance and to the rounding errors, `B` bounding the distances and `M` the parameters. -/
def slack (F : Fl K) (c : PairCfg K) (B M : K) : K :=
  (1 + F.u) ^ 3 * (2 * c.tol) + ((2 * F.u + F.u ^ 2) * B + c.vel (some c.lo) (some c.hi) * (F.u * M))

/-- No pair of objects penetrates more than `slack` at parameter `x`. -/
def FreeR (F : Fl K) (B M : K) (c : PairCfg K) (x : K) : Prop := ∀ o ∈ c.objs, -slack F c B M ≤ o.dist x

/-- Assumptions on a pair: those of the exact model, a straight path, distances bounded by `B`, a time range of bounds representable and
bounded by `M`. -/
structure CfgR (F : Fl K) (B M : K) (c : PairCfg K) : Prop where
  ok : CfgOK c
  straight : c.straight = true
  lt : F.u < 1
  b0 : 0 ≤ B
  dist : ∀ o ∈ c.objs, ∀ t, c.lo ≤ t → t ≤ c.hi → o.dist t ≤ B
  lo : F.rnd c.lo = c.lo
  hi : F.rnd c.hi = c.hi
  mlo : -M ≤ c.lo
  mhi : c.hi ≤ M

/-- A bound of an interval is infinite or representable. -/
def RepE (F : Fl K) (e : EB K) : Prop := ∀ x, e = fin x → F.rnd x = x

/-! ## The interval of a pair -/

theorem Fl.up (F : Fl K) {x : K} (h : 0 ≤ x) : F.rnd x ≤ (1 + F.u) * x := by
  have := (abs_le.1 (F.err x)).2
  rw [abs_of_nonneg h] at this
  linarith

theorem Fl.low (F : Fl K) {x : K} (h : 0 ≤ x) : (1 - F.u) * x ≤ F.rnd x := by
  have := (abs_le.1 (F.err x)).1
  rw [abs_of_nonneg h] at this
  linarith

theorem CfgR.m0 {F : Fl K} {B M : K} {c : PairCfg K} (h : CfgR F B M c) : 0 ≤ M := by
  have := h.mlo; have := h.mhi; have := h.ok.le
  linarith

theorem slack_nonneg {F : Fl K} {B M : K} {c : PairCfg K} (h : CfgR F B M c) : 0 ≤ slack F c B M := by
  have := F.u0; have := h.ok.tol; have := h.b0; have := h.m0; have := h.ok.nonneg (some c.lo) (some c.hi)
  unfold slack
  positivity

/-- Right end of an interval. -/
theorem right_err (F : Fl K) {t x h M : K} (hh : 0 ≤ h) (ht : -M ≤ t) (hx : x ≤ M) (hM : 0 ≤ M) (hxr : x ≤ F.rnd (t + h)) : x - t ≤ h + F.u * M := by
  have e := (abs_le.1 (F.err (t + h))).2
  have hu := F.u0
  have huM : 0 ≤ F.u * M := mul_nonneg hu hM
  rcases le_total (t + h) M with h1 | h1
  · have : |t + h| ≤ M := abs_le.2 ⟨by linarith, h1⟩
    have := mul_le_mul_of_nonneg_left this hu
    linarith
  · linarith

/-- Left end of an interval. -/
theorem left_err (F : Fl K) {t x h M : K} (hh : 0 ≤ h) (ht : t ≤ M) (hx : -M ≤ x) (hM : 0 ≤ M) (hxr : F.rnd (t - h) ≤ x) : t - x ≤ h + F.u * M := by
  have e := (abs_le.1 (F.err (t - h))).1
  have hu := F.u0
  have huM : 0 ≤ F.u * M := mul_nonneg hu hM
  rcases le_total (-M) (t - h) with h1 | h1
  · have : |t - h| ≤ M := abs_le.2 ⟨h1, by linarith⟩
    have := mul_le_mul_of_nonneg_left this hu
    linarith
  · linarith

/-- Half length computed, compared with the exact one. -/
theorem half_up (F : Fl K) {d v tol : K} (hd : 0 < d) (hv : 0 < v) (ht : 0 ≤ tol) :
    0 ≤ F.rnd (F.rnd (d / v) + F.rnd (F.rnd (2 * tol) / v)) ∧
      v * F.rnd (F.rnd (d / v) + F.rnd (F.rnd (2 * tol) / v)) ≤ (1 + F.u) ^ 2 * d + (1 + F.u) ^ 3 * (2 * tol) := by
  have hu := F.u0
  have h1 : 0 ≤ F.rnd (d / v) := F.nonneg (by positivity)
  have h2 : 0 ≤ F.rnd (2 * tol) := F.nonneg (by positivity)
  have h3 : 0 ≤ F.rnd (F.rnd (2 * tol) / v) := F.nonneg (by positivity)
  refine ⟨F.nonneg (by linarith), ?_⟩
  have e1 : v * F.rnd (d / v) ≤ (1 + F.u) * d := by
    have := mul_le_mul_of_nonneg_left (F.up (x := d / v) (by positivity)) hv.le
    have e : v * ((1 + F.u) * (d / v)) = (1 + F.u) * d := by field_simp
    linarith
  have e2 := F.up (x := 2 * tol) (by positivity)
  have e3 : v * F.rnd (F.rnd (2 * tol) / v) ≤ (1 + F.u) * ((1 + F.u) * (2 * tol)) := by
    have := mul_le_mul_of_nonneg_left (F.up (x := F.rnd (2 * tol) / v) (by positivity)) hv.le
    have e : v * ((1 + F.u) * (F.rnd (2 * tol) / v)) = (1 + F.u) * F.rnd (2 * tol) := by field_simp
    have := mul_le_mul_of_nonneg_left e2 (by linarith : 0 ≤ 1 + F.u)
    linarith
  have e4 := mul_le_mul_of_nonneg_left (F.up (x := F.rnd (d / v) + F.rnd (F.rnd (2 * tol) / v)) (by linarith)) hv.le
  have e5 := mul_le_mul_of_nonneg_left (add_le_add e1 e3) (by linarith : 0 ≤ 1 + F.u)
  nlinarith

theorem maxVelR_none {F : Fl K} {B M : K} {c : PairCfg K} (hc : CfgR F B M c) (h : F.rnd (c.hi - c.lo) = 0) : c.hi = c.lo := by
  have e := F.err (c.hi - c.lo)
  rw [h, zero_sub, abs_neg] at e
  have : |c.hi - c.lo| = 0 := by
    by_contra hne
    have hp : 0 < |c.hi - c.lo| := lt_of_le_of_ne (abs_nonneg _) (Ne.symm hne)
    have := mul_lt_mul_of_pos_right hc.lt hp
    linarith
  rw [abs_eq_zero] at this
  linarith

/-- The interval computed contains the parameter tested, its bounds are representable, and no pair of objects penetrates more than `slack` on it. -/
theorem centeredR_spec {F : Fl K} {B M : K} {c : PairCfg K} (hc : CfgR F B M c) {t : K} (hr : F.rnd t = t) (ht1 : c.lo ≤ t) (ht2 : t ≤ c.hi)
    {r : Option K} (hd : computeDistanceLowerBound c t = some r) :
    Mem (centeredR F t (halfLengthR F c r)) (fin t) ∧ RepE F (centeredR F t (halfLengthR F c r)).1 ∧ RepE F (centeredR F t (halfLengthR F c r)).2 ∧
      ∀ x, Mem (centeredR F t (halfLengthR F c r)) (fin x) → c.lo ≤ x → x ≤ c.hi → FreeR F B M c x := by
  obtain ⟨hn, hs⟩ := lowerBound_spec c hc.ok t r hd
  have hinf : Mem (centeredR F t none) (fin t) ∧ RepE F (centeredR F t none).1 ∧ RepE F (centeredR F t none).2 := by
    refine ⟨by simp [Mem, centeredR], ?_, ?_⟩ <;> intro x hx <;> simp [centeredR, fin] at hx
  have hsome : ∀ h : K, 0 ≤ h → Mem (centeredR F t (some h)) (fin t) ∧ RepE F (centeredR F t (some h)).1 ∧ RepE F (centeredR F t (some h)).2 := by
    intro h hh
    refine ⟨⟨fin_le.2 ?_, fin_le.2 ?_⟩, ?_, ?_⟩
    · have := F.mono (show t - h ≤ t by linarith); rwa [hr] at this
    · have := F.mono (show t ≤ t + h by linarith); rwa [hr] at this
    · intro x hx
      have hx : F.rnd (t - h) = x := by simpa [centeredR, fin] using hx
      rw [← hx, F.idem]
    · intro x hx
      have hx : F.rnd (t + h) = x := by simpa [centeredR, fin] using hx
      rw [← hx, F.idem]
  have hsl := slack_nonneg hc
  cases r with
  | none =>
    refine ⟨hinf.1, hinf.2.1, hinf.2.2, ?_⟩
    intro x _ _ _ o ho
    rw [hn rfl] at ho
    simp at ho
  | some d =>
    obtain ⟨hd0, hdo⟩ := hs d rfl
    by_cases hl : F.rnd (c.hi - c.lo) = 0
    · have e : halfLengthR F c (some d) = some 0 := by simp [halfLengthR, maxVelR, hl]
      rw [e]
      obtain ⟨a1, a2, a3⟩ := hsome 0 le_rfl
      refine ⟨a1, a2, a3, ?_⟩
      intro x _ hx1 hx2 o ho
      have := maxVelR_none hc hl
      have : x = t := by linarith
      subst this
      have := hdo o ho
      linarith
    · by_cases hv : c.vel (some c.lo) (some c.hi) = 0
      · have e : halfLengthR F c (some d) = none := by simp [halfLengthR, maxVelR, hl, hv]
        rw [e]
        refine ⟨hinf.1, hinf.2.1, hinf.2.2, ?_⟩
        intro x _ hx1 hx2 o ho
        have := dist_ge hc.ok ho (tm := some c.lo) (tM := some c.hi) ht1 ht2 hx1 hx2 (by simp [InB, ht1, ht2]) (by simp [InB, hx1, hx2])
        rw [hv] at this
        have := hdo o ho
        linarith
      · have e : halfLengthR F c (some d) = some (F.rnd (F.rnd (d / c.vel (some c.lo) (some c.hi)) + F.rnd (F.rnd (2 * c.tol) / c.vel (some c.lo) (some c.hi)))) := by
          simp [halfLengthR, maxVelR, hl, hv]
        rw [e]
        have hv0 : 0 < c.vel (some c.lo) (some c.hi) := lt_of_le_of_ne (hc.ok.nonneg _ _) (Ne.symm hv)
        obtain ⟨h0, h1⟩ := half_up F hd0 hv0 hc.ok.tol
        obtain ⟨a1, a2, a3⟩ := hsome _ h0
        refine ⟨a1, a2, a3, ?_⟩
        intro x hx hx1 hx2 o ho
        have hg := dist_ge hc.ok ho (tm := some c.lo) (tM := some c.hi) ht1 ht2 hx1 hx2 (by simp [InB, ht1, ht2]) (by simp [InB, hx1, hx2])
        have hm1 := hc.mlo; have hm2 := hc.mhi; have hm0 := hc.m0
        generalize hh : F.rnd (F.rnd (d / c.vel (some c.lo) (some c.hi)) + F.rnd (F.rnd (2 * c.tol) / c.vel (some c.lo) (some c.hi))) = h at *
        have b1 := right_err F h0 (t := t) (x := x) (by linarith) (by linarith) hm0 (fin_le.1 hx.2)
        have b2 := left_err F h0 (t := t) (x := x) (by linarith) (by linarith) hm0 (fin_le.1 hx.1)
        have b3 : |x - t| ≤ h + F.u * M := abs_le.2 ⟨by linarith, b1⟩
        have b4 := mul_le_mul_of_nonneg_left b3 hv0.le
        have b5 := hdo o ho
        have b6 := hc.dist o ho t ht1 ht2
        have hu := F.u0
        have b7 : (2 * F.u + F.u ^ 2) * d ≤ (2 * F.u + F.u ^ 2) * B := mul_le_mul_of_nonneg_left (by linarith) (by positivity)
        unfold slack
        nlinarith

/-- Invariant of the memory of a pair. -/
structure PairInvR (F : Fl K) (B M : K) (c : PairCfg K) (s : PairSt K) : Prop where
  sep : Separated s.ivs
  free : ∀ u, c.lo ≤ u → u ≤ c.hi → Covers s.ivs (fin u) → FreeR F B M c u
  valid : s.valid = true → ∀ u, c.lo ≤ u → u ≤ c.hi → FreeR F B M c u

theorem PairInvR.init (F : Fl K) (B M : K) (c : PairCfg K) : PairInvR F B M c setPath :=
  ⟨⟨by simp [setPath], by simp [setPath]⟩, fun u _ _ h => by obtain ⟨i, hi, -⟩ := h; simp [setPath] at hi, by simp [setPath]⟩

theorem validatePairR_spec {F : Fl K} {B M : K} {c : PairCfg K} (hc : CfgR F B M c) {s : PairSt K} (hs : PairInvR F B M c s)
    {t : K} (hr : F.rnd t = t) (ht1 : c.lo ≤ t) (ht2 : t ≤ c.hi) {I : EB K × EB K} (hI : Mem I (fin t) ∧ RepE F I.1 ∧ RepE F I.2)
    {J : EB K × EB K} {s' : PairSt K} (h : validatePairR F c s t I = some (J, s')) :
    PairInvR F B M c s' ∧ (Mem J (fin t) ∧ RepE F J.1 ∧ RepE F J.2) ∧ ∀ u, Mem J (fin u) → c.lo ≤ u → u ≤ c.hi → FreeR F B M c u := by
  unfold validatePairR at h
  cases hv : s.valid with
  | true =>
    simp [hv] at h
    obtain ⟨rfl, rfl⟩ := h
    refine ⟨hs, ⟨⟨fin_le.2 ht1, fin_le.2 ht2⟩, ?_, ?_⟩, fun u _ h1 h2 => hs.valid hv u h1 h2⟩
    · intro x hx
      have hx : c.lo = x := by simpa [fin] using hx
      rw [← hx]; exact hc.lo
    · intro x hx
      have hx : c.hi = x := by simpa [fin] using hx
      rw [← hx]; exact hc.hi
  | false =>
    simp only [hv, Bool.false_eq_true, if_false] at h
    by_cases hcont : containsInterval I.1 I.2 s.ivs = true
    · rw [if_pos hcont] at h
      simp at h
      obtain ⟨rfl, rfl⟩ := h
      refine ⟨hs, hI, ?_⟩
      intro u h1 h3 h4
      obtain ⟨i, hi, hi1, hi2⟩ := (containsInterval_iff _ _ _).1 hcont
      exact hs.free u h3 h4 ⟨i, hi, le_trans hi1 h1.1, le_trans h1.2 hi2⟩
    · rw [if_neg hcont] at h
      cases hd : computeDistanceLowerBound c t with
      | none => rw [hd] at h; simp at h
      | some r =>
        rw [hd] at h
        simp at h
        obtain ⟨rfl, rfl⟩ := h
        obtain ⟨c1, c2, c3, c4⟩ := centeredR_spec hc hr ht1 ht2 hd
        obtain ⟨s1, -, s3⟩ := unionInterval_spec _ _ (le_trans c1.1 c1.2) s.ivs hs.sep
        have hcov : ∀ u, c.lo ≤ u → u ≤ c.hi →
            Covers (unionInterval (centeredR F t (halfLengthR F c r)).1 (centeredR F t (halfLengthR F c r)).2 s.ivs) (fin u) → FreeR F B M c u := by
          intro u h1 h2 h3
          rcases (s3 (fin u)).1 h3 with h3 | h3
          · exact c4 u h3 h1 h2
          · exact hs.free u h1 h2 h3
        refine ⟨⟨s1, hcov, ?_⟩, ⟨c1, c2, c3⟩, c4⟩
        intro hval u h1 h2
        obtain ⟨i, hi, hi1, hi2⟩ := (containsInterval_iff _ _ _).1 hval
        exact hcov u h1 h2 ⟨i, hi, le_trans hi1 (fin_le.2 h1), le_trans (fin_le.2 h2) hi2⟩

/-! ## All the pairs -/

/-- A pair with its memory during the validation of a path defined on `[lo, hi]`. -/
structure VOKR (F : Fl K) (B M lo hi : K) (v : PairCfg K × PairSt K) : Prop where
  cfg : CfgR F B M v.1
  lo : v.1.lo = lo
  hi : v.1.hi = hi
  inv : PairInvR F B M v.1 v.2

/-- Invariant of the list of pairs. -/
def ListInvR (F : Fl K) (B M lo hi : K) (cfgs : List (PairCfg K)) (vs : List (PairCfg K × PairSt K)) : Prop :=
  (vs.map Prod.fst).Perm cfgs ∧ ∀ v ∈ vs, VOKR F B M lo hi v

theorem RepE.max {F : Fl K} {a b : EB K} (ha : RepE F a) (hb : RepE F b) : RepE F (max a b) := by
  rcases max_choice a b with h | h <;> rw [h] <;> assumption

theorem RepE.min {F : Fl K} {a b : EB K} (ha : RepE F a) (hb : RepE F b) : RepE F (min a b) := by
  rcases min_choice a b with h | h <;> rw [h] <;> assumption

theorem RepE.toK {F : Fl K} {e : EB K} {x : K} (hx : F.rnd x = x) (he : RepE F e) : F.rnd (toK x e) = toK x e := by
  match e with
  | ⊥ => exact hx
  | ((⊤ : WithTop K) : WithBot (WithTop K)) => exact hx
  | (((y : K) : WithTop K) : WithBot (WithTop K)) => exact he y rfl

/-- Answer at a representable parameter. -/
theorem cvQueryR_ok {F : Fl K} (evalOk : K → Bool) {B M lo hi : K} (hlo : F.rnd lo = lo) (hhi : F.rnd hi = hi) {cfgs : List (PairCfg K)}
    {vs vs' : List (PairCfg K × PairSt K)} {t : K} {I : K × K} (hv : ListInvR F B M lo hi cfgs vs) (hr : F.rnd t = t) (ht1 : lo ≤ t) (ht2 : t ≤ hi)
    (h : cvQueryR F evalOk lo hi vs t = some (I, vs')) :
    ListInvR F B M lo hi cfgs vs' ∧ I.1 ≤ t ∧ t ≤ I.2 ∧ (F.rnd I.1 = I.1 ∧ F.rnd I.2 = I.2) ∧
      ∀ u, I.1 ≤ u → u ≤ I.2 → lo ≤ u → u ≤ hi → ∀ c ∈ cfgs, FreeR F B M c u := by
  obtain ⟨hperm, hvs⟩ := hv
  unfold cvQueryR at h
  split at h
  · unfold validateConfiguration at h
    cases hq : validateIntervals (fun v t I => (validatePairR F v.1 v.2 t I).map (fun r => (r.1, (v.1, r.2)))) t 0 0 vs (⊥, ⊤) with
    | none => rw [hq] at h; simp at h
    | some z =>
      obtain ⟨R, vs1, m⟩ := z
      rw [hq] at h
      simp at h
      obtain ⟨rfl, rfl⟩ := h
      obtain ⟨h1, h2, -, h4⟩ := validateIntervals_inv _ t (VOKR F B M lo hi) (fun I => Mem I (fin t) ∧ RepE F I.1 ∧ RepE F I.2)
        (fun v u => lo ≤ u → u ≤ hi → FreeR F B M v.1 u) _ Prod.fst
        (fun I J h1 h2 => ⟨(mem_inter I J _).2 ⟨h1.1, h2.1⟩, RepE.max h1.2.1 h2.2.1, RepE.min h1.2.2 h2.2.2⟩) (by
          intro v A J v' hv hA hval
          simp only [Option.map_eq_some_iff] at hval
          obtain ⟨r, hr', he⟩ := hval
          simp only [Prod.mk.injEq] at he
          obtain ⟨rfl, rfl⟩ := he
          obtain ⟨g1, g2, g3⟩ := validatePairR_spec hv.cfg hv.inv hr (by rw [hv.lo]; exact ht1) (by rw [hv.hi]; exact ht2) hA hr'
          refine ⟨⟨hv.cfg, hv.lo, hv.hi, g1⟩, g2, rfl, ?_⟩
          intro u hu hu1 hu2
          exact g3 u hu (by rw [hv.lo]; exact hu1) (by rw [hv.hi]; exact hu2)) 0 0 vs (⊥, ⊤) R vs1 m
        ⟨by simp [Mem], fun x hx => by simp [fin] at hx, fun x hx => by simp [fin] at hx⟩ hvs hq
      have hp := swapFront_perm vs1 m
      refine ⟨⟨((hp.map Prod.fst).trans (by rw [h2])).trans hperm, fun v hv => (h4 v (hp.mem_iff.1 hv)).1⟩, ?_, ?_, ⟨?_, ?_⟩, ?_⟩
      · exact toK_lower_le ht1 h1.1.1
      · exact toK_upper_le ht2 h1.1.2
      · exact RepE.toK hlo h1.2.1
      · exact RepE.toK hhi h1.2.2
      · intro u hu1 hu2 hu3 hu4 c hc
        obtain ⟨v, hv, rfl⟩ := List.mem_map.1 (hperm.mem_iff.2 hc)
        have : v.1 ∈ vs1.map Prod.fst := by rw [h2]; exact List.mem_map.2 ⟨v, hv, rfl⟩
        obtain ⟨w, hw, hwe⟩ := List.mem_map.1 this
        rw [← hwe]
        exact (h4 w hw).2 u ⟨toK_lower h1.1.1 hu1, toK_upper h1.1.2 hu2⟩ hu3 hu4
  · simp at h

/-- Assumptions on the pairs for a path defined on `[lo, hi]`. -/
def PairsR (F : Fl K) (B M lo hi : K) (cfgs : List (PairCfg K)) : Prop := ∀ c ∈ cfgs, CfgR F B M c ∧ c.lo = lo ∧ c.hi = hi

theorem startPairs_invR {F : Fl K} {B M lo hi : K} {cfgs : List (PairCfg K)} (h : PairsR F B M lo hi cfgs) :
    ListInvR F B M lo hi cfgs (startPairs cfgs) := by
  constructor
  · simp [startPairs, Function.comp_def]
  · intro v hv
    simp [startPairs] at hv
    obtain ⟨c, hc, rfl⟩ := hv
    obtain ⟨h1, h2, h3⟩ := h c hc
    exact ⟨h1, h2, h3, PairInvR.init F B M c⟩

/-! ## Progressive -/

/-- Two queries that agree on a set of parameters closed under the answers give the same loop. -/
theorem progLoop_congr (q q' : S → K → Option ((K × K) × S)) (rev : Bool) (T1 : K) (G : S → K → Prop)
    (h : ∀ s t, G s t → q s t = q' s t ∧ ∀ I s', q s t = some (I, s') →
      (reached rev (isecond rev I) T1 → G s' T1) ∧ (¬ reached rev (isecond rev I) T1 → G s' (isecond rev I)))
    (fuel : Nat) (s : S) (t last : K) (fin n : Nat) (hG : G s t) : progLoop q rev T1 fuel s t last fin n = progLoop q' rev T1 fuel s t last fin n := by
  induction fuel generalizing s t last fin n with
  | zero => rfl
  | succ fuel ih =>
    unfold progLoop
    obtain ⟨h1, h2⟩ := h s t hG
    rw [← h1]
    cases hq : q s t with
    | none => rfl
    | some r =>
      obtain ⟨I, s'⟩ := r
      obtain ⟨h3, h4⟩ := h2 I s' hq
      simp only
      by_cases hr : reached rev (isecond rev I) T1
      · rw [if_pos hr, if_pos hr, ih _ _ _ _ _ (h3 hr)]
      · rw [if_neg hr, if_neg hr, ih _ _ _ _ _ (h4 hr)]

open Classical in
/-- The query restricted to the representable parameters. -/
noncomputable def restrict (F : Fl K) (q : S → K → Option ((K × K) × S)) : S → K → Option ((K × K) × S) :=
  fun s t => if F.rnd t = t then q s t else none

theorem restrict_ok {F : Fl K} (evalOk : K → Bool) {B M lo hi : K} (hlo : F.rnd lo = lo) (hhi : F.rnd hi = hi) (cfgs : List (PairCfg K)) :
    QueryOK (restrict F (cvQueryR F evalOk lo hi)) lo hi (ListInvR F B M lo hi cfgs) (fun u => ∀ c ∈ cfgs, FreeR F B M c u) := by
  constructor
  intro s t I s' hi ht1 ht2 hq
  unfold restrict at hq
  split at hq
  · next hr =>
    obtain ⟨h1, h2, h3, -, h4⟩ := cvQueryR_ok evalOk hlo hhi hi hr ht1 ht2 hq
    exact ⟨h1, h2, h3, h4⟩
  · simp at hq

theorem progressive_restrict {F : Fl K} (O : Ops K C P) (evalOk : K → Bool) {B M : K} {cfgs : List (PairCfg K)} (rev : Bool) (fuel : Nat) (p : P)
    (hp : O.lo p ≤ O.hi p) (hlo : F.rnd (O.lo p) = O.lo p) (hhi : F.rnd (O.hi p) = O.hi p) (hc : PairsR F B M (O.lo p) (O.hi p) cfgs) :
    progressive O (cvQueryR F evalOk (O.lo p) (O.hi p)) (startPairs cfgs) rev fuel p =
      progressive O (restrict F (cvQueryR F evalOk (O.lo p) (O.hi p))) (startPairs cfgs) rev fuel p := by
  simp only [progressive]
  rw [progLoop_congr _ (restrict F (cvQueryR F evalOk (O.lo p) (O.hi p))) rev _
    (fun s t => ListInvR F B M (O.lo p) (O.hi p) cfgs s ∧ F.rnd t = t ∧ O.lo p ≤ t ∧ t ≤ O.hi p)]
  · rintro s t ⟨h1, h2, h3, h4⟩
    refine ⟨by simp [restrict, h2], ?_⟩
    intro I s' hq
    obtain ⟨a1, a2, a3, ⟨a4, a5⟩, -⟩ := cvQueryR_ok evalOk hlo hhi h1 h2 h3 h4 hq
    cases rev with
    | false =>
      simp only [isecond, ifirst, reached, Bool.not_false, if_true, Bool.false_eq_true, if_false]
      exact ⟨fun _ => ⟨a1, hhi, hp, le_rfl⟩, fun h => ⟨a1, a5, h3.trans a3, (not_le.1 h).le⟩⟩
    | true =>
      simp only [isecond, ifirst, reached, Bool.not_true, if_true, Bool.false_eq_true, if_false]
      exact ⟨fun _ => ⟨a1, hlo, le_rfl, hp⟩, fun h => ⟨a1, a4, (not_le.1 h).le, a2.trans h4⟩⟩
  · refine ⟨startPairs_invR hc, ?_⟩
    cases rev <;> simp [ifirst, hlo, hhi, hp]

/-- C148, acceptance by `Progressive`: with rounded arithmetic no pair of objects penetrates, at any parameter of an accepted straight path, more than twice
the tolerance plus an explicit rounding error.  The exact bound of twice the tolerance does not hold: `C148_penetration_counterexample`. -/
theorem C148_progressive_partial {F : Fl K} (O : Ops K C P) (evalOk : K → Bool) {B M : K} {cfgs : List (PairCfg K)} (rev : Bool) (fuel : Nat) (p : P)
    (hp : O.lo p ≤ O.hi p) (hlo : F.rnd (O.lo p) = O.lo p) (hhi : F.rnd (O.hi p) = O.hi p) (hc : PairsR F B M (O.lo p) (O.hi p) cfgs)
    (vp : P) (rep : Option K) (n : Nat)
    (h : progressive O (cvQueryR F evalOk (O.lo p) (O.hi p)) (startPairs cfgs) rev fuel p = .ok (true, vp, rep, n)) :
    vp = p ∧ rep = none ∧ ∀ t, O.lo p ≤ t → t ≤ O.hi p → ∀ c ∈ cfgs, ∀ o ∈ c.objs,
      -((1 + F.u) ^ 3 * (2 * c.tol) + ((2 * F.u + F.u ^ 2) * B + c.vel (some c.lo) (some c.hi) * (F.u * M))) ≤ o.dist t := by
  rw [progressive_restrict O evalOk rev fuel p hp hlo hhi hc] at h
  exact C31_valid O _ _ rev fuel p hp _ _ (restrict_ok evalOk hlo hhi cfgs) (startPairs_invR hc) vp rep n h

/-- C148, rejection by `Progressive`: the parameter reported is one at which a validation failed, the part returned ends at or before it, and no pair of
objects penetrates more than the same amount along the part. -/
theorem C148_progressive_fail {F : Fl K} (O : Ops K C P) (evalOk : K → Bool) {B M : K} {cfgs : List (PairCfg K)} (rev : Bool) (fuel : Nat) (p : P)
    (hp : O.lo p ≤ O.hi p) (hlo : F.rnd (O.lo p) = O.lo p) (hhi : F.rnd (O.hi p) = O.hi p) (hc : PairsR F B M (O.lo p) (O.hi p) cfgs)
    (vp : P) (rep : Option K) (n : Nat)
    (h : progressive O (cvQueryR F evalOk (O.lo p) (O.hi p)) (startPairs cfgs) rev fuel p = .ok (false, vp, rep, n)) :
    ∃ tf tl, rep = some tf ∧ O.lo p ≤ tf ∧ tf ≤ O.hi p ∧
      if rev then O.extract p tl (O.hi p) = .ok vp ∧ tf ≤ tl ∧ tl ≤ O.hi p ∧
        ((tf = O.hi p ∧ tl = O.hi p) ∨ ∀ t, tf ≤ t → t ≤ O.hi p → ∀ c ∈ cfgs, FreeR F B M c t)
      else O.extract p (O.lo p) tl = .ok vp ∧ O.lo p ≤ tl ∧ tl ≤ tf ∧
        ((tf = O.lo p ∧ tl = O.lo p) ∨ ∀ t, O.lo p ≤ t → t ≤ tf → ∀ c ∈ cfgs, FreeR F B M c t) := by
  rw [progressive_restrict O evalOk rev fuel p hp hlo hhi hc] at h
  obtain ⟨tf, tl, h1, h2, h3, -, h4⟩ := C31_fail O _ _ rev fuel p hp _ _ (restrict_ok evalOk hlo hhi cfgs) (startPairs_invR hc) vp rep n h
  exact ⟨tf, tl, h1, h2, h3, h4⟩

/-! ## Dichotomy -/

/-- Doubling a number is exact. -/
def Scale2 (F : Fl K) : Prop := ∀ x, F.rnd (2 * x) = 2 * F.rnd x

theorem binary_scale2 [FloorRing K] (p : Nat) (hp : 1 ≤ p) : Scale2 (binary p hp : Fl K) := by
  have hn : ∀ x : K, 0 < x → near p (2 * x) = 2 * near p x := by
    intro x hx
    obtain ⟨h1, h2⟩ := log_spec hx
    have hl : Int.log 2 (2 * x) = Int.log 2 x + 1 := by
      apply log_eq
      · rw [zpow_add₀ (by norm_num)]; linarith
      · rw [zpow_add₀ (by norm_num)]; linarith
    have hu : ulp p (2 * x) = 2 * ulp p x := by
      unfold ulp
      rw [hl, show Int.log 2 x + 1 - (p : ℤ) + 1 = (Int.log 2 x - p + 1) + 1 by ring, zpow_add₀ (by norm_num)]
      ring
    have hu0 := ulp_pos p x
    unfold near
    rw [hu, mul_div_mul_left _ _ (by norm_num)]
    ring
  intro x
  show binRnd p (2 * x) = 2 * binRnd p x
  unfold binRnd
  rcases lt_trichotomy 0 x with hx | hx | hx
  · rw [if_pos hx, if_pos (by linarith), hn x hx]
  · subst hx; simp
  · rw [if_neg (not_lt.2 hx.le), if_pos hx, if_neg (by linarith), if_pos (by linarith), show -(2 * x) = 2 * -x by ring, hn _ (by linarith)]
    ring

/-- The first gap of the set of intervals. -/
theorem gap {F : Fl K} (rev : Bool) {a b : K} {l : List (K × K)} (hs : Separated l) (hc : Covers l (start rev a b))
    (hb : ∀ i ∈ l, i.1 ≤ b ∧ a ≤ i.2) (hn : ¬ containsInterval a b l = true) :
    ∃ x y, nextParamR F rev (a, b) l = .ok (F.rnd (1 / 2 * F.rnd (x + y))) ∧ x < y ∧ a ≤ x ∧ y ≤ b ∧ (x = a ∨ ∃ i ∈ l, x = i.2) ∧ (y = b ∨ ∃ i ∈ l, y = i.1) ∧
      (∀ j ∈ l, j.2 ≤ x ∨ y ≤ j.1) ∧ ∃ i rest, ordered rev l = i :: rest ∧ if rev then i.1 = y else i.2 = x := by
  cases rev with
  | false =>
    obtain ⟨i, rest, rfl, h1, h2⟩ := begin_fwd hs (by simpa [start] using hc) hb
    have hib : i.2 < b := by
      by_contra h
      push Not at h
      exact hn ((containsInterval_iff _ _ _).2 ⟨i, by simp, h1, h⟩)
    cases rest with
    | nil =>
      refine ⟨i.2, b, by simp [nextParamR, ordered, isecond, ifirst], hib, h2, le_rfl, Or.inr ⟨i, by simp, rfl⟩, Or.inl rfl, ?_, i, [], by simp [ordered], by simp⟩
      intro j hj
      simp at hj
      subst hj
      exact Or.inl le_rfl
    | cons j rest =>
      refine ⟨i.2, j.1, by simp [nextParamR, ordered, isecond, ifirst], hs.head_lt j (by simp), h2, (hb j (by simp)).1, Or.inr ⟨i, by simp, rfl⟩,
        Or.inr ⟨j, by simp, rfl⟩, ?_, i, j :: rest, by simp [ordered], by simp⟩
      intro k hk
      rcases List.mem_cons.1 hk with rfl | hk
      · exact Or.inl le_rfl
      · exact Or.inr (pairwise_le hs.tail k hk)
  | true =>
    have hp := List.pairwise_reverse.2 hs.sorted
    have hmem : ∀ j, j ∈ l.reverse ↔ j ∈ l := fun j => List.mem_reverse
    obtain ⟨k, hk, hk1, hk2⟩ := hc
    simp only [start, if_true] at hk1 hk2
    cases hl : l.reverse with
    | nil => rw [← hmem, hl] at hk; simp at hk
    | cons i rest =>
      rw [hl] at hp hmem
      rw [List.pairwise_cons] at hp
      have hi : i ∈ l := (hmem i).1 (by simp)
      have hki : k = i := by
        rcases List.mem_cons.1 ((hmem k).2 hk) with h | h
        · exact h
        · have := hp.1 k h
          have := (hb i hi).1
          linarith
      subst hki
      have hia : a < k.1 := by
        by_contra h
        push Not at h
        exact hn ((containsInterval_iff _ _ _).2 ⟨k, hi, h, hk2⟩)
      cases rest with
      | nil =>
        refine ⟨a, k.1, by simp [nextParamR, ordered, hl, isecond, ifirst, add_comm], hia, le_rfl, hk1, Or.inl rfl, Or.inr ⟨k, hi, rfl⟩, ?_, k, [], by simp [ordered, hl], by simp⟩
        intro j hj
        rw [← hmem] at hj
        simp at hj
        subst hj
        exact Or.inr le_rfl
      | cons j rest =>
        have hj : j ∈ l := (hmem j).1 (by simp)
        refine ⟨j.2, k.1, by simp [nextParamR, ordered, hl, isecond, ifirst, add_comm], hp.1 j (by simp), (hb j hj).2, hk1, Or.inr ⟨j, hj, rfl⟩,
          Or.inr ⟨k, hi, rfl⟩, ?_, k, j :: rest, by simp [ordered, hl], by simp⟩
        intro m hm
        rw [← hmem] at hm
        rcases List.mem_cons.1 hm with rfl | hm
        · exact Or.inr le_rfl
        · rcases List.mem_cons.1 hm with rfl | hm
          · exact Or.inl le_rfl
          · have h1 := (List.pairwise_cons.1 hp.2).1 m hm
            have h2 := hs.nonempty j hj
            left
            linarith

/-- The middle of a gap whose ends are representable is computed inside the gap. -/
theorem mid_in {F : Fl K} (h2 : Scale2 F) {x y : K} (hx : F.rnd x = x) (hy : F.rnd y = y) (hxy : x ≤ y) :
    x ≤ F.rnd (1 / 2 * F.rnd (x + y)) ∧ F.rnd (1 / 2 * F.rnd (x + y)) ≤ y := by
  have e1 := F.mono (show 2 * x ≤ x + y by linarith)
  have e2 := F.mono (show x + y ≤ 2 * y by linarith)
  rw [h2, hx] at e1
  rw [h2, hy] at e2
  have f1 := F.mono (show x ≤ 1 / 2 * F.rnd (x + y) by linarith)
  have f2 := F.mono (show 1 / 2 * F.rnd (x + y) ≤ y by linarith)
  rw [hx] at f1
  rw [hy] at f2
  exact ⟨f1, f2⟩

/-- Invariant of the loop: see `DichoInv`; the parameter tested may be at the end of an interval already certified. -/
structure DichoInvR (F : Fl K) (Free : K → Prop) (a b x t : K) (l : List (K × K)) : Prop where
  sep : Separated l
  cov : Covers l x
  bnd : ∀ i ∈ l, i.1 ≤ b ∧ a ≤ i.2
  rep : ∀ i ∈ l, F.rnd i.1 = i.1 ∧ F.rnd i.2 = i.2
  t1 : a ≤ t
  t2 : t ≤ b
  trep : F.rnd t = t
  st : (t = x ∧ ∀ u, Covers l u → u = x) ∨ ∀ u, a ≤ u → u ≤ b → Covers l u → Free u

/-- What is assumed of the query at representable parameters. -/
structure QueryR (F : Fl K) (query : S → K → Option ((K × K) × S)) (a b : K) (Inv : S → Prop) (Free : K → Prop) : Prop where
  step : ∀ s t I s', Inv s → F.rnd t = t → a ≤ t → t ≤ b → query s t = some (I, s') →
    Inv s' ∧ I.1 ≤ t ∧ t ≤ I.2 ∧ (F.rnd I.1 = I.1 ∧ F.rnd I.2 = I.2) ∧ ∀ u, I.1 ≤ u → u ≤ I.2 → a ≤ u → u ≤ b → Free u

theorem unionInterval_invR {F : Fl K} {Free : K → Prop} {a b x t : K} {l : List (K × K)} (hi : DichoInvR F Free a b x t l)
    {I : K × K} (h1 : I.1 ≤ t) (h2 : t ≤ I.2) (h3 : F.rnd I.1 = I.1 ∧ F.rnd I.2 = I.2) (hfree : ∀ u, I.1 ≤ u → u ≤ I.2 → a ≤ u → u ≤ b → Free u) :
    Separated (unionInterval I.1 I.2 l) ∧ Covers (unionInterval I.1 I.2 l) x ∧
    (∀ i ∈ unionInterval I.1 I.2 l, i.1 ≤ b ∧ a ≤ i.2) ∧ (∀ i ∈ unionInterval I.1 I.2 l, F.rnd i.1 = i.1 ∧ F.rnd i.2 = i.2) ∧
    (∀ u, a ≤ u → u ≤ b → Covers (unionInterval I.1 I.2 l) u → Free u) := by
  obtain ⟨s1, -, s3⟩ := unionInterval_spec I.1 I.2 (le_trans h1 h2) l hi.sep
  refine ⟨s1, (s3 x).2 (Or.inr hi.cov), ?_, ?_, ?_⟩
  · intro i hi'
    obtain ⟨b1, b2⟩ := unionInterval_bounds _ _ _ i hi'
    constructor
    · rcases b1 with b1 | ⟨j, hj, b1⟩
      · rw [b1]; exact le_trans h1 hi.t2
      · rw [b1]; exact (hi.bnd j hj).1
    · rcases b2 with b2 | ⟨j, hj, b2⟩
      · rw [b2]; exact le_trans hi.t1 h2
      · rw [b2]; exact (hi.bnd j hj).2
  · intro i hi'
    obtain ⟨b1, b2⟩ := unionInterval_bounds _ _ _ i hi'
    constructor
    · rcases b1 with b1 | ⟨j, hj, b1⟩
      · rw [b1]; exact h3.1
      · rw [b1]; exact (hi.rep j hj).1
    · rcases b2 with b2 | ⟨j, hj, b2⟩
      · rw [b2]; exact h3.2
      · rw [b2]; exact (hi.rep j hj).2
  · intro u u1 u2 hu
    rcases (s3 u).1 hu with hu | hu
    · exact hfree u hu.1 hu.2 u1 u2
    · rcases hi.st with ⟨e, h⟩ | h
      · have := h u hu
        subst this
        subst e
        exact hfree t h1 h2 u1 u2
      · exact h u u1 u2 hu

theorem start_mem (rev : Bool) {a b : K} (hab : a ≤ b) : a ≤ start rev a b ∧ start rev a b ≤ b := by
  unfold start; split
  · exact ⟨hab, le_rfl⟩
  · exact ⟨le_rfl, hab⟩

/-- Next parameter after an answer. -/
theorem next_inv {F : Fl K} (h2 : Scale2 F) (rev : Bool) {Free : K → Prop} {a b : K} (ha : F.rnd a = a) (hb : F.rnd b = b) {l : List (K × K)} (u1 : Separated l)
    (u2 : Covers l (start rev a b)) (u3 : ∀ i ∈ l, i.1 ≤ b ∧ a ≤ i.2) (u4 : ∀ i ∈ l, F.rnd i.1 = i.1 ∧ F.rnd i.2 = i.2)
    (u5 : ∀ u, a ≤ u → u ≤ b → Covers l u → Free u) (hn : ¬ containsInterval a b l = true) :
    ∃ t, nextParamR F rev (a, b) l = .ok t ∧ DichoInvR F Free a b (start rev a b) t l ∧
      (∃ x y, x < y ∧ a ≤ x ∧ y ≤ b ∧ x ≤ t ∧ t ≤ y ∧ ∀ w, x < w → w < y → ¬ Covers l w) ∧
      ∃ i rest, ordered rev l = i :: rest ∧ if rev then t ≤ i.1 else i.2 ≤ t := by
  obtain ⟨x, y, g1, g2, g3, g4, g5, g6, g7, i, rest, g8, g9⟩ := gap (F := F) rev u1 u2 u3 hn
  have hx : F.rnd x = x := by
    rcases g5 with rfl | ⟨i, hi, rfl⟩
    · exact ha
    · exact (u4 i hi).2
  have hy : F.rnd y = y := by
    rcases g6 with rfl | ⟨i, hi, rfl⟩
    · exact hb
    · exact (u4 i hi).1
  obtain ⟨m1, m2⟩ := mid_in h2 hx hy g2.le
  refine ⟨_, g1, ⟨u1, u2, u3, u4, g3.trans m1, m2.trans g4, F.idem _, Or.inr u5⟩, ⟨x, y, g2, g3, g4, m1, m2, ?_⟩, i, rest, g8, ?_⟩
  · rintro w w1 w2 ⟨j, hj, j1, j2⟩
    rcases g7 j hj with h | h
    · exact absurd (j2.trans h) (not_le.2 w1)
    · exact absurd (h.trans j1) (not_le.2 w2)
  · cases rev with
    | false => simp only [Bool.false_eq_true, if_false] at g9 ⊢; rw [g9]; exact m1
    | true => simp only [if_true] at g9 ⊢; rw [g9]; exact m2

theorem dichoLoopR_spec {F : Fl K} (h2 : Scale2 F) (query : S → K → Option ((K × K) × S)) (rev : Bool) (a b : K) (ha : F.rnd a = a) (hb : F.rnd b = b)
    (Inv : S → Prop) (Free : K → Prop) (hq : QueryR F query a b Inv Free) (fuel : Nat) (s : S) (t : K) (l : List (K × K)) (n : Nat) (r : DichoRes K) (hinv : Inv s)
    (hi : DichoInvR F Free a b (start rev a b) t l)
    (hg : (t = start rev a b ∧ ∀ u, Covers l u → u = start rev a b) ∨ ∃ i rest, ordered rev l = i :: rest ∧ if rev then t ≤ i.1 else i.2 ≤ t)
    (hr : dichoLoopR F query rev (a, b) fuel s t l n = .ok r) :
    (r.valid = true → r.fail = none ∧ ∀ u, a ≤ u → u ≤ b → Free u) ∧
    (r.valid = false → ∃ tf, r.fail = some tf ∧ DichoInvR F Free a b (start rev a b) tf r.list ∧
      ((tf = start rev a b ∧ ∀ u, Covers r.list u → u = start rev a b) ∨
        ∃ i rest, ordered rev r.list = i :: rest ∧ if rev then tf ≤ i.1 else i.2 ≤ tf) ∧
      ∃ s', Inv s' ∧ query s' tf = none) := by
  induction fuel generalizing s t l n with
  | zero => simp [dichoLoopR] at hr
  | succ fuel ih =>
    unfold dichoLoopR at hr
    cases hqt : query s t with
    | none =>
      rw [hqt] at hr
      obtain rfl := Except.ok.inj hr
      exact ⟨by simp, fun _ => ⟨t, rfl, hi, hg, s, hinv, hqt⟩⟩
    | some y =>
      obtain ⟨I, s'⟩ := y
      rw [hqt] at hr
      simp only at hr
      obtain ⟨k1, k2, k3, k4, k5⟩ := hq.step s t I s' hinv hi.trep hi.t1 hi.t2 hqt
      obtain ⟨u1, u2, u3, u4, u5⟩ := unionInterval_invR hi k2 k3 k4 k5
      by_cases hc : containsInterval a b (unionInterval I.1 I.2 l) = true
      · rw [if_pos hc] at hr
        obtain rfl := Except.ok.inj hr
        refine ⟨fun _ => ⟨rfl, ?_⟩, by simp⟩
        obtain ⟨i, hi', h1, h2⟩ := (containsInterval_iff _ _ _).1 hc
        intro u hu1 hu2
        exact u5 u hu1 hu2 ⟨i, hi', le_trans h1 hu1, le_trans hu2 h2⟩
      · rw [if_neg hc] at hr
        obtain ⟨t', n1, n2, -, n3⟩ := next_inv h2 rev ha hb u1 u2 u3 u4 u5 hc
        rw [n1] at hr
        exact ih s' t' _ (n + 1) k1 n2 (Or.inr n3) hr

theorem init_covers (rev : Bool) (a b : K) : ∀ u, Covers (unionInterval (start rev a b) (start rev a b) []) u → u = start rev a b := by
  rintro u ⟨i, hi, h1, h2⟩
  simp [unionInterval] at hi
  subst hi
  exact le_antisymm h2 h1

theorem DichoInvR.init {F : Fl K} (Free : K → Prop) (rev : Bool) {a b : K} (hab : a ≤ b) (ha : F.rnd a = a) (hb : F.rnd b = b) :
    DichoInvR F Free a b (start rev a b) (start rev a b) (unionInterval (start rev a b) (start rev a b) []) := by
  have hx := start_mem rev hab
  have hr : F.rnd (start rev a b) = start rev a b := by cases rev <;> simp [start, ha, hb]
  have h := DichoInv.init Free rev a b hab
  refine ⟨h.sep, h.cov, h.bnd, ?_, hx.1, hx.2, hr, Or.inl ⟨rfl, ?_⟩⟩
  · intro i hi
    simp [unionInterval] at hi
    subst hi
    exact ⟨hr, hr⟩
  · rintro u ⟨i, hi, h1, h2⟩
    simp [unionInterval] at hi
    subst hi
    exact le_antisymm h2 h1

theorem cvQueryR_query {F : Fl K} (evalOk : K → Bool) {B M lo hi : K} (hlo : F.rnd lo = lo) (hhi : F.rnd hi = hi) (cfgs : List (PairCfg K)) :
    QueryR F (cvQueryR F evalOk lo hi) lo hi (ListInvR F B M lo hi cfgs) (fun u => ∀ c ∈ cfgs, FreeR F B M c u) :=
  ⟨fun _ _ _ _ hi hr h1 h2 hq => cvQueryR_ok evalOk hlo hhi hi hr h1 h2 hq⟩

/-- C148, acceptance by `Dichotomy`, see `C148_progressive_partial`.  Doubling a number is assumed exact, as in binary arithmetic (`binary_scale2`). -/
theorem C148_dichotomy_partial {F : Fl K} (h2 : Scale2 F) (O : Ops K C P) (evalOk : K → Bool) {B M : K} {cfgs : List (PairCfg K)} (rev : Bool) (fuel : Nat) (p : P)
    (hp : O.lo p ≤ O.hi p) (hlo : F.rnd (O.lo p) = O.lo p) (hhi : F.rnd (O.hi p) = O.hi p) (hc : PairsR F B M (O.lo p) (O.hi p) cfgs)
    (vp : P) (rep : Option K) (n : Nat)
    (h : dichotomyR F O (cvQueryR F evalOk (O.lo p) (O.hi p)) (startPairs cfgs) rev fuel p = .ok (true, vp, rep, n)) :
    vp = p ∧ rep = none ∧ ∀ t, O.lo p ≤ t → t ≤ O.hi p → ∀ c ∈ cfgs, ∀ o ∈ c.objs,
      -((1 + F.u) ^ 3 * (2 * c.tol) + ((2 * F.u + F.u ^ 2) * B + c.vel (some c.lo) (some c.hi) * (F.u * M))) ≤ o.dist t := by
  simp only [dichotomyR, ifirst_start] at h
  cases hl : dichoLoopR F (cvQueryR F evalOk (O.lo p) (O.hi p)) rev (O.lo p, O.hi p) fuel (startPairs cfgs) (start rev (O.lo p) (O.hi p))
      (unionInterval (start rev (O.lo p) (O.hi p)) (start rev (O.lo p) (O.hi p)) []) 0 with
  | error e => rw [hl] at h; simp [bind, Except.bind] at h
  | ok r =>
    rw [hl] at h
    simp only [bind, Except.bind] at h
    have sp := dichoLoopR_spec h2 _ rev _ _ hlo hhi _ _ (cvQueryR_query evalOk hlo hhi cfgs) fuel _ _ _ 0 r (startPairs_invR hc)
      (DichoInvR.init _ rev hp hlo hhi) (Or.inl ⟨rfl, init_covers _ _ _⟩) hl
    cases hv : r.valid with
    | true =>
      rw [hv] at h
      simp at h
      obtain ⟨g1, g2⟩ := sp.1 hv
      exact ⟨h.1.symm, h.2.1 ▸ g1, g2⟩
    | false =>
      rw [hv] at h
      simp only [Bool.false_eq_true, if_false] at h
      split at h
      · simp at h
      · split at h <;> split at h <;> simp at h

/-- C148, rejection by `Dichotomy`: the parameter reported is one at which a validation failed, the part returned ends at or before it, and no pair of objects
penetrates more than the same amount along the part (unless it is reduced to the starting end). -/
theorem C148_dichotomy_fail {F : Fl K} (h2 : Scale2 F) (O : Ops K C P) (evalOk : K → Bool) {B M : K} {cfgs : List (PairCfg K)} (rev : Bool) (fuel : Nat) (p : P)
    (hp : O.lo p ≤ O.hi p) (hlo : F.rnd (O.lo p) = O.lo p) (hhi : F.rnd (O.hi p) = O.hi p) (hc : PairsR F B M (O.lo p) (O.hi p) cfgs)
    (vp : P) (rep : Option K) (n : Nat)
    (h : dichotomyR F O (cvQueryR F evalOk (O.lo p) (O.hi p)) (startPairs cfgs) rev fuel p = .ok (false, vp, rep, n)) :
    ∃ tf tl, rep = some tf ∧ O.lo p ≤ tf ∧ tf ≤ O.hi p ∧
      if rev then O.extract p tl (O.hi p) = .ok vp ∧ tf ≤ tl ∧ ((tf = O.hi p ∧ tl = O.hi p) ∨ ∀ t, tl ≤ t → O.lo p ≤ t → t ≤ O.hi p → ∀ c ∈ cfgs, FreeR F B M c t)
      else O.extract p (O.lo p) tl = .ok vp ∧ tl ≤ tf ∧ ((tf = O.lo p ∧ tl = O.lo p) ∨ ∀ t, O.lo p ≤ t → t ≤ O.hi p → t ≤ tl → ∀ c ∈ cfgs, FreeR F B M c t) := by
  simp only [dichotomyR, ifirst_start] at h
  cases hl : dichoLoopR F (cvQueryR F evalOk (O.lo p) (O.hi p)) rev (O.lo p, O.hi p) fuel (startPairs cfgs) (start rev (O.lo p) (O.hi p))
      (unionInterval (start rev (O.lo p) (O.hi p)) (start rev (O.lo p) (O.hi p)) []) 0 with
  | error e => rw [hl] at h; simp [bind, Except.bind] at h
  | ok r =>
    rw [hl] at h
    simp only [bind, Except.bind] at h
    have sp := dichoLoopR_spec h2 _ rev _ _ hlo hhi _ _ (cvQueryR_query evalOk hlo hhi cfgs) fuel _ _ _ 0 r (startPairs_invR hc)
      (DichoInvR.init _ rev hp hlo hhi) (Or.inl ⟨rfl, init_covers _ _ _⟩) hl
    cases hv : r.valid with
    | true => rw [hv] at h; simp at h
    | false =>
      rw [hv] at h
      simp only [Bool.false_eq_true, if_false] at h
      obtain ⟨tf, h1, hI, h3, -⟩ := sp.2 hv
      cases rev with
      | false =>
        obtain ⟨i, rest, hl', hi1, hi2⟩ := begin_fwd hI.sep (by simpa [start] using hI.cov) hI.bnd
        simp only [ordered, Bool.false_eq_true, if_false, hl'] at h h3 ⊢
        cases hx : O.extract p (O.lo p) i.2 with
        | error e => rw [hx] at h; simp at h
        | ok q =>
          rw [hx] at h
          simp at h
          obtain ⟨rfl, rfl, -⟩ := h
          have hmem : i ∈ r.list := by rw [hl']; simp
          refine ⟨tf, i.2, h1, hI.t1, hI.t2, hx, ?_, ?_⟩
          · rcases h3 with ⟨h3, h4⟩ | ⟨i', rest', h3, h4⟩
            · rw [h3, h4 i.2 ⟨i, by simp, hI.sep.nonempty i hmem, le_rfl⟩]
            · simp at h3; rw [h3.1]; exact h4
          · rcases hI.st with ⟨h4, h5⟩ | h4
            · exact Or.inl ⟨by simpa [start] using h4, by simpa [start] using h5 i.2 ⟨i, hmem, hI.sep.nonempty i hmem, le_rfl⟩⟩
            · exact Or.inr (fun t t1 t2 t3 => h4 t t1 t2 ⟨i, hmem, hi1.trans t1, t3⟩)
      | true =>
        obtain ⟨i, rest, hl', hi1, hi2⟩ := begin_rev hI.sep (by simpa [start] using hI.cov) hI.bnd
        simp only [ordered, if_true, hl'] at h h3 ⊢
        cases hx : O.extract p i.1 (O.hi p) with
        | error e => rw [hx] at h; simp at h
        | ok q =>
          rw [hx] at h
          simp at h
          obtain ⟨rfl, rfl, -⟩ := h
          have hmem : i ∈ r.list := by rw [← List.mem_reverse, hl']; simp
          refine ⟨tf, i.1, h1, hI.t1, hI.t2, hx, ?_, ?_⟩
          · rcases h3 with ⟨h3, h4⟩ | ⟨i', rest', h3, h4⟩
            · rw [h3, h4 i.1 ⟨i, hmem, le_rfl, hI.sep.nonempty i hmem⟩]
            · simp at h3; rw [h3.1]; exact h4
          · rcases hI.st with ⟨h4, h5⟩ | h4
            · exact Or.inl ⟨by simpa [start] using h4, by simpa [start] using h5 i.1 ⟨i, hmem, le_rfl, hI.sep.nonempty i hmem⟩⟩
            · exact Or.inr (fun t t1 t2 t3 => h4 t t2 t3 ⟨i, hmem, t1, t3.trans hi2.1⟩)

/-! ## Termination -/

/-- Least advance of an iteration: the lower bounds of the distances are at least `dmin`, the tolerances at least `tol`, the velocities at most `V`. -/
def advance (F : Fl K) (V dmin tol M : K) : K := ((1 - F.u) ^ 2 * dmin + (1 - F.u) ^ 3 * (2 * tol)) / V - F.u * M

/-- Assumptions of termination on a pair. -/
structure TermR (F : Fl K) (V dmin tol M : K) (c : PairCfg K) : Prop where
  ok : CfgOK c
  straight : c.straight = true
  lt : F.u < 1
  lo : F.rnd c.lo = c.lo
  hi : F.rnd c.hi = c.hi
  mlo : -M ≤ c.lo
  mhi : c.hi ≤ M
  vel : c.vel (some c.lo) (some c.hi) ≤ V
  v0 : 0 < V
  tol0 : 0 ≤ tol
  tol : tol ≤ c.tol
  d0 : 0 ≤ dmin
  dmin : ∀ o ∈ c.objs, ∀ t d, o.collide t = some d → dmin ≤ d

theorem half_low (F : Fl K) (hlt : F.u < 1) {d v tol V dmin tol' : K} (hv : 0 < v) (hvV : v ≤ V) (hd0 : 0 ≤ dmin) (hd : dmin ≤ d) (ht0 : 0 ≤ tol') (ht : tol' ≤ tol) :
    ((1 - F.u) ^ 2 * dmin + (1 - F.u) ^ 3 * (2 * tol')) / V ≤ F.rnd (F.rnd (d / v) + F.rnd (F.rnd (2 * tol) / v)) := by
  have hu := F.u0
  have h1u : 0 < 1 - F.u := by linarith
  have hV : 0 < V := hv.trans_le hvV
  have hdd : 0 ≤ d := hd0.trans hd
  have htt : 0 ≤ tol := ht0.trans ht
  have e1 : (1 - F.u) * (d / v) ≤ F.rnd (d / v) := F.low (by positivity)
  have e2 : (1 - F.u) * (2 * tol) ≤ F.rnd (2 * tol) := F.low (by positivity)
  have h2 : 0 ≤ F.rnd (2 * tol) := F.nonneg (by positivity)
  have e3 : (1 - F.u) * (F.rnd (2 * tol) / v) ≤ F.rnd (F.rnd (2 * tol) / v) := F.low (by positivity)
  have h1 : 0 ≤ F.rnd (d / v) := F.nonneg (by positivity)
  have h3 : 0 ≤ F.rnd (F.rnd (2 * tol) / v) := F.nonneg (by positivity)
  have e4 : (1 - F.u) * (F.rnd (d / v) + F.rnd (F.rnd (2 * tol) / v)) ≤ _ := F.low (by linarith)
  refine le_trans ?_ e4
  have f1 : dmin / V ≤ d / v := div_le_div₀ hdd hd hv hvV
  have f2 : 2 * tol' / V ≤ 2 * tol / v := div_le_div₀ (by positivity) (by linarith) hv hvV
  have f3 : (1 - F.u) * (2 * tol / v) ≤ F.rnd (2 * tol) / v := by
    rw [← mul_div_assoc]
    exact div_le_div_of_nonneg_right e2 hv.le
  have g1 : (1 - F.u) * (dmin / V) ≤ F.rnd (d / v) := (mul_le_mul_of_nonneg_left f1 h1u.le).trans e1
  have g2 : (1 - F.u) * ((1 - F.u) * (2 * tol' / V)) ≤ F.rnd (F.rnd (2 * tol) / v) :=
    (mul_le_mul_of_nonneg_left ((mul_le_mul_of_nonneg_left f2 h1u.le).trans f3) h1u.le).trans e3
  have := mul_le_mul_of_nonneg_left (add_le_add g1 g2) h1u.le
  refine le_trans (le_of_eq ?_) this
  field_simp

theorem centeredR_wide {F : Fl K} {V dmin tol M : K} {c : PairCfg K} (hc : TermR F V dmin tol M c) (ha : 0 < advance F V dmin tol M) {t : K} (ht1 : c.lo ≤ t) (ht2 : t ≤ c.hi)
    {r : Option K} (hd : computeDistanceLowerBound c t = some r) : Wide c.lo c.hi t (advance F V dmin tol M) (centeredR F t (halfLengthR F c r)) := by
  have hM : 0 ≤ M := by have := hc.mlo; have := hc.mhi; linarith
  have hinf : Wide c.lo c.hi t (advance F V dmin tol M) (centeredR F t none) := by simp [Wide, centeredR]
  cases r with
  | none => exact hinf
  | some d =>
    have hdm : dmin ≤ d := by
      rcases (lowerBoundLoop_spec t c.objs none (some d) hd).2.2 d rfl with h | ⟨o, ho, h⟩
      · simp at h
      · exact hc.dmin o ho t d h
    by_cases hl : F.rnd (c.hi - c.lo) = 0
    · have e : halfLengthR F c (some d) = some 0 := by simp [halfLengthR, maxVelR, hl]
      rw [e]
      have hh : c.hi = c.lo := by
        have e := F.err (c.hi - c.lo)
        rw [hl, zero_sub, abs_neg] at e
        by_contra hne
        have hp : 0 < |c.hi - c.lo| := abs_pos.2 (sub_ne_zero.2 hne)
        have := mul_lt_mul_of_pos_right hc.lt hp
        linarith
      have ht : t = c.lo := by linarith
      subst ht
      refine ⟨Or.inr (fin_le.2 ?_), Or.inr (fin_le.2 ?_)⟩
      · rw [sub_zero, hc.lo]
      · rw [add_zero, hc.lo, hh]
    · by_cases hv : c.vel (some c.lo) (some c.hi) = 0
      · have e : halfLengthR F c (some d) = none := by simp [halfLengthR, maxVelR, hl, hv]
        rw [e]
        exact hinf
      · have e : halfLengthR F c (some d) = some (F.rnd (F.rnd (d / c.vel (some c.lo) (some c.hi)) + F.rnd (F.rnd (2 * c.tol) / c.vel (some c.lo) (some c.hi)))) := by
          simp [halfLengthR, maxVelR, hl, hv]
        rw [e]
        have hv0 : 0 < c.vel (some c.lo) (some c.hi) := lt_of_le_of_ne (hc.ok.nonneg _ _) (Ne.symm hv)
        have hlow := half_low F hc.lt hv0 hc.vel hc.d0 hdm hc.tol0 hc.tol
        generalize F.rnd (F.rnd (d / c.vel (some c.lo) (some c.hi)) + F.rnd (F.rnd (2 * c.tol) / c.vel (some c.lo) (some c.hi))) = h at hlow ⊢
        have hm1 := hc.mlo; have hm2 := hc.mhi
        have huM : 0 ≤ F.u * M := mul_nonneg F.u0 hM
        have hh : 0 ≤ h := by unfold advance at ha; linarith
        have hadv : advance F V dmin tol M ≤ h - F.u * M := by unfold advance; linarith
        constructor
        · rcases le_total (-M) (t - h) with h1 | h1
          · left
            have e1 := (abs_le.1 (F.err (t - h))).2
            have e2 := mul_le_mul_of_nonneg_left (abs_le.2 ⟨h1, by linarith⟩ : |t - h| ≤ M) F.u0
            exact fin_le.2 (by linarith)
          · right
            have := F.mono (show t - h ≤ c.lo by linarith)
            rw [hc.lo] at this
            exact fin_le.2 this
        · rcases le_total (t + h) M with h1 | h1
          · left
            have e1 := (abs_le.1 (F.err (t + h))).1
            have e2 := mul_le_mul_of_nonneg_left (abs_le.2 ⟨by linarith, h1⟩ : |t + h| ≤ M) F.u0
            exact fin_le.2 (by linarith)
          · right
            have := F.mono (show c.hi ≤ t + h by linarith)
            rw [hc.hi] at this
            exact fin_le.2 this

theorem validatePairR_wide {F : Fl K} {V dmin tol M : K} {c : PairCfg K} (hc : TermR F V dmin tol M c) (ha : 0 < advance F V dmin tol M) {s : PairSt K} {t : K} (ht1 : c.lo ≤ t) (ht2 : t ≤ c.hi)
    {I J : EB K × EB K} {s' : PairSt K} (hI : Wide c.lo c.hi t (advance F V dmin tol M) I) (h : validatePairR F c s t I = some (J, s')) :
    Wide c.lo c.hi t (advance F V dmin tol M) J := by
  unfold validatePairR at h
  cases hv : s.valid with
  | true =>
    simp [hv] at h
    obtain ⟨rfl, rfl⟩ := h
    exact ⟨Or.inr le_rfl, Or.inr le_rfl⟩
  | false =>
    simp only [hv, Bool.false_eq_true, if_false] at h
    by_cases hcont : containsInterval I.1 I.2 s.ivs = true
    · rw [if_pos hcont] at h
      simp at h
      obtain ⟨rfl, rfl⟩ := h
      exact hI
    · rw [if_neg hcont] at h
      cases hd : computeDistanceLowerBound c t with
      | none => rw [hd] at h; simp at h
      | some r =>
        rw [hd] at h
        simp at h
        obtain ⟨rfl, rfl⟩ := h
        exact centeredR_wide hc ha ht1 ht2 hd

/-- Constant part of the pairs. -/
def TermInvR (F : Fl K) (V dmin tol M lo hi : K) (vs : List (PairCfg K × PairSt K)) : Prop :=
  ∀ v ∈ vs, TermR F V dmin tol M v.1 ∧ v.1.lo = lo ∧ v.1.hi = hi

theorem cvQueryR_wide {F : Fl K} (evalOk : K → Bool) {V dmin tol M lo hi : K} (ha : 0 < advance F V dmin tol M) {vs vs' : List (PairCfg K × PairSt K)}
    (hvs : TermInvR F V dmin tol M lo hi vs) {t : K} (ht1 : lo ≤ t) (ht2 : t ≤ hi) {I : K × K} (h : cvQueryR F evalOk lo hi vs t = some (I, vs')) :
    TermInvR F V dmin tol M lo hi vs' ∧ (I.1 ≤ t - advance F V dmin tol M ∨ I.1 ≤ lo) ∧ (t + advance F V dmin tol M ≤ I.2 ∨ hi ≤ I.2) ∧ I.1 ≤ t ∧ t ≤ I.2 := by
  unfold cvQueryR at h
  split at h
  · unfold validateConfiguration at h
    cases hr : validateIntervals (fun v t I => (validatePairR F v.1 v.2 t I).map (fun r => (r.1, (v.1, r.2)))) t 0 0 vs (⊥, ⊤) with
    | none => rw [hr] at h; simp at h
    | some z =>
      obtain ⟨R, vs1, m⟩ := z
      rw [hr] at h
      simp at h
      obtain ⟨rfl, rfl⟩ := h
      obtain ⟨h1, -, -, h4⟩ := validateIntervals_inv _ t
        (fun v : PairCfg K × PairSt K => TermR F V dmin tol M v.1 ∧ v.1.lo = lo ∧ v.1.hi = hi) (fun I => Wide lo hi t (advance F V dmin tol M) I)
        (fun _ _ => True) _ Prod.fst (fun I J h1 h2 => Wide.inter I J h1 h2 ht1 ht2) (by
          intro v A J v' hv hA hval
          simp only [Option.map_eq_some_iff] at hval
          obtain ⟨r, hr, he⟩ := hval
          simp only [Prod.mk.injEq] at he
          obtain ⟨rfl, rfl⟩ := he
          obtain ⟨e1, e2, e3⟩ := hv
          refine ⟨⟨e1, e2, e3⟩, ?_, rfl, fun _ _ => trivial⟩
          have := validatePairR_wide e1 ha (s := v.2) (t := t) (by rw [e2]; exact ht1) (by rw [e3]; exact ht2) (by rw [e2, e3]; exact hA) hr
          rwa [e2, e3] at this) 0 0 vs (⊥, ⊤) R vs1 m (by simp [Wide]) hvs hr
      have hp := swapFront_perm vs1 m
      have hL : toK lo R.1 ≤ t - advance F V dmin tol M ∨ toK lo R.1 ≤ lo := by
        rcases h1.1 with k | k
        · rcases le_total lo (t - advance F V dmin tol M) with h5 | h5
          · exact Or.inl (toK_lower_le h5 k)
          · exact Or.inr (toK_lower_le le_rfl (le_trans k (fin_le.2 h5)))
        · exact Or.inr (toK_lower_le le_rfl k)
      have hU : t + advance F V dmin tol M ≤ toK hi R.2 ∨ hi ≤ toK hi R.2 := by
        rcases h1.2 with k | k
        · rcases le_total (t + advance F V dmin tol M) hi with h5 | h5
          · exact Or.inl (toK_upper_le h5 k)
          · exact Or.inr (toK_upper_le le_rfl (le_trans (fin_le.2 h5) k))
        · exact Or.inr (toK_upper_le le_rfl k)
      refine ⟨fun v hv => (h4 v (hp.mem_iff.1 hv)).1, hL, hU, ?_, ?_⟩
      · rcases hL with k | k <;> simp only <;> linarith
      · rcases hU with k | k <;> simp only <;> linarith
  · simp at h

/-- C148, termination of `Progressive`: if the advance allowed by the tolerances and the lower bounds exceeds the rounding errors, it ends after at most `m + 2` evaluations,
where `m` advances are at least the length.  Without that condition it may run for ever: `C148_loop_counterexample`. -/
theorem C148_progressive_terminates_partial {F : Fl K} (O : Ops K C P) (evalOk : K → Bool) (rev : Bool) (fuel m : Nat) (p : P) (hp : O.lo p ≤ O.hi p)
    {cfgs : List (PairCfg K)} {V dmin tol M : K} (ha : 0 < ((1 - F.u) ^ 2 * dmin + (1 - F.u) ^ 3 * (2 * tol)) / V - F.u * M)
    (hc : ∀ c ∈ cfgs, TermR F V dmin tol M c ∧ c.lo = O.lo p ∧ c.hi = O.hi p)
    (hm : O.len p ≤ m * (((1 - F.u) ^ 2 * dmin + (1 - F.u) ^ 3 * (2 * tol)) / V - F.u * M)) (hfuel : m + 3 ≤ fuel) (hex : ∀ a b, ∃ q, O.extract p a b = .ok q) :
    ∃ v vp rep n, progressive O (cvQueryR F evalOk (O.lo p) (O.hi p)) (startPairs cfgs) rev fuel p = .ok (v, vp, rep, n) ∧ n ≤ m + 2 := by
  refine C31_terminates O _ _ rev fuel m p hp (advance F V dmin tol M) ha (TermInvR F V dmin tol M (O.lo p) (O.hi p)) ?_ ?_ hm hfuel hex
  · intro v hv
    simp [startPairs] at hv
    obtain ⟨c, hcm, rfl⟩ := hv
    exact hc c hcm
  · intro s t I s' hs h1 h2 h3
    obtain ⟨k1, k2, k3, -, -⟩ := cvQueryR_wide evalOk ha hs h1 h2 h3
    refine ⟨k1, ?_⟩
    split
    · exact k2
    · exact k3

/-- Points of `[a, b]` at pairwise distance at least `δ` are at most `(b - a) / δ + 1`. -/
theorem card_apart (δ a : K) (F : Finset K) : ∀ b, F.Nonempty → (∀ x ∈ F, a ≤ x ∧ x ≤ b) →
    (∀ x ∈ F, ∀ y ∈ F, x < y → δ ≤ y - x) → (F.card : K) * δ ≤ b - a + δ := by
  classical
  induction F using Finset.induction_on_max with
  | empty => intro b h; simp at h
  | insert M s hM ih =>
    intro b _ hin hsep
    have hMs : M ∉ s := fun h => lt_irrefl _ (hM M h)
    rw [Finset.card_insert_of_notMem hMs]
    have hMb := hin M (by simp)
    rcases s.eq_empty_or_nonempty with rfl | hne
    · simp; linarith [hMb.1, hMb.2]
    · have := ih (M - δ) hne ?_ ?_
      · push_cast
        linarith [hMb.2]
      · intro x hx
        refine ⟨(hin x (by simp [hx])).1, ?_⟩
        have := hsep x (by simp [hx]) M (by simp) (hM x hx)
        linarith
      · intro x hx y hy hxy
        exact hsep x (by simp [hx]) y (by simp [hy]) hxy

theorem dichoLoopR_bound {F : Fl K} (h2 : Scale2 F) (query : S → K → Option ((K × K) × S)) (rev : Bool) (a b δ : K) (ha : F.rnd a = a) (hb : F.rnd b = b) (hδ : 0 < δ)
    (Inv : S → Prop) (hq : ∀ s t I s', Inv s → F.rnd t = t → a ≤ t → t ≤ b → query s t = some (I, s') →
      Inv s' ∧ (I.1 ≤ t - δ ∨ I.1 ≤ a) ∧ (t + δ ≤ I.2 ∨ b ≤ I.2) ∧ I.1 ≤ t ∧ t ≤ I.2 ∧ F.rnd I.1 = I.1 ∧ F.rnd I.2 = I.2)
    (fuel : Nat) (s : S) (hs : Inv s) (t : K) (l : List (K × K)) (T : Finset K)
    (hi : DichoInvR F (fun _ => True) a b (start rev a b) t l)
    (hT : T = ∅ ∨ ∃ x y, x < y ∧ a ≤ x ∧ y ≤ b ∧ x ≤ t ∧ t ≤ y ∧ ∀ w, x < w → w < y → ¬ Covers l w)
    (hin : ∀ x ∈ T, a ≤ x ∧ x ≤ b) (hsep : ∀ x ∈ T, ∀ y ∈ T, x < y → δ ≤ y - x)
    (hcov : ∀ x ∈ T, ∀ u, a ≤ u → u ≤ b → |u - x| ≤ δ → Covers l u)
    (hfuel : b - a < (T.card + fuel - 1 : Nat) * δ) (hf0 : T = ∅ → 0 < fuel) :
    ∃ r, dichoLoopR F query rev (a, b) fuel s t l T.card = .ok r ∧ ((r.tests : K) - 1) * δ ≤ b - a := by
  classical
  induction fuel generalizing s t l T with
  | zero =>
    exfalso
    rcases T.eq_empty_or_nonempty with rfl | hne
    · simp at hf0
    · have := card_apart δ a T b hne hin hsep
      have h1 : 1 ≤ T.card := hne.card_pos
      rw [Nat.add_zero, Nat.cast_sub h1] at hfuel
      push_cast at hfuel
      linarith
  | succ fuel ih =>
    have hfar : ∀ x ∈ T, δ ≤ |t - x| := by
      intro z hz
      rcases hT with rfl | ⟨x, y, h1, h3, h4, h5, h6, h7⟩
      · simp at hz
      · by_contra h
        push Not at h
        rw [abs_lt] at h
        obtain ⟨w, w1, w2⟩ := exists_between (show max x (z - δ) < min y (z + δ) from
          max_lt (lt_min h1 (by linarith [h.2])) (lt_min (by linarith [h.1]) (by linarith)))
        rw [max_lt_iff] at w1
        rw [lt_min_iff] at w2
        exact h7 w w1.1 w2.1 (hcov z hz w (h3.trans w1.1.le) (w2.1.le.trans h4) (abs_le.2 ⟨by linarith, by linarith⟩))
    have htT : t ∉ T := by
      intro h
      have := hfar t h
      simp at this
      linarith
    have hcard : (insert t T).card = T.card + 1 := Finset.card_insert_of_notMem htT
    have hin' : ∀ x ∈ insert t T, a ≤ x ∧ x ≤ b := by
      intro x hx'
      rcases Finset.mem_insert.1 hx' with rfl | hx'
      · exact ⟨hi.t1, hi.t2⟩
      · exact hin x hx'
    have hsep' : ∀ x ∈ insert t T, ∀ y ∈ insert t T, x < y → δ ≤ y - x := by
      intro x hxm y hym hxy
      rcases Finset.mem_insert.1 hxm with rfl | hx' <;> rcases Finset.mem_insert.1 hym with rfl | hy'
      · exact absurd hxy (lt_irrefl _)
      · have := hfar y hy'
        rw [abs_of_neg (by linarith)] at this
        linarith
      · have := hfar x hx'
        rw [abs_of_pos (by linarith)] at this
        linarith
      · exact hsep x hx' y hy' hxy
    have hbound : ((T.card + 1 : Nat) : K) * δ ≤ b - a + δ := by
      rw [← hcard]
      exact card_apart δ a _ b ⟨t, by simp⟩ hin' hsep'
    unfold dichoLoopR
    cases hqt : query s t with
    | none =>
      refine ⟨_, rfl, ?_⟩
      simp only
      push_cast at hbound ⊢
      linarith
    | some y =>
      obtain ⟨I, s'⟩ := y
      simp only
      obtain ⟨k0, k1, k2, k3, k4, k5, k6⟩ := hq s t I s' hs hi.trep hi.t1 hi.t2 hqt
      obtain ⟨u1, u2, u3, u4, u5⟩ := unionInterval_invR hi k3 k4 ⟨k5, k6⟩ (fun _ _ _ _ _ => trivial)
      obtain ⟨-, -, s3⟩ := unionInterval_spec I.1 I.2 (le_trans k3 k4) l hi.sep
      by_cases hc : containsInterval a b (unionInterval I.1 I.2 l) = true
      · rw [if_pos hc]
        refine ⟨_, rfl, ?_⟩
        simp only
        push_cast at hbound ⊢
        linarith
      · rw [if_neg hc]
        obtain ⟨t', n1, n2, n3, -⟩ := next_inv h2 rev ha hb u1 u2 u3 u4 u5 hc
        rw [n1]
        simp only [bind, Except.bind]
        have := ih s' k0 t' _ (insert t T) n2 (Or.inr n3) hin' hsep' ?_ ?_ (by simp)
        · rwa [hcard] at this
        · intro x hx' u hu1 hu2 hux
          rcases Finset.mem_insert.1 hx' with rfl | hx'
          · refine (s3 u).2 (Or.inl ?_)
            rw [abs_le] at hux
            constructor
            · rcases k1 with k1 | k1
              · linarith
              · exact le_trans k1 hu1
            · rcases k2 with k2 | k2
              · linarith
              · exact le_trans hu2 k2
          · exact (s3 u).2 (Or.inr (hcov x hx' u hu1 hu2 hux))
        · rw [hcard]
          have : T.card + 1 + fuel - 1 = T.card + (fuel + 1) - 1 := by omega
          rw [this]; exact hfuel

/-- C148, termination of `Dichotomy` under the same condition, with `n` evaluations such that `n - 1` advances are at most the length. -/
theorem C148_dichotomy_terminates_partial {F : Fl K} (h2 : Scale2 F) (O : Ops K C P) (evalOk : K → Bool) (rev : Bool) (fuel : Nat) (p : P) (hp : O.lo p ≤ O.hi p)
    (hlo : F.rnd (O.lo p) = O.lo p) (hhi : F.rnd (O.hi p) = O.hi p)
    {cfgs : List (PairCfg K)} {V dmin tol M B : K} (ha : 0 < ((1 - F.u) ^ 2 * dmin + (1 - F.u) ^ 3 * (2 * tol)) / V - F.u * M)
    (hc : ∀ c ∈ cfgs, TermR F V dmin tol M c ∧ c.lo = O.lo p ∧ c.hi = O.hi p) (hc' : PairsR F B M (O.lo p) (O.hi p) cfgs)
    (hfuel : O.len p < fuel * (((1 - F.u) ^ 2 * dmin + (1 - F.u) ^ 3 * (2 * tol)) / V - F.u * M)) (hex : ∀ a b, ∃ q, O.extract p a b = .ok q) :
    ∃ v vp rep n, dichotomyR F O (cvQueryR F evalOk (O.lo p) (O.hi p)) (startPairs cfgs) rev (fuel + 1) p = .ok (v, vp, rep, n) ∧
      ((n : K) - 1) * (((1 - F.u) ^ 2 * dmin + (1 - F.u) ^ 3 * (2 * tol)) / V - F.u * M) ≤ O.len p := by
  obtain ⟨r, hr, hn⟩ := dichoLoopR_bound h2 (cvQueryR F evalOk (O.lo p) (O.hi p)) rev (O.lo p) (O.hi p) (advance F V dmin tol M) hlo hhi ha
    (fun vs => TermInvR F V dmin tol M (O.lo p) (O.hi p) vs ∧ ListInvR F B M (O.lo p) (O.hi p) cfgs vs) (by
      rintro s t I s' ⟨h0, h0'⟩ hr h1 h2 h3
      obtain ⟨k1, k2, k3, k4, k5⟩ := cvQueryR_wide evalOk ha h0 h1 h2 h3
      obtain ⟨l1, -, -, ⟨l2, l3⟩, -⟩ := cvQueryR_ok evalOk hlo hhi h0' hr h1 h2 h3
      exact ⟨⟨k1, l1⟩, k2, k3, k4, k5, l2, l3⟩) (fuel + 1) (startPairs cfgs) ⟨by
        intro v hv
        simp [startPairs] at hv
        obtain ⟨c, hcm, rfl⟩ := hv
        exact hc c hcm, startPairs_invR hc'⟩ _ _ ∅
    (DichoInvR.init (fun _ => True) rev hp hlo hhi) (Or.inl rfl) (by simp) (by simp) (by simp) (by simpa [Ops.len, advance] using hfuel) (by simp)
  rw [Finset.card_empty] at hr
  simp only [dichotomyR, ifirst_start, hr, bind, Except.bind]
  cases hv : r.valid with
  | true => exact ⟨_, _, _, _, rfl, hn⟩
  | false =>
    simp only [Bool.false_eq_true, if_false]
    obtain ⟨tf, -, hI, -, -⟩ := (dichoLoopR_spec h2 _ rev _ _ hlo hhi _ _ (cvQueryR_query evalOk hlo hhi cfgs) (fuel + 1) _ _ _ 0 r (startPairs_invR hc')
      (DichoInvR.init _ rev hp hlo hhi) (Or.inl ⟨rfl, init_covers _ _ _⟩) hr).2 hv
    cases rev with
    | false =>
      obtain ⟨i, rest, hl', -, -⟩ := begin_fwd hI.sep (by simpa [start] using hI.cov) hI.bnd
      obtain ⟨q, hq⟩ := hex (O.lo p) i.2
      simp only [ordered, Bool.false_eq_true, if_false, hl', hq]
      exact ⟨_, _, _, _, rfl, hn⟩
    | true =>
      obtain ⟨i, rest, hl', -, -⟩ := begin_rev hI.sep (by simpa [start] using hI.cov) hI.bnd
      obtain ⟨q, hq⟩ := hex i.1 (O.hi p)
      simp only [ordered, if_true, hl', hq]
      exact ⟨_, _, _, _, rfl, hn⟩

/-! ## Examples and counterexamples -/

/-- Distance `1 - 5 t` with velocity bound 5 along a straight path on `[0, hi]`. -/
def exFive (tol hi : ℚ) : PairCfg ℚ := ⟨[⟨fun t => if 0 < 1 - 5 * t then some (1 - 5 * t) else none, fun t => 1 - 5 * t⟩], fun _ _ => 5, tol, 0, hi, true⟩

theorem exFive_ok {tol hi : ℚ} (h : 0 ≤ tol) (hh : 0 ≤ hi) (hr : double.rnd hi = hi) (hm : hi ≤ 1) : CfgR double 1 1 (exFive tol hi) where
  ok := {
    le := hh
    tol := h
    lower := by
      intro o ho t d hd
      simp only [exFive, List.mem_singleton] at ho
      subst ho
      simp only at hd
      split at hd
      · rename_i h3
        obtain rfl := Option.some.inj hd
        exact ⟨h3, le_rfl⟩
      · simp at hd
    lip := by
      intro o ho tm tM u v _ _ _ _ _ _
      simp only [exFive, List.mem_singleton] at ho
      subst ho
      simp only [exFive]
      rw [show (1 - 5 * u - (1 - 5 * v)) = -(5 * (u - v)) by ring, abs_neg, abs_mul]
      norm_num
    nonneg := fun _ _ => by simp [exFive]
    mono := fun _ _ _ _ _ => le_rfl }
  straight := rfl
  lt := by decide +kernel
  b0 := by norm_num
  dist := by
    intro o ho t ht _
    simp only [exFive, List.mem_singleton] at ho ht
    subst ho
    simp only
    linarith
  lo := double.zero
  hi := hr
  mlo := by norm_num [exFive]
  mhi := hm

/-- The number nearest to `1/5`. -/
def fifth : ℚ := 3602879701896397 / 18014398509481984

example : double.rnd (1 / 5) = fifth := by decide +kernel

/-- A path accepted with tolerance `1/100`, with the assumptions of `C148_progressive_partial`. -/
example : PairsR double 1 1 (Validation.exOps.lo (0, 1 / 8)) (Validation.exOps.hi (0, 1 / 8)) [exFive (1 / 100) (1 / 8)] := by
  intro c hc
  rw [List.mem_singleton.1 hc]
  exact ⟨exFive_ok (by norm_num) (by norm_num) (by decide +kernel) (by norm_num), rfl, rfl⟩
example : (progressive Validation.exOps (cvQueryR double (fun _ => true) 0 (1 / 8)) (startPairs [exFive (1 / 100) (1 / 8)]) false 20 (0, 1 / 8)).toOption.map (·.1) = some true := by
  decide +kernel
example : (dichotomyR double Validation.exOps (cvQueryR double (fun _ => true) 0 (1 / 4)) (startPairs [exFive 0 (1 / 4)]) true 20 (0, 1 / 4)).toOption.map
    (fun r => (r.1, r.2.2.1)) = some (false, some (1 / 4)) := by decide +kernel
example : (dichotomyR double Validation.exOps (cvQueryR double (fun _ => true) 0 (1 / 4)) (startPairs [exFive 0 (1 / 4)]) false 20 (0, 1 / 4)).toOption.map
    (fun r => (r.1, r.2.2.1)) = some (false, some (8106479329266893 / 36028797018963968)) := by decide +kernel

/-- The assumptions of termination. -/
example : TermR double 5 0 (1 / 100) 1 (exFive (1 / 100) (1 / 8)) :=
  ⟨(exFive_ok (by norm_num) (by norm_num) (by decide +kernel) (by norm_num)).ok, rfl, by decide +kernel, double.zero, by decide +kernel, by norm_num [exFive], by norm_num [exFive],
    le_rfl, by norm_num, by norm_num, le_rfl, le_rfl, fun o ho t d hd =>
      ((exFive_ok (tol := 1 / 100) (hi := 1 / 8) (by norm_num) (by norm_num) (by decide +kernel) (by norm_num)).ok.lower o ho t d hd).1.le⟩
example : 0 < advance double 5 0 (1 / 100) 1 := by decide +kernel

/-- The double nearest to `1/5` is greater than `1/5`: the dichotomy, whose tolerance is 0, accepts a path at the end of which the objects penetrate. -/
theorem C148_penetration_counterexample :
    PairsR double 1 1 0 fifth [exFive 0 fifth] ∧
    (dichotomyR double Validation.exOps (cvQueryR double (fun _ => true) 0 fifth) (startPairs [exFive 0 fifth]) false 20 (0, fifth)).toOption.map (·.1) = some true ∧
    ∃ o ∈ (exFive 0 fifth).objs, o.dist fifth < -(2 * (exFive 0 fifth).tol) := by
  refine ⟨?_, by decide +kernel, ?_⟩
  · intro c hc
    simp at hc
    subst hc
    exact ⟨exFive_ok (by norm_num) (by norm_num [fifth]) (by decide +kernel) (by norm_num [fifth]), rfl, rfl⟩
  · refine ⟨_, List.mem_singleton.2 rfl, ?_⟩
    norm_num [exFive, fifth]

/-- Two bodies sliding at distance `2⁻⁶⁰` along a straight path on `[1, 2]`, with velocity bound 1. -/
def exSlide (tol : ℚ) : PairCfg ℚ := ⟨[⟨fun _ => some (1 / 2 ^ 60), fun _ => 1 / 2 ^ 60⟩], fun _ _ => 1, tol, 1, 2, true⟩

theorem exSlide_ok {tol : ℚ} (h : 0 ≤ tol) : CfgR double 1 2 (exSlide tol) where
  ok := {
    le := by norm_num [exSlide]
    tol := h
    lower := by
      intro o ho t d hd
      simp only [exSlide, List.mem_singleton] at ho
      subst ho
      obtain rfl := Option.some.inj hd
      exact ⟨by norm_num, le_rfl⟩
    lip := by
      intro o ho tm tM u v _ _ _ _ _ _
      simp only [exSlide, List.mem_singleton] at ho
      subst ho
      simp [exSlide]
    nonneg := fun _ _ => by simp [exSlide]
    mono := fun _ _ _ _ _ => le_rfl }
  straight := rfl
  lt := by decide +kernel
  b0 := by norm_num
  dist := by
    intro o ho t _ _
    simp only [exSlide, List.mem_singleton] at ho
    subst ho
    norm_num
  lo := double_one
  hi := show double.rnd 2 = 2 by decide +kernel
  mlo := by norm_num [exSlide]
  mhi := by norm_num [exSlide]

/-- Around a double of `[1, 2]`, a move of at most `2⁻⁵⁹` is lost. -/
theorem double_lost {x h : ℚ} (h1 : 1 ≤ x) (h2 : x ≤ 2) (hr : double.rnd x = x) (h0 : 0 < h) (hh : h ≤ 1 / 2 ^ 59) : double.rnd (x - h) = x ∧ double.rnd (x + h) = x := by
  rcases h2.lt_or_eq with h2 | rfl
  · have hu : ulp 53 x = 2 ^ (-52 : ℤ) := by rw [ulp, log_eq (e := 0) (by simpa using h1) (by norm_num; exact h2)]; norm_num
    have hm : x = (⌊x / ulp 53 x + 1 / 2⌋ : ℤ) * (2 : ℚ) ^ ((0 : ℤ) - 52) := by
      have : double.rnd x = ⌊x / ulp 53 x + 1 / 2⌋ * ulp 53 x := by
        show binRnd 53 x = _
        rw [binRnd, if_pos (by linarith)]
        rfl
      rw [hr, hu] at this
      rw [hu]
      exact this
    generalize ⌊x / ulp 53 x + 1 / 2⌋ = m at hm
    have hmx : (m : ℚ) = x * 2 ^ 52 := by
      rw [hm]; norm_num; ring
    constructor
    · rcases h1.lt_or_eq with h1 | rfl
      · have hm1 : (2 ^ 52 + 1 : ℤ) ≤ m := by
          have : ((2 ^ 52 : ℤ) : ℚ) < m := by rw [hmx]; push_cast; linarith
          have : (2 ^ 52 : ℤ) < m := by exact_mod_cast this
          omega
        have hm2 : ((2 ^ 52 + 1 : ℤ) : ℚ) ≤ m := by exact_mod_cast hm1
        rw [hmx] at hm2
        push_cast at hm2
        refine double_of (e := 0) (m := m) ?_ ?_ ?_ ?_ hm
        · norm_num at *; linarith
        · norm_num; linarith
        · rw [hmx]; norm_num at *; linarith
        · rw [hmx]; norm_num at *; linarith
      · refine double_of (e := -1) (m := 2 ^ 53) ?_ ?_ ?_ ?_ (by norm_num)
        · norm_num at *; linarith
        · norm_num; linarith
        · norm_num at *; linarith
        · norm_num at *; linarith
    · have hm1 : m ≤ (2 ^ 53 - 1 : ℤ) := by
        have : (m : ℚ) < ((2 ^ 53 : ℤ) : ℚ) := by rw [hmx]; push_cast; linarith
        have : m < (2 ^ 53 : ℤ) := by exact_mod_cast this
        omega
      have hm2 : (m : ℚ) ≤ ((2 ^ 53 - 1 : ℤ) : ℚ) := by exact_mod_cast hm1
      rw [hmx] at hm2
      push_cast at hm2
      refine double_of (e := 0) (m := m) ?_ ?_ ?_ ?_ hm
      · norm_num at *; linarith
      · norm_num at *; linarith
      · rw [hmx]; norm_num at *; linarith
      · rw [hmx]; norm_num at *; linarith
  · constructor
    · refine double_of (e := 0) (m := 2 ^ 53) ?_ ?_ ?_ ?_ (by norm_num) <;> norm_num at * <;> linarith
    · refine double_of (e := 1) (m := 2 ^ 52) ?_ ?_ ?_ ?_ (by norm_num) <;> norm_num at * <;> linarith

/-- The memory of the pair only holds doubles. -/
structure SlideInv (s : PairSt ℚ) : Prop where
  valid : s.valid = false
  sep : Separated s.ivs
  cov : ∀ u : ℚ, Covers s.ivs (fin u) → double.rnd u = u

theorem not_double : ¬ double.rnd (1 + 1 / 2 ^ 60) = 1 + 1 / 2 ^ 60 := by rw [double_sum]; norm_num

/-- Each answer is reduced to the parameter tested. -/
theorem slide_query {tol h : ℚ} (hh : halfLengthR double (exSlide tol) (some (1 / 2 ^ 60)) = some h) (h0 : 0 < h) (h1 : h ≤ 1 / 2 ^ 59) {s : PairSt ℚ} (hs : SlideInv s) {t : ℚ}
    (ht1 : 1 ≤ t) (ht2 : t ≤ 2) (hr : double.rnd t = t) :
    ∃ s', SlideInv s' ∧ cvQueryR double (fun _ => true) 1 2 [(exSlide tol, s)] t = some ((t, t), [(exSlide tol, s')]) := by
  have hd : computeDistanceLowerBound (exSlide tol) t = some (some (1 / 2 ^ 60)) := by simp [computeDistanceLowerBound, exSlide, lowerBoundLoop]
  have hJ : centeredR double t (halfLengthR double (exSlide tol) (some (1 / 2 ^ 60))) = (fin t, fin t) := by
    obtain ⟨e1, e2⟩ := double_lost ht1 ht2 hr h0 h1
    rw [hh, centeredR, e1, e2]
  obtain ⟨s1, -, s3⟩ := unionInterval_spec (fin t) (fin t) le_rfl s.ivs hs.sep
  have hcov : ∀ u : ℚ, Covers (unionInterval (fin t) (fin t) s.ivs) (fin u) → double.rnd u = u := by
    intro u hu
    rcases (s3 _).1 hu with ⟨h1, h2⟩ | hu
    · have : u = t := le_antisymm (fin_le.1 h2) (fin_le.1 h1)
      rw [this]; exact hr
    · exact hs.cov u hu
  have hn1 : containsInterval (⊥ : EB ℚ) ⊤ s.ivs = false := by
    rw [Bool.eq_false_iff]
    intro h
    obtain ⟨i, hi, i1, i2⟩ := (containsInterval_iff _ _ _).1 h
    exact not_double (hs.cov _ ⟨i, hi, i1.trans bot_le, le_top.trans i2⟩)
  have hn2 : containsInterval (fin (exSlide tol).lo) (fin (exSlide tol).hi) (unionInterval (fin t) (fin t) s.ivs) = false := by
    rw [Bool.eq_false_iff]
    intro h
    obtain ⟨i, hi, i1, i2⟩ := (containsInterval_iff _ _ _).1 h
    exact not_double (hcov _ ⟨i, hi, i1.trans (fin_le.2 (by norm_num [exSlide])), (fin_le.2 (by norm_num [exSlide])).trans i2⟩)
  refine ⟨⟨false, unionInterval (fin t) (fin t) s.ivs⟩, ⟨rfl, s1, hcov⟩, ?_⟩
  have hv : validatePairR double (exSlide tol) s t (⊥, ⊤) = some ((fin t, fin t), ⟨false, unionInterval (fin t) (fin t) s.ivs⟩) := by
    simp only [validatePairR, hs.valid, Bool.false_eq_true, if_false, hn1, hd, hJ, hn2]
  simp only [cvQueryR, if_true, validateConfiguration, validateIntervals, hv, Option.map_some]
  simp only [ite_self]
  simp [swapFront, toK, fin]

theorem slide_start (tol : ℚ) : startPairs [exSlide tol] = [(exSlide tol, setPath)] := rfl

theorem slide_init : SlideInv (setPath : PairSt ℚ) := ⟨rfl, ⟨by simp [setPath], by simp [setPath]⟩, fun u h => by obtain ⟨i, hi, -⟩ := h; simp [setPath] at hi⟩

/-- In double precision, when the bodies are so close that the certified intervals are below the precision of the parameters, both loops run for ever: the dichotomy with
tolerance 0 and the progressive validation with tolerance `2⁻⁶¹`, although the objects never touch. -/
theorem C148_loop_counterexample :
    PairsR double 1 2 1 2 [exSlide 0] ∧ PairsR double 1 2 1 2 [exSlide (1 / 2 ^ 61)] ∧
    (∀ fuel, dichotomyR double Validation.exOps (cvQueryR double (fun _ => true) 1 2) (startPairs [exSlide 0]) false fuel (1, 2) = .error .outOfFuel) ∧
    ∀ fuel, progressive Validation.exOps (cvQueryR double (fun _ => true) 1 2) (startPairs [exSlide (1 / 2 ^ 61)]) false fuel (1, 2) = .error .outOfFuel := by
  have r1 : double.rnd 1 = 1 := double_one
  have r2 : double.rnd 2 = 2 := by decide +kernel
  refine ⟨?_, ?_, ?_, ?_⟩
  · intro c hc
    simp at hc
    subst hc
    exact ⟨exSlide_ok le_rfl, rfl, rfl⟩
  · intro c hc
    simp at hc
    subst hc
    exact ⟨exSlide_ok (by norm_num), rfl, rfl⟩
  · have hh : halfLengthR double (exSlide 0) (some (1 / 2 ^ 60)) = some (1 / 2 ^ 60) := by decide +kernel
    have key : ∀ fuel s (t : ℚ) l n, SlideInv s → DichoInvR double (fun u => double.rnd u = u) 1 2 (start false 1 2) t l →
        dichoLoopR double (cvQueryR double (fun _ => true) 1 2) false (1, 2) fuel [(exSlide 0, s)] t l n = .error .outOfFuel := by
      intro fuel
      induction fuel with
      | zero => intros; rfl
      | succ fuel ih =>
        intro s t l n hs hi
        obtain ⟨s', hs', hq⟩ := slide_query hh (by norm_num) (by norm_num) hs hi.t1 hi.t2 hi.trep
        obtain ⟨u1, u2, u3, u4, u5⟩ := unionInterval_invR (I := (t, t)) hi le_rfl le_rfl ⟨hi.trep, hi.trep⟩ (by
          intro u a1 a2 _ _
          rw [le_antisymm a2 a1]; exact hi.trep)
        have hc : ¬ containsInterval 1 2 (unionInterval t t l) = true := by
          intro h
          obtain ⟨i, hi', i1, i2⟩ := (containsInterval_iff _ _ _).1 h
          exact not_double (u5 _ (by norm_num) (by norm_num) ⟨i, hi', i1.trans (by norm_num), le_trans (by norm_num) i2⟩)
        obtain ⟨t', n1, n2, -, -⟩ := next_inv (binary_scale2 53 (by norm_num)) false r1 r2 u1 u2 u3 u4 u5 hc
        rw [dichoLoopR, hq]
        simp only
        rw [if_neg hc]
        have n1' : nextParamR double false (1, 2) (unionInterval t t l) = .ok t' := n1
        rw [n1']
        exact ih s' t' _ _ hs' n2
    intro fuel
    have hk := key fuel setPath (start false 1 2) _ 0 slide_init (DichoInvR.init _ false (by norm_num) r1 r2)
    simp only [dichotomyR, ifirst_start, slide_start, Validation.exOps]
    rw [hk]
    rfl
  · have hh : halfLengthR double (exSlide (1 / 2 ^ 61)) (some (1 / 2 ^ 60)) = some (1 / 2 ^ 59) := by decide +kernel
    have key : ∀ fuel s last n, SlideInv s →
        progLoop (cvQueryR double (fun _ => true) 1 2) false (2 : ℚ) fuel [(exSlide (1 / 2 ^ 61), s)] 1 last 0 n = .error .outOfFuel := by
      intro fuel
      induction fuel with
      | zero => intros; rfl
      | succ fuel ih =>
        intro s last n hs
        obtain ⟨s', hs', hq⟩ := slide_query hh (by norm_num) (by norm_num) hs le_rfl (by norm_num) r1
        rw [progLoop, hq]
        simp only [isecond, ifirst, reached, Bool.not_false, if_true, Bool.false_eq_true, if_false]
        rw [if_pos (by norm_num), if_neg (by norm_num)]
        exact ih s' _ _ hs'
    intro fuel
    simp only [progressive, ifirst, isecond, reached, Bool.not_false, if_true, Bool.false_eq_true, if_false, slide_start, Validation.exOps]
    rw [if_neg (by norm_num), key fuel setPath _ 0 slide_init]
    rfl

end Verif.Rounding
