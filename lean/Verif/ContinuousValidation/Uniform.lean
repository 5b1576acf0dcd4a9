import Verif.ContinuousValidation.BodyPairs
set_option linter.unusedSectionVars false

/-!
# Continuous validation of motions with a velocity bound that is never too small (C159)

`C34_pair_partial` has no positive tolerance on paths whose velocity bound is refined, since the tolerance is divided by a velocity evaluated on a smaller interval than the one that is
certified (`C34_refine_counterexample`).  If the velocity bound of every interval, however small, is at least the speed of the whole motion (a motion of constant speed), the
refinement is right for all tolerances.  Monotonicity of the bound is not needed.
-/
namespace Verif.CV
open Verif.PathV (Ops Err)
open Verif.Intervals

variable {K C P : Type} [Field K] [LinearOrder K] [IsStrictOrderedRing K]

/-- Assumptions on a pair: as `CfgOK`, with a velocity `V` that bounds the variation of distances on the whole path and that is at most the bound on any interval. -/
structure UniOK (c : PairCfg K) (V : K) : Prop where
  le : c.lo ≤ c.hi
  tol : 0 ≤ c.tol
  lower : ∀ o ∈ c.objs, ∀ t d, o.collide t = some d → 0 < d ∧ d ≤ o.dist t
  lip : ∀ o ∈ c.objs, ∀ u v, c.lo ≤ u → u ≤ c.hi → c.lo ≤ v → v ≤ c.hi → |o.dist u - o.dist v| ≤ V * |u - v|
  nonneg : 0 ≤ V
  under : ∀ tm tM, V ≤ c.vel tm tM

/-- With the constant velocity the usual assumptions hold. -/
theorem UniOK.const {c : PairCfg K} {V : K} (h : UniOK c V) : CfgOK { c with vel := fun _ _ => V } where
  le := h.le
  tol := h.tol
  lower := h.lower
  lip := fun o ho _ _ u v h1 h2 h3 h4 _ _ => h.lip o ho u v h1 h2 h3 h4
  nonneg := fun _ _ => h.nonneg
  mono := fun _ _ _ _ _ => le_rfl

/-- Whatever the refinement, the half length is the distance over a velocity bound of some interval. -/
theorem collisionFree_shape (c : PairCfg K) (t d : K) (tm tM : Option K) :
    (collisionFreeInterval c (c.vel tm tM) t d).1 = divI d (collisionFreeInterval c (c.vel tm tM) t d).2 ∧
    ∃ a b, (collisionFreeInterval c (c.vel tm tM) t d).2 = c.vel a b := by
  unfold collisionFreeInterval
  simp only
  split
  · exact ⟨rfl, _, _, rfl⟩
  · split
    · exact ⟨rfl, _, _, rfl⟩
    · exact ⟨rfl, _, _, rfl⟩

theorem uni_free {c : PairCfg K} {V : K} (hc : UniOK c V) (t : K) (ht1 : c.lo ≤ t) (ht2 : t ≤ c.hi)
    (r : Option K) (h : computeDistanceLowerBound c t = some r) (u : K) (hu1 : c.lo ≤ u) (hu2 : u ≤ c.hi)
    (hx : ∀ x ∈ halfLength c t r, |u - t| ≤ x) : PairFree c u := by
  obtain ⟨h1, h2⟩ := lowerBound_spec _ hc.const t r h
  have h1' : r = none → c.objs = [] := h1
  intro o ho
  cases r with
  | none => rw [h1' rfl] at ho; simp at ho
  | some d =>
    obtain ⟨hd, hdist⟩ := h2 d rfl
    have hdt : d ≤ o.dist t := hdist o ho
    unfold halfLength maximalVelocity at hx
    by_cases hz : c.hi - c.lo = 0
    · have : u = t := by linarith
      rw [this]
      linarith [hc.tol]
    · simp only [hz, if_false] at hx
      obtain ⟨k1, a, b, k2⟩ := collisionFree_shape c t d (some c.lo) (some c.hi)
      set R := collisionFreeInterval c (c.vel (some c.lo) (some c.hi)) t d
      have hVR : V ≤ R.2 := k2 ▸ hc.under a b
      have hl := (abs_le.1 (hc.lip o ho u t hu1 hu2 ht1 ht2)).1
      have hm : V * |u - t| ≤ R.2 * |u - t| := mul_le_mul_of_nonneg_right hVR (abs_nonneg _)
      by_cases hv : R.2 = 0
      · rw [hv, zero_mul] at hm
        linarith [hc.tol]
      · rw [if_neg hv, k1] at hx
        have hpos : 0 < R.2 := lt_of_le_of_ne (hc.nonneg.trans hVR) (Ne.symm hv)
        have hle := hx (d / R.2 + 2 * c.tol / R.2) (by simp [divI, hv])
        have hm' : R.2 * |u - t| ≤ R.2 * (d / R.2 + 2 * c.tol / R.2) := mul_le_mul_of_nonneg_left hle hpos.le
        have he : R.2 * (d / R.2 + 2 * c.tol / R.2) = d + 2 * c.tol := by field_simp
        linarith

theorem uni_wide {c : PairCfg K} {V : K} (hc : UniOK c V) (W δ : K) (hW : ∀ tm tM, c.vel tm tM ≤ W) (hδ : δ ≤ 2 * c.tol / W) (t : K)
    (r : Option K) (h : computeDistanceLowerBound c t = some r) :
    (∀ x ∈ halfLength c t r, 0 ≤ x) ∧ (c.hi - c.lo = 0 ∨ ∀ x ∈ halfLength c t r, δ ≤ x) := by
  obtain ⟨-, h2⟩ := lowerBound_spec _ hc.const t r h
  cases r with
  | none => simp [halfLength]
  | some d =>
    obtain ⟨hd, -⟩ := h2 d rfl
    unfold halfLength maximalVelocity
    by_cases hz : c.hi - c.lo = 0
    · simp [hz]
    · simp only [hz, if_false, false_or]
      obtain ⟨k1, a, b, k2⟩ := collisionFree_shape c t d (some c.lo) (some c.hi)
      set R := collisionFreeInterval c (c.vel (some c.lo) (some c.hi)) t d
      have hVR : V ≤ R.2 := k2 ▸ hc.under a b
      by_cases hv : R.2 = 0
      · simp [hv]
      · have hpos : 0 < R.2 := lt_of_le_of_ne (hc.nonneg.trans hVR) (Ne.symm hv)
        have hRW : R.2 ≤ W := k2 ▸ hW a b
        have e1 : 2 * c.tol / W ≤ 2 * c.tol / R.2 := div_le_div_of_nonneg_left (by linarith [hc.tol]) hpos hRW
        have e2 : 0 < d / R.2 := div_pos hd hpos
        have e3 : 0 ≤ 2 * c.tol / R.2 := div_nonneg (by linarith [hc.tol]) hpos.le
        rw [if_neg hv, k1]
        constructor <;>
        · intro x hx
          simp [divI, hv] at hx
          linarith

/-- C159: an interval certified by a pair contains the tested parameter, and at every parameter of it the penetration is at most twice the tolerance, also with refinement of the
velocity and a positive tolerance; the memory of the pair stays right. -/
theorem C159_pair (c : PairCfg K) (V : K) (hc : UniOK c V) (s : PairSt K) (hs : PairInv c s)
    (t : K) (ht1 : c.lo ≤ t) (ht2 : t ≤ c.hi) (I : EB K × EB K) (hI : I.1 ≤ fin t ∧ fin t ≤ I.2) (J : EB K × EB K) (s' : PairSt K)
    (h : validatePair c s t I = some (J, s')) :
    PairInv c s' ∧ (J.1 ≤ fin t ∧ fin t ≤ J.2) ∧
    ∀ u, J.1 ≤ fin u → fin u ≤ J.2 → c.lo ≤ u → u ≤ c.hi → PairFree c u := by
  unfold validatePair at h
  cases hv : s.valid with
  | true =>
    simp [hv] at h
    obtain ⟨rfl, rfl⟩ := h
    exact ⟨hs, by simp [ht1, ht2], fun u _ _ h1 h2 => hs.valid hv u h1 h2⟩
  | false =>
    simp only [hv, Bool.false_eq_true, if_false] at h
    by_cases hcont : containsInterval I.1 I.2 s.ivs = true
    · rw [if_pos hcont] at h
      simp at h
      obtain ⟨rfl, rfl⟩ := h
      refine ⟨hs, hI, ?_⟩
      intro u h1 h2 h3 h4
      obtain ⟨i, hi, hi1, hi2⟩ := (containsInterval_iff _ _ _).1 hcont
      exact hs.free u h3 h4 ⟨i, hi, le_trans hi1 h1, le_trans h2 hi2⟩
    · rw [if_neg hcont] at h
      cases hd : computeDistanceLowerBound c t with
      | none => rw [hd] at h; simp at h
      | some r =>
        rw [hd] at h
        simp at h
        obtain ⟨rfl, rfl⟩ := h
        have hfree : ∀ u, (centered t (halfLength c t r)).1 ≤ fin u → fin u ≤ (centered t (halfLength c t r)).2 → c.lo ≤ u → u ≤ c.hi →
            PairFree c u :=
          fun u h1 h2 h3 h4 => uni_free hc t ht1 ht2 r hd u h3 h4 ((centered_mem t u _).1 ⟨h1, h2⟩)
        have hmem : (centered t (halfLength c t r)).1 ≤ fin t ∧ fin t ≤ (centered t (halfLength c t r)).2 := by
          rw [centered_mem]
          intro x hx
          cases r with
          | none => simp [halfLength] at hx
          | some d =>
            obtain ⟨-, h2⟩ := lowerBound_spec _ hc.const t _ hd
            obtain ⟨hd0, -⟩ := h2 d rfl
            unfold halfLength maximalVelocity at hx
            by_cases hz : c.hi - c.lo = 0
            · simp [hz] at hx; simp [← hx]
            · simp only [hz, if_false] at hx
              obtain ⟨k1, a, b, k2⟩ := collisionFree_shape c t d (some c.lo) (some c.hi)
              have hVR : V ≤ (collisionFreeInterval c (c.vel (some c.lo) (some c.hi)) t d).2 := k2 ▸ hc.under a b
              by_cases hv' : (collisionFreeInterval c (c.vel (some c.lo) (some c.hi)) t d).2 = 0
              · simp [hv'] at hx
              · have hpos := lt_of_le_of_ne (hc.nonneg.trans hVR) (Ne.symm hv')
                rw [if_neg hv', k1] at hx
                simp [divI, hv'] at hx
                have e2 := div_pos hd0 hpos
                have e3 : 0 ≤ 2 * c.tol / (collisionFreeInterval c (c.vel (some c.lo) (some c.hi)) t d).2 := div_nonneg (by linarith [hc.tol]) hpos.le
                simp only [sub_self, abs_zero]
                linarith
        obtain ⟨s1, -, s3⟩ := unionInterval_spec _ _ (le_trans hmem.1 hmem.2) s.ivs hs.sep
        have hcov : ∀ u, c.lo ≤ u → u ≤ c.hi →
            Covers (unionInterval (centered t (halfLength c t r)).1 (centered t (halfLength c t r)).2 s.ivs) (fin u) → PairFree c u := by
          intro u h1 h2 h3
          rcases (s3 (fin u)).1 h3 with h3 | h3
          · exact hfree u h3.1 h3.2 h1 h2
          · exact hs.free u h1 h2 h3
        refine ⟨⟨s1, hcov, ?_⟩, hmem, hfree⟩
        intro hval u h1 h2
        obtain ⟨i, hi, hi1, hi2⟩ := (containsInterval_iff _ _ _).1 hval
        exact hcov u h1 h2 ⟨i, hi, le_trans hi1 (fin_le.2 h1), le_trans (fin_le.2 h2) hi2⟩

theorem uniPair_wide (c : PairCfg K) (V : K) (hc : UniOK c V) (W δ : K) (hW : ∀ tm tM, c.vel tm tM ≤ W) (hδ : δ ≤ 2 * c.tol / W)
    (s : PairSt K) (t : K) (ht1 : c.lo ≤ t) (ht2 : t ≤ c.hi) (I : EB K × EB K) (hI : Wide c.lo c.hi t δ I) (J : EB K × EB K) (s' : PairSt K)
    (h : validatePair c s t I = some (J, s')) : Wide c.lo c.hi t δ J := by
  unfold validatePair at h
  cases hv : s.valid with
  | true =>
    simp [hv] at h
    obtain ⟨rfl, rfl⟩ := h
    exact ⟨Or.inr le_rfl, Or.inr le_rfl⟩
  | false =>
    simp only [hv, Bool.false_eq_true, if_false] at h
    by_cases hcont : containsInterval I.1 I.2 s.ivs = true
    · rw [if_pos hcont] at h
      simp at h
      obtain ⟨rfl, rfl⟩ := h
      exact hI
    · rw [if_neg hcont] at h
      cases hd : computeDistanceLowerBound c t with
      | none => rw [hd] at h; simp at h
      | some r =>
        rw [hd] at h
        simp at h
        obtain ⟨rfl, rfl⟩ := h
        obtain ⟨w1, w2⟩ := uni_wide hc W δ hW hδ t r hd
        have hmem : (centered t (halfLength c t r)).1 ≤ fin t ∧ fin t ≤ (centered t (halfLength c t r)).2 := by
          rw [centered_mem]
          intro x hx
          simpa using w1 x hx
        rcases w2 with he | hw
        · refine ⟨Or.inr (le_trans hmem.1 (fin_le.2 (by linarith))), Or.inr (le_trans (fin_le.2 (by linarith)) hmem.2)⟩
        · cases hh : halfLength c t r with
          | none => simp [Wide, centered]
          | some x =>
            have := hw x (by rw [hh]; rfl)
            exact ⟨Or.inl (fin_le.2 (by linarith)), Or.inl (fin_le.2 (by linarith))⟩

/-! ## All the pairs -/

/-- A pair with its memory during the validation of a path defined on `[lo, hi]`. -/
structure UOK (lo hi W δ : K) (v : PairCfg K × PairSt K) : Prop where
  cfg : ∃ V, UniOK v.1 V
  lo : v.1.lo = lo
  hi : v.1.hi = hi
  top : ∀ tm tM, v.1.vel tm tM ≤ W
  tol : δ ≤ 2 * v.1.tol / W
  inv : PairInv v.1 v.2

def UniInv (lo hi W δ : K) (cfgs : List (PairCfg K)) (vs : List (PairCfg K × PairSt K)) : Prop :=
  (vs.map Prod.fst).Perm cfgs ∧ ∀ v ∈ vs, UOK lo hi W δ v

/-- Assumptions on the pairs for a path defined on `[lo, hi]`; `W`: velocities are bounded, `δ`: smallest step of the loops. -/
def UniPairs (lo hi W δ : K) (cfgs : List (PairCfg K)) : Prop :=
  ∀ c ∈ cfgs, (∃ V, UniOK c V) ∧ c.lo = lo ∧ c.hi = hi ∧ (∀ tm tM, c.vel tm tM ≤ W) ∧ δ ≤ 2 * c.tol / W

theorem uniStart (lo hi W δ : K) (cfgs : List (PairCfg K)) (h : UniPairs lo hi W δ cfgs) : UniInv lo hi W δ cfgs (startPairs cfgs) := by
  constructor
  · simp [startPairs, Function.comp_def]
  · intro v hv
    simp [startPairs] at hv
    obtain ⟨c, hc, rfl⟩ := hv
    obtain ⟨h1, h2, h3, h4, h5⟩ := h c hc
    exact ⟨h1, h2, h3, h4, h5, PairInv.init c⟩

/-- What a query of the loops answers. -/
theorem uniQuery (evalOk : K → Bool) (lo hi W δ : K) (cfgs : List (PairCfg K)) (vs : List (PairCfg K × PairSt K))
    (hvs : UniInv lo hi W δ cfgs vs) (t : K) (ht1 : lo ≤ t) (ht2 : t ≤ hi) (I : K × K) (vs' : List (PairCfg K × PairSt K))
    (h : cvQuery evalOk lo hi vs t = some (I, vs')) :
    UniInv lo hi W δ cfgs vs' ∧ I.1 ≤ t ∧ t ≤ I.2 ∧ (∀ u, I.1 ≤ u → u ≤ I.2 → lo ≤ u → u ≤ hi → ∀ c ∈ cfgs, PairFree c u) ∧
    (I.1 ≤ t - δ ∨ I.1 ≤ lo) ∧ (t + δ ≤ I.2 ∨ hi ≤ I.2) := by
  obtain ⟨hperm, hvs⟩ := hvs
  unfold cvQuery at h
  split at h
  · unfold validateConfiguration at h
    cases hr : validateIntervals (fun v t I => (validatePair v.1 v.2 t I).map (fun r => (r.1, (v.1, r.2)))) t 0 0 vs (⊥, ⊤) with
    | none => rw [hr] at h; simp at h
    | some z =>
      obtain ⟨R, vs1, m⟩ := z
      rw [hr] at h
      simp at h
      obtain ⟨rfl, rfl⟩ := h
      obtain ⟨⟨h1, hw⟩, h2, -, h4⟩ := validateIntervals_inv _ t (UOK lo hi W δ) (fun I => Mem I (fin t) ∧ Wide lo hi t δ I)
        (fun v u => lo ≤ u → u ≤ hi → PairFree v.1 u) _ Prod.fst
        (fun I J h1 h2 => ⟨(mem_inter I J _).2 ⟨h1.1, h2.1⟩, Wide.inter I J h1.2 h2.2 ht1 ht2⟩) (by
          intro v A J v' hv hA hval
          simp only [Option.map_eq_some_iff] at hval
          obtain ⟨r, hr, he⟩ := hval
          simp only [Prod.mk.injEq] at he
          obtain ⟨rfl, rfl⟩ := he
          obtain ⟨V, hV⟩ := hv.cfg
          obtain ⟨g1, g2, g3⟩ := C159_pair v.1 V hV v.2 hv.inv t (by rw [hv.lo]; exact ht1) (by rw [hv.hi]; exact ht2) A hA.1
            r.1 r.2 hr
          have g4 := uniPair_wide v.1 V hV W δ hv.top hv.tol v.2 t (by rw [hv.lo]; exact ht1) (by rw [hv.hi]; exact ht2) A
            (by rw [hv.lo, hv.hi]; exact hA.2) r.1 r.2 hr
          rw [hv.lo, hv.hi] at g4
          refine ⟨⟨hv.cfg, hv.lo, hv.hi, hv.top, hv.tol, g1⟩, ⟨g2, g4⟩, rfl, ?_⟩
          intro u hu hu1 hu2
          exact g3 u hu.1 hu.2 (by rw [hv.lo]; exact hu1) (by rw [hv.hi]; exact hu2)) 0 0 vs (⊥, ⊤) R vs1 m (by simp [Mem, Wide]) hvs hr
      have hp := swapFront_perm vs1 m
      refine ⟨⟨((hp.map Prod.fst).trans (by rw [h2])).trans hperm, fun v hv => (h4 v (hp.mem_iff.1 hv)).1⟩, ?_, ?_, ?_, ?_, ?_⟩
      · exact toK_lower_le ht1 h1.1
      · exact toK_upper_le ht2 h1.2
      · intro u hu1 hu2 hu3 hu4 c hc
        obtain ⟨v, hv, rfl⟩ := List.mem_map.1 (hperm.mem_iff.2 hc)
        have : v.1 ∈ vs1.map Prod.fst := by rw [h2]; exact List.mem_map.2 ⟨v, hv, rfl⟩
        obtain ⟨w, hw, hwe⟩ := List.mem_map.1 this
        rw [← hwe]
        exact (h4 w hw).2 u ⟨toK_lower h1.1 hu1, toK_upper h1.2 hu2⟩ hu3 hu4
      · rcases hw.1 with k | k
        · rcases le_total lo (t - δ) with h5 | h5
          · exact Or.inl (toK_lower_le h5 k)
          · exact Or.inr (toK_lower_le le_rfl (le_trans k (fin_le.2 h5)))
        · exact Or.inr (toK_lower_le le_rfl k)
      · rcases hw.2 with k | k
        · rcases le_total (t + δ) hi with h5 | h5
          · exact Or.inl (toK_upper_le h5 k)
          · exact Or.inr (toK_upper_le le_rfl (le_trans (fin_le.2 h5) k))
        · exact Or.inr (toK_upper_le le_rfl k)
  · simp at h

theorem uniQueryOK (evalOk : K → Bool) (lo hi W δ : K) (cfgs : List (PairCfg K)) :
    QueryOK (cvQuery evalOk lo hi) lo hi (UniInv lo hi W δ cfgs) (fun u => ∀ c ∈ cfgs, PairFree c u) := by
  constructor
  intro vs t I vs' hvs ht1 ht2 h
  obtain ⟨g1, g2, g3, g4, -⟩ := uniQuery evalOk lo hi W δ cfgs vs hvs t ht1 ht2 I vs' h
  exact ⟨g1, g2, g3, g4⟩

/-- A query fails only in collision, for a path that can be evaluated. -/
theorem cvQuery_none {lo hi : K} {vs : List (PairCfg K × PairSt K)} {t : K} (h : cvQuery (fun _ => true) lo hi vs t = none) :
    ∃ v ∈ vs, ∃ o ∈ v.1.objs, o.collide t = none := by
  unfold cvQuery validateConfiguration at h
  simp only [if_true] at h
  cases hr : validateIntervals (fun v t I => (validatePair v.1 v.2 t I).map (fun r => (r.1, (v.1, r.2)))) t 0 0 vs (⊥, ⊤) with
  | some z => rw [hr] at h; simp at h
  | none =>
    obtain ⟨pre, v, post, Js, pre', e, -, hv⟩ := (C35_fails _ t 0 0 vs _).1 hr
    refine ⟨v, by rw [e]; simp, ?_⟩
    simp only [Option.map_eq_none_iff] at hv
    unfold validatePair at hv
    split at hv
    · simp at hv
    · split at hv
      · simp at hv
      · cases hd : computeDistanceLowerBound v.1 t with
        | none => exact (lowerBound_none v.1 t).1 hd
        | some d => rw [hd] at hv; simp at hv

/-- C159: if continuous validation (progressive) accepts a path with such velocity bounds, straight or not, no pair of objects penetrates more than twice the tolerance. -/
theorem C159_progressive (O : Ops K C P) (evalOk : K → Bool) (rev : Bool) (fuel : Nat) (p : P) (hp : O.lo p ≤ O.hi p)
    (cfgs : List (PairCfg K)) (W δ : K) (hc : UniPairs (O.lo p) (O.hi p) W δ cfgs) (vp : P) (rep : Option K) (n : Nat)
    (h : progressive O (cvQuery evalOk (O.lo p) (O.hi p)) (startPairs cfgs) rev fuel p = .ok (true, vp, rep, n)) :
    ∀ t, O.lo p ≤ t → t ≤ O.hi p → ∀ c ∈ cfgs, ∀ o ∈ c.objs, -(2 * c.tol) ≤ o.dist t :=
  (C31_valid O _ _ rev fuel p hp _ _ (uniQueryOK evalOk _ _ W δ cfgs) (uniStart _ _ _ _ _ hc) vp rep n h).2.2

/-- C159, for the dichotomy. -/
theorem C159_dichotomy (O : Ops K C P) (evalOk : K → Bool) (rev : Bool) (fuel : Nat) (p : P) (hp : O.lo p ≤ O.hi p)
    (cfgs : List (PairCfg K)) (W δ : K) (hc : UniPairs (O.lo p) (O.hi p) W δ cfgs) (vp : P) (rep : Option K) (n : Nat)
    (h : dichotomy O (cvQuery evalOk (O.lo p) (O.hi p)) (startPairs cfgs) rev fuel p = .ok (true, vp, rep, n)) :
    ∀ t, O.lo p ≤ t → t ≤ O.hi p → ∀ c ∈ cfgs, ∀ o ∈ c.objs, -(2 * c.tol) ≤ o.dist t :=
  (C32_valid O _ _ rev fuel p hp _ _ (uniQueryOK evalOk _ _ W δ cfgs) (uniStart _ _ _ _ _ hc) vp rep n h).2.2

/-- C159: the loop of the progressive validation ends. -/
theorem C159_progressive_ends (O : Ops K C P) (evalOk : K → Bool) (rev : Bool) (fuel m : Nat) (p : P) (hp : O.lo p ≤ O.hi p)
    (cfgs : List (PairCfg K)) (W δ : K) (hδ : 0 < δ) (hc : UniPairs (O.lo p) (O.hi p) W δ cfgs)
    (hm : O.len p ≤ m * δ) (hfuel : m + 3 ≤ fuel) (hex : ∀ a b, ∃ q, O.extract p a b = .ok q) :
    ∃ v vp rep n, progressive O (cvQuery evalOk (O.lo p) (O.hi p)) (startPairs cfgs) rev fuel p = .ok (v, vp, rep, n) ∧ n ≤ m + 2 := by
  refine C31_terminates O _ _ rev fuel m p hp δ hδ (UniInv (O.lo p) (O.hi p) W δ cfgs) (uniStart _ _ _ _ _ hc) ?_ hm hfuel hex
  intro s t I s' hs h1 h2 h
  obtain ⟨g1, -, -, -, g5, g6⟩ := uniQuery evalOk _ _ W δ cfgs s hs t h1 h2 I s' h
  refine ⟨g1, ?_⟩
  cases rev
  · exact g6
  · exact g5

/-- C159: the loop of the dichotomy ends. -/
theorem C159_dichotomy_ends (O : Ops K C P) (evalOk : K → Bool) (rev : Bool) (fuel : Nat) (p : P) (hp : O.lo p ≤ O.hi p)
    (cfgs : List (PairCfg K)) (W δ : K) (hδ : 0 < δ) (hc : UniPairs (O.lo p) (O.hi p) W δ cfgs)
    (hfuel : O.len p < fuel * δ) (hex : ∀ a b, ∃ q, O.extract p a b = .ok q) :
    ∃ v vp rep n, dichotomy O (cvQuery evalOk (O.lo p) (O.hi p)) (startPairs cfgs) rev (fuel + 1) p = .ok (v, vp, rep, n) ∧
      ((n : K) - 1) * δ ≤ O.len p := by
  refine C32_terminates O _ _ rev fuel p hp δ hδ (UniInv (O.lo p) (O.hi p) W δ cfgs) (uniStart _ _ _ _ _ hc) ?_ hfuel hex
  intro s t I s' hs h1 h2 h
  obtain ⟨g1, g2, g3, -, g5, g6⟩ := uniQuery evalOk _ _ W δ cfgs s hs t h1 h2 I s' h
  exact ⟨g1, g5, g6, g2, g3⟩

end Verif.CV
