import Verif.ContinuousValidation.BodyPairs
import Verif.Validation.Composite
set_option linter.unusedSectionVars false

/-!
# Validation of one configuration by a path validation (C151)

`PathValidation::validate (q, report)` validates a straight path reduced to `q`.  The path validations of the library are called through it, after any use of the same object, and their answer is compared with the answer of
the collision tests at `q`.
-/
namespace Verif.Single
open Verif.PathV (Ops Err Space Straight straightOps)
open Verif.CV Verif.Intervals
variable {K C : Type} [Field K] [LinearOrder K] [IsStrictOrderedRing K]

/-! ## Model -/

/-- A pair of bodies: for each pair of objects, the answer of the collision library for the bodies placed by a configuration (`none`: collision, otherwise the distance lower bound), with the tolerance and the bound of the velocity on a path. -/
structure Pair (K C : Type) where
  objs : List (C → Option K)
  tol : K
  vel : Option K → Option K → K

/-- The pair of bodies along a path: body-pair-collision.cc:102-117, continuous-validation.cc:134-138 (the bodies are placed by the configuration of the path at the parameter). -/
def Pair.along (pr : Pair K C) (at_ : K → C) (lo hi : K) (straight : Bool) : PairCfg K :=
  ⟨pr.objs.map fun f => ⟨fun t => f (at_ t), fun _ => 0⟩, pr.vel, pr.tol, lo, hi, straight⟩

/-- `StraightPath::create (LiegroupSpace::Rn (q.size ()), q, q, (0, 0))`: src/path-validation.cc:42-44. -/
def point (q : C) : Straight K C := ⟨(0, 0), q, q, none⟩

/-- Pairs of bodies once the path reduced to `q` is set (`setPath`, continuous-validation.cc:214-220). -/
def pointPairs (pairs : List (Pair K C)) (q : C) : List (PairCfg K) := pairs.map fun pr => pr.along (fun _ => q) 0 0 true

/-- The evaluation of the path succeeds: progressive.cc:103, dichotomy.cc:86. -/
def evalOk (S : Space K C) (p : Straight K C) (t : K) : Bool := match Straight.eval S p t with
  | .ok _ => true
  | .error _ => false

/-- `PathValidation::validate (q, report)` of `Progressive`: path-validation.cc:36-50.  `pairs`: elements of the pool in their current order.  Returns the Boolean and the number of evaluations. -/
def progressiveAt (S : Space K C) (pairs : List (Pair K C)) (fuel : Nat) (q : C) : Except Err (Bool × Nat) :=
  (progressive (straightOps S) (cvQuery (evalOk S (point q)) 0 0) (startPairs (pointPairs pairs q)) false fuel (point q)).map fun r => (r.1, r.2.2.2)

/-- The same for `Dichotomy`. -/
def dichotomyAt (S : Space K C) (pairs : List (Pair K C)) (fuel : Nat) (q : C) : Except Err (Bool × Nat) :=
  (dichotomy (straightOps S) (cvQuery (evalOk S (point q)) 0 0) (startPairs (pointPairs pairs q)) false fuel (point q)).map fun r => (r.1, r.2.2.2)

/-- `Discretized::validate (q, report)`: src/path-validation/discretized.cc:109-111. -/
def discretizedAt {R : Type} (vs : List (C → Option R)) (q : C) : Bool := (Validation.configValidate q vs).1.isNone

/-- `PathValidations::validate (q, report)`: src/path-validations.cc:78-85; the members are called until one of them refuses. -/
def allAt (ms : List (C → Except Err Bool)) (q : C) : Except Err Bool :=
  match ms with
  | [] => .ok true
  | m :: ms => match m q with
    | .error e => .error e
    | .ok false => .ok false
    | .ok true => allAt ms q

/-! ## Specification -/

/-- No pair of objects collides when the bodies are placed by `q`. -/
def Free (pairs : List (Pair K C)) (q : C) : Prop := ∀ pr ∈ pairs, ∀ f ∈ pr.objs, f q ≠ none

/-! ## Proofs -/

/-- The validation of one configuration for pairs that have just been given a path reduced to it. -/
theorem intervals_point (pairs : List (Pair K C)) (q : C) (k m : Nat) (I : EB K × EB K) (hI : Mem I (fin 0)) :
    (Free pairs q ∧ ∃ R vs m', validateIntervals (fun v t I => (validatePair v.1 v.2 t I).map (fun r => (r.1, (v.1, r.2)))) (0 : K) k m (startPairs (pointPairs pairs q)) I = some (R, vs, m') ∧
      Mem R (fin 0)) ∨
    (¬ Free pairs q ∧ validateIntervals (fun v t I => (validatePair v.1 v.2 t I).map (fun r => (r.1, (v.1, r.2)))) (0 : K) k m (startPairs (pointPairs pairs q)) I = none) := by
  induction pairs generalizing k m I with
  | nil => exact Or.inl ⟨by simp [Free], I, [], m, rfl, hI⟩
  | cons pr pairs ih =>
    show (_ ∧ ∃ R vs m', validateIntervals _ _ k m ((pr.along (fun _ => q) 0 0 true, setPath) :: startPairs (pointPairs pairs q)) I = some (R, vs, m') ∧ _) ∨
      (_ ∧ validateIntervals _ _ k m ((pr.along (fun _ => q) 0 0 true, setPath) :: startPairs (pointPairs pairs q)) I = none)
    have hfree : Free (pr :: pairs) q ↔ (∀ f ∈ pr.objs, f q ≠ none) ∧ Free pairs q := by simp [Free]
    cases hd : computeDistanceLowerBound (pr.along (fun _ => q) 0 0 true) 0 with
    | none =>
      right
      obtain ⟨o, ho, hn⟩ := (lowerBound_none _ _).1 hd
      obtain ⟨f, hf, rfl⟩ := List.mem_map.1 ho
      refine ⟨fun h => (hfree.1 h).1 f hf hn, ?_⟩
      rw [validateIntervals]
      simp [validatePair, setPath, containsInterval, hd]
    | some d =>
      have hp : ∀ f ∈ pr.objs, f q ≠ none := by
        intro f hf hn
        have := (lowerBound_none (pr.along (fun _ => q) 0 0 true) 0).2 ⟨_, List.mem_map.2 ⟨f, hf, rfl⟩, hn⟩
        rw [hd] at this
        simp at this
      have hJ : Mem (centered 0 (halfLength (pr.along (fun _ => q) 0 0 true) 0 d)) (fin 0) := by
        refine (centered_mem _ _ _).2 fun x hx => ?_
        cases d with
        | none => simp [halfLength] at hx
        | some d =>
          simp [halfLength, maximalVelocity, Pair.along] at hx
          simp [← hx]
      obtain ⟨st, hv⟩ : ∃ st, validatePair (pr.along (fun _ => q) 0 0 true) setPath 0 I = some (centered 0 (halfLength (pr.along (fun _ => q) 0 0 true) 0 d), st) := by
        simp only [validatePair, setPath, containsInterval, hd, Bool.false_eq_true, if_false]
        exact ⟨_, rfl⟩
      rw [validateIntervals]
      simp only [hv, Option.map_some]
      rcases ih (k + 1) (if (centered 0 (halfLength (pr.along (fun _ => q) 0 0 true) 0 d)).2 < I.2 then k else m) _ ((mem_inter I _ _).2 ⟨hI, hJ⟩) with ⟨h1, R, vs, m', h2, h3⟩ | ⟨h1, h2⟩
      · exact Or.inl ⟨hfree.2 ⟨hp, h1⟩, R, _, m', by rw [h2], h3⟩
      · exact Or.inr ⟨fun h => h1 (hfree.1 h).2, by rw [h2]⟩

theorem query_point (S : Space K C) (pairs : List (Pair K C)) (q : C) :
    (Free pairs q ∧ ∃ I vs, cvQuery (evalOk S (point q)) 0 0 (startPairs (pointPairs pairs q)) 0 = some (I, vs) ∧ I.1 ≤ 0 ∧ 0 ≤ I.2) ∨
    (¬ Free pairs q ∧ cvQuery (evalOk S (point q)) 0 0 (startPairs (pointPairs pairs q)) 0 = none) := by
  have he : evalOk S (point q) (0 : K) = true := rfl
  unfold cvQuery validateConfiguration
  rw [if_pos he]
  rcases intervals_point pairs q 0 0 (⊥, ⊤) (by simp [Mem]) with ⟨h1, R, vs, m', h2, h3⟩ | ⟨h1, h2⟩
  · exact Or.inl ⟨h1, (toK 0 R.1, toK 0 R.2), swapFront vs m', by rw [h2], toK_lower_le le_rfl h3.1, toK_upper_le le_rfl h3.2⟩
  · exact Or.inr ⟨h1, by rw [h2]⟩

open Classical in
/-- **C151 (progressive).**  The answer tells whether some pair of objects collides at `q`, after one evaluation of the path, in whatever order the previous calls have left the pairs of bodies. -/
theorem C151_progressive (S : Space K C) (pairs pool : List (Pair K C)) (hp : pool.Perm pairs) (fuel : Nat) (hf : 2 ≤ fuel) (q : C) :
    progressiveAt S pool fuel q = .ok (decide (Free pairs q), 1) := by
  have hfree : Free pairs q ↔ Free pool q := by simp only [Free, hp.mem_iff]
  obtain ⟨fuel, rfl⟩ := Nat.exists_eq_add_of_le' hf
  have t0 : ifirst false ((straightOps S).lo (point q), (straightOps S).hi (point q)) = (0 : K) := rfl
  have t1 : isecond false ((straightOps S).lo (point q), (straightOps S).hi (point q)) = (0 : K) := rfl
  have hr0 : reached false (0 : K) 0 := by simp [reached]
  simp only [progressiveAt, progressive, t0, t1, if_pos hr0]
  rcases query_point S pool q with ⟨h1, I, vs, h2, -, h4⟩ | ⟨h1, h2⟩
  · have hr : reached false (isecond false I) 0 := by simpa [reached, isecond, ifirst] using h4
    rw [progLoop, if_pos (by norm_num), h2]
    simp only [hr, if_true]
    rw [progLoop, if_neg (by norm_num)]
    simp [bind, Except.bind, Except.map, hfree, h1]
  · rw [progLoop, if_pos (by norm_num), h2]
    simp [bind, Except.bind, Except.map, hfree, h1, straightOps, Straight.extract, Straight.eval, PathV.constrained, point]

open Classical in
/-- **C151 (dichotomy).** -/
theorem C151_dichotomy (S : Space K C) (pairs pool : List (Pair K C)) (hp : pool.Perm pairs) (fuel : Nat) (hf : 1 ≤ fuel) (q : C) :
    dichotomyAt S pool fuel q = .ok (decide (Free pairs q), 1) := by
  have hfree : Free pairs q ↔ Free pool q := by simp only [Free, hp.mem_iff]
  obtain ⟨fuel, rfl⟩ := Nat.exists_eq_add_of_le' hf
  have t0 : ifirst false (((0, 0) : K × K)) = (0 : K) := rfl
  have t1 : ((straightOps S).lo (point q), (straightOps S).hi (point q)) = ((0, 0) : K × K) := rfl
  simp only [dichotomyAt, dichotomy, t1, t0]
  rcases query_point S pool q with ⟨h1, I, vs, h2, h3, h4⟩ | ⟨h1, h2⟩
  · have hc : containsInterval 0 0 (unionInterval I.1 I.2 (unionInterval (0 : K) 0 [])) = true := by
      have hs : Separated (unionInterval (0 : K) 0 []) := (unionInterval_spec 0 0 le_rfl [] ⟨by simp, by simp⟩).1
      exact (containsInterval_iff _ _ _).2 (((unionInterval_spec I.1 I.2 (h3.trans h4) _ hs).2.2 0).2 (Or.inl ⟨h3, h4⟩))
    rw [dichoLoop, h2]
    simp [bind, Except.bind, Except.map, hfree, h1, hc]
  · rw [dichoLoop, h2]
    simp [bind, Except.bind, Except.map, hfree, h1, straightOps, Straight.extract, Straight.eval, PathV.constrained, point, unionInterval, ordered]

/-- **C151 (sampling).**  The configuration is accepted iff all the configuration validations accept it. -/
theorem C151_discretized {R : Type} (vs : List (C → Option R)) (q : C) : discretizedAt vs q = true ↔ ∀ v ∈ vs, v q = none := by
  rw [← Validation.C37_conjunction, discretizedAt, Option.isNone_iff_eq_none]

/-- **C151 (sampling of the path).**  This is also what the validation of the path reduced to `q` answers. -/
theorem C151_discretized_path {R : Type} (S : Space K C) (vs : List (C → Option R)) (h : K) (hh : 0 < h) (rev : Bool) (fuel : Nat) (hf : 3 ≤ fuel) (q : C) :
    (Validation.discretized (straightOps S) (discretizedAt vs) h rev fuel (point q)).map (fun r => r.1) = .ok (discretizedAt vs q) := by
  obtain ⟨fuel, rfl⟩ := Nat.exists_eq_add_of_le' hf
  have he : ∀ t : K, Validation.sampleOk (straightOps S) (discretizedAt vs) (point q) t = discretizedAt vs q := by
    intro t
    simp [Validation.sampleOk, straightOps, Straight.eval, PathV.constrained, Straight.impl, point]
  have h0 : (straightOps S).lo (point q) = (0 : K) := rfl
  have h1 : (straightOps S).hi (point q) = (0 : K) := rfl
  cases hd : discretizedAt vs q with
  | true =>
    have hl : Validation.discLoop (Validation.sampleOk (straightOps S) (discretizedAt vs) (point q)) 0 (if rev = true then -h else h) rev (fuel + 3) 0 0 0 0 = .ok ⟨true, 0, none, 2⟩ := by
      have hp : Validation.past rev (0 + if rev = true then -h else h) (0 : K) := by
        cases rev <;> simp [Validation.past, hh]
      simp only [Validation.discLoop, he, hd, if_true, if_pos hp]
      simp
    simp only [Validation.discretized, h0, h1, ite_self, hl]
    rfl
  | false =>
    have hl : Validation.discLoop (Validation.sampleOk (straightOps S) (discretizedAt vs) (point q)) 0 (if rev = true then -h else h) rev (fuel + 3) 0 0 0 0 = .ok ⟨false, 0, some 0, 1⟩ := by
      simp only [Validation.discLoop, he, hd]
      simp
    obtain ⟨p', hx⟩ : ∃ p', (straightOps S).extract (point q) 0 0 = .ok p' := by
      exact ⟨_, by simp [straightOps, Straight.extract, Straight.eval, PathV.constrained, point]; rfl⟩
    simp only [Validation.discretized, h0, h1, ite_self, hl]
    cases rev <;> simp [bind, Except.bind, Except.map, hx]

/-- **C151 (several validations).**  The conjunction of path validations that answer for every configuration answers for every configuration, and accepts exactly those that all of them accept. -/
theorem C151_all (ms : List (C → Except Err Bool)) (q : C) (spec : (C → Except Err Bool) → Prop) [DecidablePred spec] (h : ∀ m ∈ ms, m q = .ok (decide (spec m))) :
    allAt ms q = .ok (decide (∀ m ∈ ms, spec m)) := by
  induction ms with
  | nil => simp [allAt]
  | cons m ms ih =>
    have hm := h m (by simp)
    have := ih fun m hm => h m (by simp [hm])
    rw [allAt, hm]
    by_cases hs : spec m
    · simp [hs, this]
    · simp [hs]

/-! ## Agreement with the validation of paths -/

/-- A query fails where the path cannot be evaluated or where two objects collide. -/
theorem query_none (ev : K → Bool) (lo hi t : K) (vs : List (PairCfg K × PairSt K)) (h : cvQuery ev lo hi vs t = none) : ev t = false ∨ ∃ v ∈ vs, ∃ o ∈ v.1.objs, o.collide t = none := by
  unfold cvQuery validateConfiguration at h
  by_cases he : ev t = true
  · right
    rw [if_pos he] at h
    cases hr : validateIntervals (fun v t I => (validatePair v.1 v.2 t I).map (fun r => (r.1, (v.1, r.2)))) t 0 0 vs (⊥, ⊤) with
    | some z => rw [hr] at h; simp at h
    | none =>
      obtain ⟨pre, v, post, Js, pre', rfl, -, h4⟩ := (C35_fails _ _ _ _ _ _).1 hr
      simp only [Option.map_eq_none_iff] at h4
      unfold validatePair at h4
      split at h4
      · simp at h4
      · split at h4
        · simp at h4
        · cases hd : computeDistanceLowerBound v.1 t with
          | some d => rw [hd] at h4; simp at h4
          | none =>
            obtain ⟨o, ho, hn⟩ := (lowerBound_none _ _).1 hd
            exact ⟨v, by simp, o, ho, hn⟩
  · exact Or.inl (by simpa using he)

/-- **C151 (report).**  When the continuous validation refuses a path that can be evaluated everywhere, the configuration at the parameter of its report, validated alone, is refused. -/
theorem C151_report {P : Type} (O : Ops K C P) (S : Space K C) (pairs : List (Pair K C)) (p : P) (hp : O.lo p ≤ O.hi p) (at_ : K → C) (rev : Bool) (cfgs : List (PairCfg K))
    (hobj : List.Forall₂ (fun pr c => c.objs.map ObjPair.collide = pr.objs.map fun f t => f (at_ t)) pairs cfgs) (hc : PairsOK (O.lo p) (O.hi p) cfgs) (fuel : Nat) (vp : P) (rep : Option K) (n : Nat)
    (h : progressive O (cvQuery (fun _ => true) (O.lo p) (O.hi p)) (startPairs cfgs) rev fuel p = .ok (false, vp, rep, n) ∨
      dichotomy O (cvQuery (fun _ => true) (O.lo p) (O.hi p)) (startPairs cfgs) rev fuel p = .ok (false, vp, rep, n)) :
    ∃ t, rep = some t ∧ O.lo p ≤ t ∧ t ≤ O.hi p ∧ ¬ Free pairs (at_ t) ∧ progressiveAt S pairs 2 (at_ t) = .ok (false, 1) ∧ dichotomyAt S pairs 1 (at_ t) = .ok (false, 1) := by
  classical
  obtain ⟨t, h1, h2, h3, s', hs, hq⟩ : ∃ t, rep = some t ∧ O.lo p ≤ t ∧ t ≤ O.hi p ∧ ∃ s', ListInv (O.lo p) (O.hi p) cfgs s' ∧ cvQuery (fun _ => true) (O.lo p) (O.hi p) s' t = none := by
    rcases h with h | h
    · obtain ⟨tf, tl, a1, a2, a3, ⟨s', a4, a5⟩, -⟩ := C31_fail O _ _ rev fuel p hp _ _ (cvQuery_ok (fun _ => true) _ _ cfgs) (startPairs_inv _ _ _ hc) vp rep n h
      exact ⟨tf, a1, a2, a3, s', a4, a5⟩
    · obtain ⟨tf, tl, a1, a2, a3, ⟨s', a4, a5⟩, -⟩ := C32_fail O _ _ rev fuel p hp _ _ (cvQuery_ok (fun _ => true) _ _ cfgs) (startPairs_inv _ _ _ hc) vp rep n h
      exact ⟨tf, a1, a2, a3, s', a4, a5⟩
  have hfree : ¬ Free pairs (at_ t) := by
    intro hf
    rcases query_none _ _ _ _ _ hq with hq | ⟨v, hv, o, ho, hn⟩
    · simp at hq
    · have hcm : v.1 ∈ cfgs := hs.1.mem_iff.1 (List.mem_map.2 ⟨v, hv, rfl⟩)
      obtain ⟨i, hi, hvi⟩ := List.mem_iff_getElem.1 hcm
      have hlen := hobj.length_eq
      have hrel := hobj.get (by omega : i < pairs.length) hi
      simp only [List.get_eq_getElem] at hrel
      rw [hvi] at hrel
      have hm : o.collide ∈ v.1.objs.map ObjPair.collide := List.mem_map.2 ⟨o, ho, rfl⟩
      rw [hrel] at hm
      obtain ⟨f, hf', he⟩ := List.mem_map.1 hm
      refine hf pairs[i] (List.getElem_mem _) f hf' ?_
      rw [← hn, ← he]
  refine ⟨t, h1, h2, h3, hfree, ?_, ?_⟩
  · rw [C151_progressive S pairs pairs (List.Perm.refl _) 2 le_rfl]
    simp [hfree]
  · rw [C151_dichotomy S pairs pairs (List.Perm.refl _) 1 le_rfl]
    simp [hfree]

/-! ## Counterexample and non-vacuity -/

/-- A robot on a line and a wall that starts at `x`. -/
def wall (x tol : ℚ) : Pair ℚ ℚ := ⟨[fun q => if 0 < x - q then some (x - q) else none], tol, fun _ _ => 1⟩

/-- The converse of `C151_report` fails with a positive tolerance: a straight path is accepted by both validations although its end, validated alone, is refused by both (and the end is never tested). -/
theorem C151_end_counterexample :
    PairsOK 0 2 [exTol] ∧ exTol.objs.map ObjPair.collide = (wall (1 / 10) 1).objs.map (fun f t => f t) ∧
    (progressive Validation.exOps (cvQuery (fun _ => true) 0 2) (startPairs [exTol]) false 20 (0, 2)).toOption.map (·.1) = some true ∧
    (dichotomy Validation.exOps (cvQuery (fun _ => true) 0 2) (startPairs [exTol]) false 20 (0, 2)).toOption.map (·.1) = some true ∧
    ∀ S : Space ℚ ℚ, progressiveAt S [wall (1 / 10) 1] 2 2 = .ok (false, 1) ∧ dichotomyAt S [wall (1 / 10) 1] 1 2 = .ok (false, 1) := by
  classical
  refine ⟨C34_tolerance_counterexample.1, ?_, C34_tolerance_counterexample.2.1, by decide +kernel, fun S => ?_⟩
  · simp [exTol, wall]
  · have hn : ¬ Free [wall (1 / 10) 1] 2 := by
      intro h
      exact h _ (List.mem_singleton.2 rfl) (fun q => if 0 < 1 / 10 - q then some (1 / 10 - q) else none) (List.mem_singleton.2 rfl) (by norm_num)
    rw [C151_progressive S _ _ (List.Perm.refl _) 2 le_rfl, C151_dichotomy S _ _ (List.Perm.refl _) 1 le_rfl]
    rw [decide_eq_false hn]
    exact ⟨rfl, rfl⟩

/-- Configurations before the wall are accepted, whatever the tolerance and the other wall. -/
example (S : Space ℚ ℚ) (pool : List (Pair ℚ ℚ)) (h : pool.Perm [wall 1 0, wall 3 (1 / 10)]) : progressiveAt S pool 2 0 = .ok (true, 1) := by
  classical
  rw [C151_progressive S _ _ h 2 le_rfl]
  simp [Free, wall]

/-- The hypotheses of `C151_report` are met by the path of `exCfg` on `[0, 4]`, refused at `18 / 5`. -/
example (S : Space ℚ ℚ) : progressiveAt S [wall 3 (1 / 10)] 2 (18 / 5) = .ok (false, 1) := by
  have hd : ∃ vp n, dichotomy Validation.exOps (cvQuery (fun _ => true) 0 4) (startPairs [exCfg (1 / 10) 4]) false 20 (0, 4) = .ok (false, vp, some (18 / 5), n) := by
    have h : (dichotomy Validation.exOps (cvQuery (fun _ => true) 0 4) (startPairs [exCfg (1 / 10) 4]) false 20 (0, 4)).toOption.map (fun r => (r.1, r.2.2.1)) = some (false, some (18 / 5)) := by decide +kernel
    cases hr : dichotomy Validation.exOps (cvQuery (fun _ => true) 0 4) (startPairs [exCfg (1 / 10) 4]) false 20 (0, 4) with
    | error e => rw [hr] at h; simp [Except.toOption] at h
    | ok r =>
      rw [hr] at h
      simp [Except.toOption] at h
      exact ⟨r.2.1, r.2.2.2, by rw [← h.1, ← h.2]⟩
  obtain ⟨vp, n, hd⟩ := hd
  obtain ⟨t, h1, -, -, -, h2, -⟩ := C151_report Validation.exOps S [wall 3 (1 / 10)] ((0, 4) : ℚ × ℚ) (by decide +kernel) id false [exCfg (1 / 10) 4]
    (List.Forall₂.cons (by simp [exCfg, wall]) List.Forall₂.nil)
    (by
      intro c hc
      simp at hc
      subst hc
      exact ⟨exCfg_ok _ _ (by norm_num) (by norm_num), rfl, rfl, Or.inl rfl⟩) 20 vp (some (18 / 5)) n (Or.inr hd)
  obtain rfl := Option.some.inj h1
  exact h2

end Verif.Single
