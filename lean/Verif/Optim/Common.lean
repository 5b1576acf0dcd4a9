import Verif.Path.VectorExtract
set_option linter.unusedSectionVars false

/-!
# Path optimizers: common definitions (C42, C43)

What the optimizers call outside `PathVector`: steering (with path projection, `PathOptimizer::steer`, src/path-optimizer.cc:48-57), path validation, the distance,
and the methods `initial` and `end` of the pieces.
-/
namespace Verif.Optim
open Verif.PathV
variable {K C P : Type} [Field K] [LinearOrder K] [IsStrictOrderedRing K]

structure Env (K C P : Type) where
  O : Ops K C P
  /-- `Path::initial`, `Path::end`: path.hh:198-201 -/
  ini : P → C
  fin : P → C
  /-- `problem()->distance()` -/
  dist : C → C → K
  /-- `steer`: path-optimizer.cc:48-57, `none` is the null pointer -/
  steer : C → C → Option P
  /-- `problem()->pathValidation()->validate(path, false, ...)` -/
  valid : P → Bool

/-- The configuration is on a path of the class. -/
def On (E : Env K C P) (G : P → Prop) (q : C) : Prop := ∃ p x, G p ∧ 0 ≤ x ∧ x ≤ E.O.len p ∧ E.O.eval p (E.O.lo p + x) = .ok q

/-- Contract of the calls: `G` is a class of well-behaved paths (their ends are their values, extraction is correct), and steering
produces such paths between the configurations asked for, when these are on such paths. -/
structure Contract (E : Env K C P) (G : P → Prop) : Prop where
  lawful : LawfulF E.O G
  ini : ∀ p, G p → E.O.eval p (E.O.lo p) = .ok (E.ini p)
  fin : ∀ p, G p → E.O.eval p (E.O.hi p) = .ok (E.fin p)
  steer : ∀ a b p, On E G a → On E G b → E.steer a b = some p → E.valid p = true → G p
  steer_ends : ∀ a b p, E.steer a b = some p → E.ini p = a ∧ E.fin p = b

/-- `PathVector::initial`: path-vector.hh:129 (undefined on the empty vector). -/
def vini (E : Env K C P) (v : Vec K C P) : Except Err C := match v.paths.head? with
  | none => .error .indexOutOfBounds
  | some p => .ok (E.ini p)

/-- `PathVector::end`: path-vector.hh:132. -/
def vfin (E : Env K C P) (v : Vec K C P) : Except Err C := match v.paths.getLast? with
  | none => .error .indexOutOfBounds
  | some p => .ok (E.fin p)

/-- `_PathLength<false>::run`: random-shortcut.cc:47-64, `pathLength`: partial-shortcut.cc:60-68. -/
def pathLength (E : Env K C P) (v : Vec K C P) : Except Err K :=
  (List.range v.paths.length).foldlM (fun acc i => match pathAtRank E.O v i with
    | .error e => .error e
    | .ok p => .ok (acc + E.dist (E.ini p) (E.fin p))) 0

/-- The length of a list of pieces for the distance. -/
def dlen (E : Env K C P) (ps : List P) : K := (ps.map (fun p => E.dist (E.ini p) (E.fin p))).sum

theorem pathLength_eq (E : Env K C P) (v : Vec K C P) (h : v.cons = none) : pathLength E v = .ok (dlen E v.paths) := by
  unfold pathLength
  rw [range_foldlM _ (fun acc p => .ok (acc + E.dist (E.ini p) (E.fin p))) v.paths]
  · have : ∀ (l : List P) (a : K), l.foldlM (m := Except Err) (fun acc p => .ok (acc + E.dist (E.ini p) (E.fin p))) a = .ok (a + dlen E l) := by
      intro l
      induction l with
      | nil => intro a; simp [dlen, pure, Except.pure]
      | cons p l ih =>
        intro a
        rw [List.foldlM_cons]
        show l.foldlM _ _ = _
        rw [ih]
        simp [dlen, add_assoc]
    rw [this]; simp
  · intro i p acc hi
    rw [pathAtRank_eq _ _ _ _ hi, h]
    rfl

/-- A non-empty list of pieces of class `G` that runs continuously from `a` to `b`. -/
def Joins (E : Env K C P) (G : P → Prop) (a b : C) (ps : List P) : Prop :=
  ps ≠ [] ∧ (∀ p ∈ ps, G p) ∧ Chained E.O ps ∧ (∀ p ∈ ps.head?, E.ini p = a) ∧ (∀ p ∈ ps.getLast?, E.fin p = b)

theorem Joins.append {E : Env K C P} {G : P → Prop} (hC : Contract E G) {a b c : C} {ps qs : List P} (h1 : Joins E G a b ps)
    (h2 : Joins E G b c qs) : Joins E G a c (ps ++ qs) := by
  obtain ⟨p1, p2, p3, p4, p5⟩ := h1
  obtain ⟨q1, q2, q3, q4, q5⟩ := h2
  refine ⟨by simp [p1], ?_, ?_, ?_, ?_⟩
  · intro p hp
    rcases List.mem_append.1 hp with hp | hp
    · exact p2 p hp
    · exact q2 p hp
  · unfold Chained
    rw [List.isChain_append]
    refine ⟨p3, q3, ?_⟩
    intro x hx y hy
    rw [hC.fin x (p2 x (List.mem_of_mem_getLast? hx)), hC.ini y (q2 y (List.mem_of_mem_head? hy)), p5 x hx, q4 y hy]
  · intro p hp
    rw [List.head?_append_of_ne_nil _ p1] at hp
    exact p4 p hp
  · intro p hp
    rw [List.getLast?_append_of_ne_nil _ q1] at hp
    exact q5 p hp

theorem Joins.single {E : Env K C P} {G : P → Prop} {p : P} (hp : G p) : Joins E G (E.ini p) (E.fin p) [p] :=
  ⟨by simp, by simpa using hp, .singleton _, by simp, by simp⟩

/-- The value at the beginning and at the end. -/
theorem Joins.eval {E : Env K C P} {G : P → Prop} (hC : Contract E G) {a b : C} {ps : List P} (h : Joins E G a b ps) :
    evalU E.O ps 0 = .ok a ∧ evalU E.O ps (total E.O ps) = .ok b := by
  obtain ⟨p1, p2, p3, p4, p5⟩ := h
  have hl : ∀ p ∈ ps, 0 ≤ E.O.len p := fun p hp => hC.lawful.nonneg p (p2 p hp)
  constructor
  · cases ps with
    | nil => exact absurd rfl p1
    | cons p l =>
      have := chained_at E.O [] l p 0 (by simp) p3 (le_refl _) (hl p (by simp))
      simp only [List.nil_append, total_nil, add_zero] at this
      rw [this, hC.ini p (p2 p (by simp)), p4 p (by simp)]
  · rcases List.eq_nil_or_concat ps with h | ⟨A, p, h⟩
    · exact absurd h p1
    · rw [List.concat_eq_append] at h
      subst h
      have := chained_at E.O A [] p (E.O.len p) (fun q hq => hl q (by simp [hq])) p3 (hl p (by simp)) (le_refl _)
      rw [show total E.O (A ++ [p]) = total E.O A + E.O.len p by simp, this,
        show E.O.lo p + E.O.len p = E.O.hi p by unfold Ops.len; ring, hC.fin p (p2 p (by simp)), p5 p (by simp)]

/-- Converse of `Joins.eval`. -/
theorem joins_of_eval {E : Env K C P} {G : P → Prop} (hC : Contract E G) {a b : C} {ps : List P} (h1 : ps ≠ []) (h2 : ∀ p ∈ ps, G p)
    (h3 : Chained E.O ps) (h4 : evalU E.O ps 0 = .ok a) (h5 : evalU E.O ps (total E.O ps) = .ok b) : Joins E G a b ps := by
  obtain ⟨a', ha⟩ : ∃ a', ∀ p ∈ ps.head?, E.ini p = a' := by
    cases ps with
    | nil => exact absurd rfl h1
    | cons p l => exact ⟨E.ini p, by simp⟩
  obtain ⟨b', hb⟩ : ∃ b', ∀ p ∈ ps.getLast?, E.fin p = b' := by
    rcases List.eq_nil_or_concat ps with h | ⟨A, p, h⟩
    · exact absurd h h1
    · subst h; exact ⟨E.fin p, by simp⟩
  have h : Joins E G a' b' ps := ⟨h1, h2, h3, ha, hb⟩
  obtain ⟨e1, e2⟩ := h.eval hC
  rw [e1] at h4
  rw [e2] at h5
  rw [← Except.ok.inj h4, ← Except.ok.inj h5]
  exact h

/-- Extraction of a part of a continuous vector. -/
theorem extract_joins {E : Env K C P} {G : P → Prop} (hC : Contract E G) {a b : C} {v : Vec K C P} (hv : v.cons = none)
    (htr : v.tr = (0, total E.O v.paths)) (h : Joins E G a b v.paths) (s t : K) (h0 : 0 ≤ s) (hst : s ≤ t) (ht : t ≤ v.tr.2) (qs qt : C)
    (hs : evalV E.O v s = .ok qs) (htq : evalV E.O v t = .ok qt) (r : Vec K C P) (hr : extractV E.O v s t = .ok r) :
    r.cons = none ∧ Joins E G qs qt r.paths := by
  have hwf : WF E.O G v := ⟨htr, h.2.1⟩
  rw [htr] at ht
  obtain ⟨k1, k2, k3, k4, k5⟩ := extract_fwd hC.lawful v hwf (evalV_none _ v hv) s t h0 hst ht r hr
  refine ⟨k1, joins_of_eval hC ?_ k2.2 (k5 h.2.2.1) ?_ ?_⟩
  · intro hn
    have := k4 0 (le_refl _) (by linarith)
    simp only [add_zero] at this
    rw [hs, evalV, rankAtParam, if_pos hn] at this
    simp at this
  · rw [← evalV_none _ r k1, k4 0 (le_refl _) (by linarith)]
    simpa using hs
  · rw [← evalV_none _ r k1, k3, k4 _ (by linarith) (le_refl _)]
    simpa using htq

/-- The configurations of a continuous vector. -/
theorem Joins.on {E : Env K C P} {G : P → Prop} (hC : Contract E G) {a b : C} {v : Vec K C P} (hv : v.cons = none) (htr : v.tr = (0, total E.O v.paths)) (h : Joins E G a b v.paths)
    {t : K} (h0 : 0 ≤ t) (h1 : t ≤ v.tr.2) {q : C} (hq : evalV E.O v t = .ok q) : On E G q := by
  rw [htr] at h1
  obtain ⟨A, p, B, u, e, a1, a2, a3, a4⟩ := exists_pos E.O v.paths h.1 t h0 h1
  have := evalU_at E.O A B p u (fun z hz => hC.lawful.nonneg z (h.2.1 z (by rw [e]; simp [hz]))) a3 a2
  rw [evalV_none _ v hv, e, a4, this] at hq
  exact ⟨p, u, h.2.1 p (by rw [e]; simp), a1, a2, hq⟩

/-- The class of the paths of `G` all of whose configurations satisfy `Free`. -/
def Along (E : Env K C P) (G : P → Prop) (Free : C → Prop) (p : P) : Prop :=
  G p ∧ ∀ x, 0 ≤ x → x ≤ E.O.len p → ∀ q, E.O.eval p (E.O.lo p + x) = .ok q → Free q

theorem lawful_along {E : Env K C P} {G : P → Prop} (L : LawfulF E.O G) (Free : C → Prop) : LawfulF E.O (Along E G Free) := by
  refine ⟨fun p hp => L.nonneg p hp.1, ?_⟩
  intro p a b r hp h1 h2 h3 hr
  obtain ⟨k1, k2, k3⟩ := L.fwd p a b r hp.1 h1 h2 h3 hr
  refine ⟨⟨k1, fun x x0 x1 q hq => ?_⟩, k2, k3⟩
  rw [k2] at x1
  rw [k3 x x0 x1] at hq
  refine hp.2 (a + x - E.O.lo p) (by linarith) (by unfold Ops.len; linarith) q ?_
  rw [← hq]; congr 1; ring

/-- The contract for this class, when validated steering paths satisfy `Free`. -/
theorem Contract.along {E : Env K C P} {G : P → Prop} (hC : Contract E G) (Free : C → Prop)
    (hv : ∀ a b p, Free a → Free b → E.steer a b = some p → E.valid p = true → ∀ x, 0 ≤ x → x ≤ E.O.len p → ∀ q, E.O.eval p (E.O.lo p + x) = .ok q → Free q) :
    Contract E (Along E G Free) :=
  ⟨lawful_along hC.lawful Free, fun p hp => hC.ini p hp.1, fun p hp => hC.fin p hp.1,
    fun a b p ⟨u, x, h1, h2, h3, h4⟩ ⟨v, y, k1, k2, k3, k4⟩ h5 h6 =>
      ⟨hC.steer a b p ⟨u, x, h1.1, h2, h3, h4⟩ ⟨v, y, k1.1, k2, k3, k4⟩ h5 h6, hv a b p (h1.2 x h2 h3 a h4) (k1.2 y k2 k3 b k4) h5 h6⟩, hC.steer_ends⟩

end Verif.Optim
