import Verif.SplineOpt.Cost
import Verif.SplineOpt.Bounds
set_option linter.unusedSectionVars false

/-!
# The loop of `SplineGradientBased` (C93)

Model of `SplineGradientBased::optimize`: src/path-optimization/spline-gradient-based.cc:467-618, from initial splines, with configurations in any
space `Q`.  The following answers are arbitrary: those of the path validation methods, of the solver of quadratic programs, the jacobians of the
collision functions, whether a report is a collision report and whether the user interrupts.  `κ` is the type of the variables of the reduced program.
-/
namespace Verif.SplineOpt
open Verif.Spline

variable {Q κ : Type}

/-- `range`: a vector is read out of range; `runtime`: exception of `QuadraticProgram::solve`; `logic`: exception of the constructor of `CollisionFunction`. -/
inductive LErr | range | runtime | logic
  deriving DecidableEq

/-- What does not change during the optimization: the parameters (spline-gradient-based.cc:376-408), the cost (`order`, `lam`), the number `nVar` of variables of
the reduced program (`QPc.H.rows ()`), `sol` (`constraint.computeSolution`, linear-constraint.hh:97-102) and `rank` (of the reduced constraint, as
computed by `computeRank`, linear-constraint.hh:64-71, which depends on the rows only). -/
structure Cfg (κ : Type) where
  m : ℕ
  nb : ℕ
  order : ℕ
  lam : List ℝ
  alphaInit : ℝ
  costThreshold : ℝ
  alwaysStopAtFirst : Bool
  reorderIntervals : Bool
  linearizeAtEachStep : Bool
  returnOptimum : Bool
  checkOptimum : Bool
  nVar : ℕ
  sol : κ → ℕ → ℝ
  rank : List Row → ℕ

/-- The answers of one iteration.  `valid i s`: `validations_[i]->validate (s)`, the parameter of the report if it fails; `isColl i`: report `i` is a collision
report; `jac i a`: jacobian of the function built for report `i`, after `a` updates; `rejac i`: jacobian of function `i` at the new splines;
`qp`: the solution of the program, `none` if it is not solved. -/
structure Env (Q κ : Type) where
  stop : Bool
  valid : ℕ → Spl Q → Option ℝ
  isColl : ℕ → Bool
  jac : ℕ → ℕ → ℕ → ℝ
  rejac : ℕ → ℕ → ℝ
  qp : List Row → Option κ

/-- `collision`, `collisionFunctions` (spline and ratio of each function), `collisionReduced` (the rows it was reduced from, and `rank`).  Function `i` is row `i` of
`collision` (`rows[i] = i`: spline-gradient-based.cc:324). -/
structure Coll where
  rows : List Row
  fns : List (ℕ × ℝ)
  reduced : List Row
  rank : ℕ

structure LSt (Q κ : Type) where
  splines : List (Spl Q)
  alphaS : List (Spl Q)
  collS : List (Spl Q)
  curAlpha : Bool
  alpha : ℝ
  noCollision : Bool
  minimumReached : Bool
  stopAtFirst : Bool
  computeOptimum : Bool
  computeInterpolated : Bool
  reordering : List ℕ
  xStar : κ
  col : Coll
  optimalCost : ℝ
  lowerBound : ℝ

/-- `cost.value`: see `value`; the constructor refuses the orders for which it is not defined. -/
noncomputable def Cfg.cost (c : Cfg κ) (s : List (Spl Q)) : ℝ := (value c.m c.order c.lam s).getD 0

/-- `linearize` for one function: spline-gradient-based.cc:111-154; `j` is the index of the spline, `J` the jacobian after the chain rule. -/
noncomputable def linRow (m nb : ℕ) (s : Spl Q) (j : ℕ) (ratio : ℝ) (J : ℕ → ℝ) : Row :=
  let e := (List.range nb).flatMap fun i => (List.range m).map fun d => (i * m + d, basis s.n 0 ratio i * J d)
  ⟨e.map fun p => (j * (m * nb) + p.1, p.2), dot e (row m s)⟩

/-- The loop of `validatePath`: spline-gradient-based-abstract.cc:239-249. -/
def validateLoop (valid : ℕ → Spl Q → Option ℝ) (splines : List (Spl Q)) (stopAtFirst : Bool) : List ℕ → Except LErr (List (ℝ × ℕ))
  | [] => .ok []
  | i :: l =>
    match splines[i]? with
    | none => .error .range
    | some s =>
      match valid i s with
      | none => validateLoop valid splines stopAtFirst l
      | some r =>
        if stopAtFirst then .ok [(r, i)]
        else match validateLoop valid splines stopAtFirst l with
          | .error e => .error e
          | .ok reports => .ok ((r, i) :: reports)

/-- The new order of validation: spline-gradient-based-abstract.cc:250-257. -/
def newOrder (reorder : Bool) (reports : List (ℝ × ℕ)) (order : List ℕ) : List ℕ :=
  match reorder, reports with
  | true, (_, k) :: _ => (List.range (order.length - k)).map (fun i => k + i) ++ List.range k
  | _, _ => order

/-- `findNewConstraint`: spline-gradient-based.cc:330-367, for report `ri`; `i` is the local variable, `a` the number of updates. -/
noncomputable def findNew (c : Cfg κ) (e : Env Q κ) (ri : ℕ) (s : Spl Q) (j : ℕ) (ratio : ℝ) : ℕ → ℕ → Coll → Bool × Coll
  | i, a, col =>
    let col := { col with reduced := col.rows, rank := c.rank col.rows }
    if col.rank = min col.rows.length c.nVar then (true, col)
    else match i with
      | 0 => (false, { col with rows := col.rows.dropLast, fns := col.fns.dropLast })
      | i + 1 => findNew c e ri s j ratio i (a + 1) { col with rows := col.rows.dropLast ++ [linRow c.m c.nb s j ratio (e.jac ri (a + 1))] }

/-- The loop on reports: spline-gradient-based.cc:562-575, with `addCollisionConstraint`: spline-gradient-based.cc:310-328. -/
noncomputable def addLoop (c : Cfg κ) (e : Env Q κ) (splines cur : List (Spl Q)) : ℕ → List (ℝ × ℕ) → Bool → Coll → Except LErr (Bool × Coll)
  | _, [], ok, col => .ok (ok, col)
  | ri, (r, j) :: l, ok, col =>
    match splines[j]?, cur[j]? with
    | some s, some s' =>
      if e.isColl ri then
        let ratio := r / (s'.s1 - s'.s0)
        let p := findNew c e ri s j ratio 5 0 { col with rows := col.rows ++ [linRow c.m c.nb s j ratio (e.jac ri 0)], fns := col.fns ++ [(j, ratio)] }
        if (ok || p.1) = false then .ok (false, p.2)
        else if c.nVar ≤ p.2.rank then .ok (true, p.2)
        else addLoop c e splines cur (ri + 1) l true p.2
      else .error .logic
    | _, _ => .error .range

/-- `QuadraticProgram::solve`: src/path-optimization/quadratic-program.cc:68-140; `xStar` is left unchanged when the program is not solved. -/
def solve (c : Cfg κ) (e : Env Q κ) (reduced : List Row) (xStar : κ) : Except LErr κ :=
  if c.nVar < reduced.length then .error .runtime else .ok ((e.qp reduced).getD xStar)

/-- `linearize` for all functions: spline-gradient-based.cc:156-160; `N` is the size of `ss`, which is read at index `i`. -/
noncomputable def linearizeAll (c : Cfg κ) (e : Env Q κ) (splines : List (Spl Q)) (N : ℕ) : ℕ → List (ℕ × ℝ) → Except LErr (List Row)
  | _, [] => .ok []
  | i, (j, ratio) :: l =>
    match splines[j]? with
    | none => .error .range
    | some s =>
      if N ≤ i then .error .range
      else match linearizeAll c e splines N (i + 1) l with
        | .error er => .error er
        | .ok rows => .ok (linRow c.m c.nb s j ratio (e.rejac i) :: rows)

/-- 6.1 and 6.2: spline-gradient-based.cc:503-519. -/
noncomputable def prepare (c : Cfg κ) (st : LSt Q κ) : LSt Q κ :=
  let st := if st.computeOptimum then
      let coll := updateSplines c.m c.nb st.collS (c.sol st.xStar)
      { st with collS := coll, lowerBound := c.cost coll, curAlpha := false, minimumReached := true, computeOptimum := false }
    else st
  if st.computeInterpolated then
    { st with alphaS := interpolate c.m st.splines st.collS st.alpha st.alphaS, curAlpha := true, minimumReached := false, computeInterpolated := false }
  else st

/-- `*currentSplines`. -/
def LSt.cur (st : LSt Q κ) : List (Spl Q) := if st.curAlpha then st.alphaS else st.collS

inductive Next (Q κ : Type)
  | go (st : LSt Q κ)
  | done (st : LSt Q κ)

/-- No collision: spline-gradient-based.cc:530-551. -/
noncomputable def accept (c : Cfg κ) (e : Env Q κ) (st : LSt Q κ) : Except LErr (Next Q κ) :=
  let opt := c.cost st.cur
  let splines := List.zipWith (fun s t => setRow c.m s (row c.m t)) st.splines st.cur
  let finish : LSt Q κ → LSt Q κ := fun st =>
    { st with computeInterpolated := true,
              minimumReached := st.minimumReached || decide (|st.optimalCost - st.lowerBound| < c.costThreshold * st.lowerBound) }
  let st := { st with noCollision := true, optimalCost := opt, splines := splines }
  if c.linearizeAtEachStep then
    match linearizeAll c e splines splines.length 0 st.col.fns with
    | .error er => .error er
    | .ok rows =>
      match solve c e rows st.xStar with
      | .error er => .error er
      | .ok x => .ok (.go (finish { st with col := { rows := rows, fns := st.col.fns, reduced := rows, rank := c.rank rows }, xStar := x, computeOptimum := true }))
  else .ok (.go (finish st))

/-- Collisions: spline-gradient-based.cc:552-611. -/
noncomputable def reject (c : Cfg κ) (e : Env Q κ) (reports : List (ℝ × ℕ)) (st : LSt Q κ) : Except LErr (Next Q κ) :=
  let st := { st with noCollision := false }
  if st.alpha = 1 then .ok (.go { st with alpha := c.alphaInit, stopAtFirst := c.alwaysStopAtFirst, computeInterpolated := true })
  else if c.nVar ≤ st.col.rank then .ok (.done st)
  else
    match addLoop c e st.splines st.cur 0 reports false st.col with
    | .error er => .error er
    | .ok (false, col) =>
      let st := { st with col := col }
      if st.alpha < c.alphaInit / 4 then .ok (.done st)
      else .ok (.go { st with alpha := st.alpha * (1 / 2), stopAtFirst := c.alwaysStopAtFirst, computeInterpolated := true })
    | .ok (true, col) =>
      match solve c e col.reduced st.xStar with
      | .error er => .error er
      | .ok x => .ok (.go { st with col := col, xStar := x, alpha := 1, stopAtFirst := true, computeOptimum := true })

/-- One iteration: spline-gradient-based.cc:501-613. -/
noncomputable def step (c : Cfg κ) (e : Env Q κ) (st : LSt Q κ) : Except LErr (Next Q κ) :=
  let st := prepare c st
  if c.returnOptimum then accept c e { st with minimumReached := true }
  else match validateLoop e.valid st.cur st.stopAtFirst st.reordering with
    | .error er => .error er
    | .ok reports =>
      let st := { st with reordering := newOrder c.reorderIntervals reports st.reordering }
      match reports with
      | [] => accept c e st
      | _ :: _ => reject c e reports st

/-- The loop: spline-gradient-based.cc:501; `none` if it is not over after `fuel` iterations. -/
noncomputable def optLoop (c : Cfg κ) (env : ℕ → Env Q κ) : ℕ → ℕ → LSt Q κ → Except LErr (Option (LSt Q κ))
  | 0, _, _ => .ok none
  | fuel + 1, t, st =>
    if (st.noCollision && st.minimumReached) || (env t).stop then .ok (some st)
    else match step c (env t) st with
      | .error er => .error er
      | .ok (.done st) => .ok (some st)
      | .ok (.go st) => optLoop c env fuel (t + 1) st

/-- Initialization: spline-gradient-based.cc:467-486; `x` is the content of `QPc.xStar` after the first `solve`. -/
noncomputable def initSt (c : Cfg κ) (splines : List (Spl Q)) (x : κ) : LSt Q κ :=
  { splines := splines, alphaS := splines, collS := splines, curAlpha := false, alpha := if c.checkOptimum || c.returnOptimum then 1 else c.alphaInit,
    noCollision := true, minimumReached := false, stopAtFirst := c.alwaysStopAtFirst, computeOptimum := true,
    computeInterpolated := !(c.checkOptimum || c.returnOptimum), reordering := List.range splines.length, xStar := x,
    col := { rows := [], fns := [], reduced := [], rank := c.rank [] }, optimalCost := c.cost splines, lowerBound := 0 }

/-! ## Specification -/

/-- Same spline: control points are vectors of size `m`. -/
def Same (m : ℕ) (s t : Spl Q) : Prop := Like s t ∧ ∀ i d, d < m → s.P i d = t.P i d

/-- All paths of the vector are accepted. -/
def Accepted (m : ℕ) (e : Env Q κ) (splines : List (Spl Q)) : Prop :=
  ∀ (i : ℕ) (s : Spl Q), splines[i]? = some s → ∃ s', Same m s s' ∧ e.valid i s' = none

/-! ## Lemmas -/

theorem Same.like {m : ℕ} {s t : Spl Q} (h : Same m s t) : Like s t := h.1

theorem forall₂_get {α β : Type} {r : α → β → Prop} {l : List α} {l' : List β} (h : List.Forall₂ r l l') {i : ℕ} {a : α} (hi : l[i]? = some a) :
    ∃ b, l'[i]? = some b ∧ r a b := by
  induction h generalizing i with
  | nil => simp at hi
  | cons hab _ ih =>
    cases i with
    | zero => simp only [List.getElem?_cons_zero, Option.some.injEq] at hi ⊢; exact ⟨_, rfl, hi ▸ hab⟩
    | succ i => simp only [List.getElem?_cons_succ] at hi ⊢; exact ih hi

theorem concat_same {m nb : ℕ} (hm : 0 < m) {A B : List (Spl Q)} (h : List.Forall₂ (Same m) A B) : concat m nb A = concat m nb B := by
  funext c
  unfold concat
  cases ha : A[c / (m * nb)]? with
  | none =>
    have : B[c / (m * nb)]? = none := by
      rw [List.getElem?_eq_none_iff] at ha ⊢
      rw [← h.length_eq]; exact ha
    rw [this]
  | some s =>
    obtain ⟨t, ht, hs⟩ := forall₂_get h ha
    rw [ht]
    exact hs.2 _ _ (Nat.mod_lt _ hm)

theorem setRow_row {m : ℕ} (s t : Spl Q) (h : Like s t) : Same m (setRow m s (row m t)) t := by
  refine ⟨(like_setRow m s _).trans h, fun i d hd => ?_⟩
  show row m t (i * m + d) = t.P i d
  exact row_concat hd

theorem forall₂_zip_same {m : ℕ} {A B : List (Spl Q)} (h : List.Forall₂ Like A B) : List.Forall₂ (Same m) (List.zipWith (fun s t => setRow m s (row m t)) A B) B := by
  induction h with
  | nil => exact List.Forall₂.nil
  | cons hab _ ih => exact List.Forall₂.cons (setRow_row _ _ hab) ih

theorem forall₂_like_symm {A B : List (Spl Q)} (h : List.Forall₂ Like A B) : List.Forall₂ Like B A := by
  induction h with
  | nil => exact .nil
  | cons h _ ih => exact .cons h.symm ih

theorem forall₂_like_trans {A B C : List (Spl Q)} (h : List.Forall₂ Like A B) (h' : List.Forall₂ Like B C) : List.Forall₂ Like A C := by
  induction h generalizing C with
  | nil => cases h'; exact .nil
  | cons h _ ih => cases h' with
    | cons h2 h3 => exact .cons (h.trans h2) (ih h3)

theorem forall₂_same_like {m : ℕ} {A B : List (Spl Q)} (h : List.Forall₂ (Same m) A B) : List.Forall₂ Like A B := h.imp fun _ _ h => h.1

/-- `updateSplines` overwrites all control points. -/
theorem updateSplines_like {m nb : ℕ} {A B : List (Spl Q)} (h : List.Forall₂ Like A B) (x : ℕ → ℝ) : updateSplines m nb A x = updateSplines m nb B x := by
  unfold updateSplines
  generalize 0 = r
  induction h generalizing r with
  | nil => rfl
  | @cons a b A B hab _ ih =>
    simp only [updateFrom, ih]
    congr 1
    unfold setRow
    obtain ⟨h1, h2, h3, h4⟩ := hab
    cases a; cases b
    simp_all

/-- Validation reports nothing exactly when all the splines visited are accepted. -/
theorem validateLoop_spec (valid : ℕ → Spl Q → Option ℝ) (splines : List (Spl Q)) (stop : Bool) : ∀ (l : List ℕ), (∀ i ∈ l, i < splines.length) →
    ∃ reports, validateLoop valid splines stop l = .ok reports ∧
      (reports = [] ↔ ∀ i ∈ l, ∀ s, splines[i]? = some s → valid i s = none) ∧
      ∀ p ∈ reports, p.2 ∈ l ∧ ∃ s, splines[p.2]? = some s ∧ valid p.2 s = some p.1 := by
  intro l
  induction l with
  | nil => intro _; exact ⟨[], rfl, by simp, by simp⟩
  | cons i l ih =>
    intro hl
    obtain ⟨reports, h1, h2, h3⟩ := ih fun j hj => hl j (List.mem_cons_of_mem _ hj)
    obtain ⟨s, hs⟩ : ∃ s, splines[i]? = some s := ⟨_, List.getElem?_eq_getElem (hl i (List.mem_cons_self ..))⟩
    cases hv : valid i s with
    | none =>
      refine ⟨reports, ?_, ?_, fun p hp => ⟨List.mem_cons_of_mem _ (h3 p hp).1, (h3 p hp).2⟩⟩
      · rw [validateLoop, hs]; simp only [hv, h1]
      · rw [h2]
        constructor
        · intro h j hj t ht
          rcases List.mem_cons.1 hj with rfl | hj
          · rw [hs] at ht; rw [← Option.some.inj ht]; exact hv
          · exact h j hj t ht
        · intro h j hj; exact h j (List.mem_cons_of_mem _ hj)
    | some r =>
      have hno : ¬ ∀ j ∈ i :: l, ∀ t, splines[j]? = some t → valid j t = none := by
        intro h
        rw [h i (List.mem_cons_self ..) s hs] at hv
        cases hv
      cases stop with
      | true =>
        refine ⟨[(r, i)], ?_, ?_, ?_⟩
        · rw [validateLoop, hs]; simp only [hv, if_true]
        · simp only [List.cons_ne_nil, false_iff]; exact hno
        · intro p hp
          rw [List.mem_singleton.1 hp]
          exact ⟨List.mem_cons_self .., s, hs, hv⟩
      | false =>
        refine ⟨(r, i) :: reports, ?_, ?_, ?_⟩
        · rw [validateLoop, hs]; simp only [hv, h1]; rfl
        · simp only [List.cons_ne_nil, false_iff]; exact hno
        · intro p hp
          rcases List.mem_cons.1 hp with rfl | hp
          · exact ⟨List.mem_cons_self .., s, hs, hv⟩
          · exact ⟨List.mem_cons_of_mem _ (h3 p hp).1, (h3 p hp).2⟩

/-- The order of validation remains a permutation. -/
theorem newOrder_perm {N : ℕ} {order : List ℕ} (h : order.Perm (List.range N)) (re : Bool) (reports : List (ℝ × ℕ)) (hk : ∀ p ∈ reports, p.2 < N) :
    (newOrder re reports order).Perm (List.range N) := by
  cases re with
  | false => cases reports <;> exact h
  | true =>
    cases reports with
    | nil => exact h
    | cons p l =>
      obtain ⟨r, k⟩ := p
      have hkN : k < N := hk (r, k) (List.mem_cons_self ..)
      show ((List.range (order.length - k)).map (fun i => k + i) ++ List.range k).Perm _
      rw [h.length_eq, List.length_range]
      refine List.perm_append_comm.trans ?_
      rw [← List.range_add, Nat.add_sub_cancel' hkN.le]

/-- What is always true at the beginning of an iteration. -/
structure Base (c : Cfg κ) (init : List (Spl Q)) (st : LSt Q κ) : Prop where
  splines : List.Forall₂ Like st.splines init
  alphaS : List.Forall₂ Like st.alphaS init
  collS : List.Forall₂ Like st.collS init
  order : st.reordering.Perm (List.range init.length)
  pending : st.computeOptimum = true ∨ st.computeInterpolated = true

theorem base_init (c : Cfg κ) (init : List (Spl Q)) (x : κ) : Base c init (initSt c init x) := by
  have h : List.Forall₂ Like init init := List.forall₂_same.2 fun x _ => Like.refl x
  exact ⟨h, h, h, List.Perm.refl _, Or.inl rfl⟩

/-- What the splines validated are. -/
theorem prepare_spec (c : Cfg κ) {init : List (Spl Q)} {st : LSt Q κ} (h : Base c init st) :
    (prepare c st).splines = st.splines ∧ (prepare c st).alpha = st.alpha ∧ (prepare c st).col = st.col ∧ (prepare c st).xStar = st.xStar ∧
    (prepare c st).reordering = st.reordering ∧ (prepare c st).stopAtFirst = st.stopAtFirst ∧
    (prepare c st).computeOptimum = false ∧ (prepare c st).computeInterpolated = false ∧
    (prepare c st).collS = (if st.computeOptimum then updateSplines c.m c.nb init (c.sol st.xStar) else st.collS) ∧
    (prepare c st).lowerBound = (if st.computeOptimum then c.cost (updateSplines c.m c.nb init (c.sol st.xStar)) else st.lowerBound) ∧
    (prepare c st).minimumReached = !st.computeInterpolated ∧
    List.Forall₂ Like (prepare c st).alphaS init ∧ List.Forall₂ Like (prepare c st).collS init ∧
    (prepare c st).cur = (if st.computeInterpolated then interpolate c.m st.splines (prepare c st).collS st.alpha st.alphaS else (prepare c st).collS) := by
  have hu := updateSplines_like (m := c.m) (nb := c.nb) h.collS (c.sol st.xStar)
  have hc : List.Forall₂ Like (updateSplines c.m c.nb init (c.sol st.xStar)) init := (C89_updateSplines c.m c.nb init _).2
  have hi : ∀ B, List.Forall₂ Like B init → List.Forall₂ Like (interpolate c.m st.splines B st.alpha st.alphaS) init := by
    intro B hB
    exact forall₂_like_trans (C89_interpolate c.m c.nb st.alpha (h.splines.length_eq.trans hB.length_eq.symm) (hB.length_eq.trans h.alphaS.length_eq.symm)).2 h.alphaS
  have hp := h.pending
  unfold prepare LSt.cur
  cases h1 : st.computeOptimum <;> cases h2 : st.computeInterpolated
  · simp [h1, h2] at hp
  · simp only [Bool.false_eq_true, if_false, h1, h2, if_true]
    exact ⟨by trivial, by trivial, by trivial, by trivial, by trivial, by trivial, by trivial, by trivial, by trivial, by trivial, by trivial, hi _ h.collS, h.collS, by trivial⟩
  · simp only [Bool.false_eq_true, if_false, if_true, hu]
    exact ⟨by trivial, by trivial, by trivial, by trivial, by trivial, by trivial, by trivial, by trivial, by trivial, by trivial, by trivial, h.alphaS, hc, by trivial⟩
  · simp only [if_true, hu]
    exact ⟨by trivial, by trivial, by trivial, by trivial, by trivial, by trivial, by trivial, by trivial, by trivial, by trivial, by trivial, hi _ hc, hc, by trivial⟩

theorem cur_like (c : Cfg κ) {init : List (Spl Q)} {st : LSt Q κ} (h : Base c init st) : List.Forall₂ Like (prepare c st).cur init := by
  obtain ⟨-, -, -, -, -, -, -, -, -, -, -, ha, hc, -⟩ := prepare_spec c h
  unfold LSt.cur
  cases (prepare c st).curAlpha with
  | true => exact ha
  | false => exact hc

theorem concat_interpolate {m nb : ℕ} (hm : 0 < m) (hnb : 0 < nb) {a b res : List (Spl Q)} (alpha : ℝ) (hab : a.length = b.length) (hbr : b.length = res.length) :
    concat m nb (interpolate m a b alpha res) = fun c => (1 - alpha) * concat m nb a c + alpha * concat m nb b c := by
  funext c
  by_cases hc : c < a.length * (m * nb)
  · exact (C89_interpolate m nb alpha hab hbr).1 c hc
  · have hd : a.length ≤ c / (m * nb) := by
      rw [Nat.le_div_iff_mul_le (Nat.mul_pos hm hnb)]
      omega
    have hz : ∀ l : List (Spl Q), l.length = a.length → concat m nb l c = 0 := by
      intro l hl
      unfold concat
      rw [List.getElem?_eq_none (by omega)]
    rw [hz a rfl, hz b hab.symm, hz _ ?_]
    · simp
    · unfold interpolate
      simp [hab, hbr]

theorem sat_interpolate {m nb : ℕ} (hm : 0 < m) (hnb : 0 < nb) {a b res : List (Spl Q)} (alpha : ℝ) (hab : a.length = b.length) (hbr : b.length = res.length) {rows : List Row}
    (ha : Sat m nb rows a) (hb : Sat m nb rows b) : Sat m nb rows (interpolate m a b alpha res) := by
  intro r hr
  unfold Row.Holds
  rw [concat_interpolate hm hnb alpha hab hbr, dot_affine, ha r hr, hb r hr]
  ring

theorem sat_same {m nb : ℕ} (hm : 0 < m) {A B : List (Spl Q)} (h : List.Forall₂ (Same m) A B) {rows : List Row} (hB : Sat m nb rows B) : Sat m nb rows A := by
  intro r hr
  unfold Row.Holds
  rw [concat_same hm h]
  exact hB r hr

/-- The state of a `Next`. -/
def Next.st : Next Q κ → LSt Q κ
  | .go st => st
  | .done st => st

theorem accept_spec {c : Cfg κ} {e : Env Q κ} {st : LSt Q κ} {nx : Next Q κ} (h : accept c e st = .ok nx) :
    ∃ st', nx = .go st' ∧ st'.splines = List.zipWith (fun s t => setRow c.m s (row c.m t)) st.splines st.cur ∧ st'.alphaS = st.alphaS ∧ st'.collS = st.collS ∧
      st'.reordering = st.reordering ∧ st'.computeInterpolated = true ∧ st'.noCollision = true ∧ st'.alpha = st.alpha ∧ st'.lowerBound = st.lowerBound ∧
      st'.minimumReached = (st.minimumReached || decide (|c.cost st.cur - st.lowerBound| < c.costThreshold * st.lowerBound)) ∧
      ((c.linearizeAtEachStep = false ∧ st'.col = st.col ∧ st'.xStar = st.xStar ∧ st'.computeOptimum = st.computeOptimum) ∨
        (c.linearizeAtEachStep = true ∧ ∃ rows x, linearizeAll c e st'.splines st'.splines.length 0 st.col.fns = .ok rows ∧ solve c e rows st.xStar = .ok x ∧
          st'.col = ⟨rows, st.col.fns, rows, c.rank rows⟩ ∧ st'.xStar = x ∧ st'.computeOptimum = true)) := by
  unfold accept at h
  cases hl : c.linearizeAtEachStep with
  | false =>
    simp only [hl, Bool.false_eq_true, if_false, Except.ok.injEq] at h
    subst h
    exact ⟨_, rfl, rfl, rfl, rfl, rfl, rfl, rfl, rfl, rfl, rfl, Or.inl ⟨rfl, rfl, rfl, rfl⟩⟩
  | true =>
    simp only [hl, if_true] at h
    cases h1 : linearizeAll c e (List.zipWith (fun s t => setRow c.m s (row c.m t)) st.splines st.cur)
        (List.zipWith (fun s t => setRow c.m s (row c.m t)) st.splines st.cur).length 0 st.col.fns with
    | error er => simp only [h1] at h; cases h
    | ok rows =>
      simp only [h1] at h
      cases h2 : solve c e rows st.xStar with
      | error er => simp only [h2] at h; cases h
      | ok x =>
        simp only [h2, Except.ok.injEq] at h
        subst h
        exact ⟨_, rfl, rfl, rfl, rfl, rfl, rfl, rfl, rfl, rfl, rfl, Or.inr ⟨rfl, rows, x, h1, h2, rfl, rfl, rfl⟩⟩

theorem reject_spec {c : Cfg κ} {e : Env Q κ} {reports : List (ℝ × ℕ)} {st : LSt Q κ} {nx : Next Q κ} (h : reject c e reports st = .ok nx) :
    (st.alpha = 1 ∧ nx = .go { st with noCollision := false, alpha := c.alphaInit, stopAtFirst := c.alwaysStopAtFirst, computeInterpolated := true }) ∨
    (st.alpha ≠ 1 ∧ c.nVar ≤ st.col.rank ∧ nx = .done { st with noCollision := false }) ∨
    (st.alpha ≠ 1 ∧ st.col.rank < c.nVar ∧ ∃ col, addLoop c e st.splines st.cur 0 reports false st.col = .ok (false, col) ∧
      ((st.alpha < c.alphaInit / 4 ∧ nx = .done { st with noCollision := false, col := col }) ∨
        (¬ st.alpha < c.alphaInit / 4 ∧ nx = .go { st with noCollision := false, col := col, alpha := st.alpha * (1 / 2), stopAtFirst := c.alwaysStopAtFirst, computeInterpolated := true }))) ∨
    (st.alpha ≠ 1 ∧ st.col.rank < c.nVar ∧ ∃ col x, addLoop c e st.splines st.cur 0 reports false st.col = .ok (true, col) ∧ solve c e col.reduced st.xStar = .ok x ∧
      nx = .go { st with noCollision := false, col := col, xStar := x, alpha := 1, stopAtFirst := true, computeOptimum := true }) := by
  unfold reject at h
  by_cases h1 : st.alpha = 1
  · simp only [h1, if_true, Except.ok.injEq] at h
    exact Or.inl ⟨h1, by rw [← h]⟩
  · simp only [if_neg h1] at h
    by_cases h2 : c.nVar ≤ st.col.rank
    · simp only [if_pos h2, Except.ok.injEq] at h
      exact Or.inr (Or.inl ⟨h1, h2, h.symm⟩)
    · simp only [if_neg h2] at h
      have hcur : (LSt.cur { st with noCollision := false }) = st.cur := rfl
      rw [hcur] at h
      cases h3 : addLoop c e st.splines st.cur 0 reports false st.col with
      | error er => simp only [h3] at h; cases h
      | ok p =>
        obtain ⟨b, col⟩ := p
        cases b with
        | false =>
          simp only [h3] at h
          refine Or.inr (Or.inr (Or.inl ⟨h1, by omega, col, rfl, ?_⟩))
          by_cases h4 : st.alpha < c.alphaInit / 4
          · simp only [if_pos h4, Except.ok.injEq] at h
            exact Or.inl ⟨h4, h.symm⟩
          · simp only [if_neg h4, Except.ok.injEq] at h
            exact Or.inr ⟨h4, h.symm⟩
        | true =>
          simp only [h3] at h
          cases h5 : solve c e col.reduced st.xStar with
          | error er => simp only [h5] at h; cases h
          | ok x =>
            simp only [h5, Except.ok.injEq] at h
            exact Or.inr (Or.inr (Or.inr ⟨h1, by omega, col, x, rfl, h5, h.symm⟩))

/-- The cases of an iteration. -/
theorem step_spec {c : Cfg κ} {e : Env Q κ} {init : List (Spl Q)} {st : LSt Q κ} (hb : Base c init st) :
    (c.returnOptimum = true ∧ step c e st = accept c e { prepare c st with minimumReached := true }) ∨
    (c.returnOptimum = false ∧ ∃ order reports, order.Perm (List.range init.length) ∧
      ((reports = [] ∧ (∀ (i : ℕ) (s : Spl Q), (prepare c st).cur[i]? = some s → e.valid i s = none) ∧ step c e st = accept c e { prepare c st with reordering := order }) ∨
        (reports ≠ [] ∧ (∀ p ∈ reports, p.2 < init.length ∧ ∃ s, (prepare c st).cur[p.2]? = some s ∧ e.valid p.2 s = some p.1) ∧
          step c e st = reject c e reports { prepare c st with reordering := order }))) := by
  cases hr : c.returnOptimum with
  | true => exact Or.inl ⟨rfl, by unfold step; simp only [hr, if_true]⟩
  | false =>
    refine Or.inr ⟨rfl, ?_⟩
    have hlen := (cur_like c hb).length_eq
    obtain ⟨-, -, -, -, ho, -⟩ := prepare_spec c hb
    have hp : (prepare c st).reordering.Perm (List.range init.length) := by rw [ho]; exact hb.order
    have hmem : ∀ i, i ∈ (prepare c st).reordering ↔ i < init.length := by
      intro i; rw [hp.mem_iff, List.mem_range]
    obtain ⟨reports, h1, h2, h3⟩ := validateLoop_spec e.valid (prepare c st).cur (prepare c st).stopAtFirst (prepare c st).reordering
      (fun i hi => by rw [hlen]; exact (hmem i).1 hi)
    have hN : ∀ p ∈ reports, p.2 < init.length := fun p hp => (hmem _).1 (h3 p hp).1
    refine ⟨_, reports, newOrder_perm hp c.reorderIntervals reports hN, ?_⟩
    cases reports with
    | nil =>
      refine Or.inl ⟨rfl, fun i s hi => ?_, by unfold step; simp only [hr, Bool.false_eq_true, if_false, h1]⟩
      have : i < init.length := by
        rw [← hlen]
        by_contra hc
        rw [List.getElem?_eq_none (by omega)] at hi
        cases hi
      exact h2.1 rfl i ((hmem i).2 this) s hi
    | cons p l => exact Or.inr ⟨by simp, fun q hq => ⟨hN q hq, (h3 q hq).2⟩, by unfold step; simp only [hr, Bool.false_eq_true, if_false, h1]⟩

/-- The base invariant is kept. -/
theorem base_step {c : Cfg κ} {e : Env Q κ} {init : List (Spl Q)} {st st' : LSt Q κ} (hb : Base c init st) (h : step c e st = .ok (.go st')) : Base c init st' := by
  obtain ⟨h1, h2, h3, h4, h5, h6, h7, h8, h9, h10, h11, h12, h13, h14⟩ := prepare_spec c hb
  have hcur := cur_like c hb
  have hacc : ∀ st1 : LSt Q κ, st1.splines = (prepare c st).splines → st1.cur = (prepare c st).cur → st1.alphaS = (prepare c st).alphaS → st1.collS = (prepare c st).collS →
      st1.reordering.Perm (List.range init.length) → accept c e st1 = .ok (.go st') → Base c init st' := by
    intro st1 e1 e2 e3 e4 e5 ha
    obtain ⟨st2, g1, g2, g3, g4, g5, g6, -⟩ := accept_spec ha
    cases g1
    refine ⟨?_, by rw [g3, e3]; exact h12, by rw [g4, e4]; exact h13, by rw [g5]; exact e5, Or.inr g6⟩
    rw [g2, e1, e2, h1]
    exact forall₂_like_trans (forall₂_same_like (forall₂_zip_same (forall₂_like_trans hb.splines (forall₂_like_symm hcur)))) hcur
  rcases step_spec (e := e) hb with ⟨_, hs⟩ | ⟨_, order, reports, hp, ⟨_, _, hs⟩ | ⟨_, _, hs⟩⟩
  · rw [hs] at h
    refine hacc _ ?_ ?_ ?_ ?_ ?_ h
    · rfl
    · rfl
    · rfl
    · rfl
    · show (prepare c st).reordering.Perm _; rw [h5]; exact hb.order
  · rw [hs] at h
    refine hacc _ ?_ ?_ ?_ ?_ ?_ h
    · rfl
    · rfl
    · rfl
    · rfl
    · exact hp
  · rw [hs] at h
    have hsp : List.Forall₂ Like (prepare c st).splines init := by rw [h1]; exact hb.splines
    rcases reject_spec h with ⟨_, g⟩ | ⟨_, _, g⟩ | ⟨_, _, col, _, ⟨_, g⟩ | ⟨_, g⟩⟩ | ⟨_, _, col, x, _, _, g⟩
    · cases g; exact ⟨hsp, h12, h13, hp, Or.inr rfl⟩
    · cases g
    · cases g
    · cases g; exact ⟨hsp, h12, h13, hp, Or.inr rfl⟩
    · cases g; exact ⟨hsp, h12, h13, hp, Or.inl rfl⟩

/-- The splines after an iteration are those before, or those which were accepted. -/
theorem splines_step {c : Cfg κ} {e : Env Q κ} {init : List (Spl Q)} {st : LSt Q κ} {nx : Next Q κ} (hb : Base c init st) (h : step c e st = .ok nx) :
    nx.st.splines = st.splines ∨ (List.Forall₂ (Same c.m) nx.st.splines (prepare c st).cur ∧
      (c.returnOptimum = false → ∀ (i : ℕ) (s : Spl Q), (prepare c st).cur[i]? = some s → e.valid i s = none)) := by
  obtain ⟨h1, -⟩ := prepare_spec c hb
  have hcur := cur_like c hb
  have hz : List.Forall₂ Like st.splines (prepare c st).cur := forall₂_like_trans hb.splines (forall₂_like_symm hcur)
  have hacc : ∀ st1 : LSt Q κ, st1.splines = (prepare c st).splines → st1.cur = (prepare c st).cur → accept c e st1 = .ok nx →
      List.Forall₂ (Same c.m) nx.st.splines (prepare c st).cur := by
    intro st1 e1 e2 ha
    obtain ⟨st2, g1, g2, -⟩ := accept_spec ha
    rw [g1]
    show List.Forall₂ (Same c.m) st2.splines _
    rw [g2, e1, e2, h1]
    exact forall₂_zip_same hz
  rcases step_spec (e := e) hb with ⟨hr, hs⟩ | ⟨hr, order, reports, hp, ⟨_, hv, hs⟩ | ⟨_, _, hs⟩⟩
  · rw [hs] at h
    refine Or.inr ⟨hacc _ ?_ ?_ h, fun h0 => by rw [hr] at h0; cases h0⟩ <;> rfl
  · rw [hs] at h
    refine Or.inr ⟨hacc _ ?_ ?_ h, fun _ => hv⟩ <;> rfl
  · rw [hs] at h
    refine Or.inl ?_
    rcases reject_spec h with ⟨_, g⟩ | ⟨_, _, g⟩ | ⟨_, _, col, _, ⟨_, g⟩ | ⟨_, g⟩⟩ | ⟨_, _, col, x, _, _, g⟩ <;> · rw [g]; exact h1

/-- Induction on the loop. -/
theorem loop_ind {c : Cfg κ} {env : ℕ → Env Q κ} (I : LSt Q κ → Prop) (J : LSt Q κ → Prop) (hIJ : ∀ st, I st → J st)
    (hgo : ∀ t st st', I st → ¬ (st.noCollision = true ∧ st.minimumReached = true) → step c (env t) st = .ok (.go st') → I st')
    (hdone : ∀ t st st', I st → step c (env t) st = .ok (.done st') → J st') :
    ∀ fuel t st, I st → ∀ out, optLoop c env fuel t st = .ok (some out) → J out := by
  intro fuel
  induction fuel with
  | zero => intro t st _ out h; cases h
  | succ fuel ih =>
    intro t st hI out h
    unfold optLoop at h
    by_cases hs : ((st.noCollision && st.minimumReached) || (env t).stop) = true
    · rw [if_pos hs] at h
      cases h
      exact hIJ _ hI
    · rw [if_neg hs] at h
      cases hst : step c (env t) st with
      | error er => rw [hst] at h; cases h
      | ok nx =>
        rw [hst] at h
        cases nx with
        | done st' => cases h; exact hdone t st _ hI hst
        | go st' =>
          refine ih (t + 1) st' (hgo t st st' hI (fun hh => hs ?_) hst) out h
          rw [hh.1, hh.2]; rfl

/-- C93: the path returned is the initial one or one whose splines were all accepted by their validation methods, it only differs by control points, and it satisfies
the linear constraints; for all answers of the validation methods, of the solver and of the collision functions, and for any interruption. -/
theorem C93_valid (c : Cfg κ) (hm : 0 < c.m) (hnb : 0 < c.nb) (hro : c.returnOptimum = false) (env : ℕ → Env Q κ) (init : List (Spl Q)) (x : κ) (eqs : List Row)
    (h0 : Sat c.m c.nb eqs init) (hsol : ∀ v, Sat c.m c.nb eqs (updateSplines c.m c.nb init (c.sol v))) (fuel : ℕ) (out : LSt Q κ)
    (h : optLoop c env fuel 0 (initSt c init x) = .ok (some out)) :
    List.Forall₂ Like out.splines init ∧ Sat c.m c.nb eqs out.splines ∧ (out.splines = init ∨ ∃ t, Accepted c.m (env t) out.splines) := by
  let I : LSt Q κ → Prop := fun st => Base c init st ∧ Sat c.m c.nb eqs st.splines ∧ Sat c.m c.nb eqs st.collS ∧ (st.splines = init ∨ ∃ t, Accepted c.m (env t) st.splines)
  let J : LSt Q κ → Prop := fun st => List.Forall₂ Like st.splines init ∧ Sat c.m c.nb eqs st.splines ∧ (st.splines = init ∨ ∃ t, Accepted c.m (env t) st.splines)
  have key : ∀ t st nx, I st → step c (env t) st = .ok nx → J nx.st ∧ Sat c.m c.nb eqs (prepare c st).collS := by
    rintro t st nx ⟨hb, hs, hc, ha⟩ hst
    obtain ⟨h1, h2, h3, h4, h5, h6, h7, h8, h9, h10, h11, h12, h13, h14⟩ := prepare_spec c hb
    have hcoll : Sat c.m c.nb eqs (prepare c st).collS := by
      rw [h9]
      cases st.computeOptimum with
      | true => exact hsol _
      | false => exact hc
    have hcur : Sat c.m c.nb eqs (prepare c st).cur := by
      rw [h14]
      cases st.computeInterpolated with
      | false => exact hcoll
      | true => exact sat_interpolate hm hnb _ (hb.splines.length_eq.trans h13.length_eq.symm) (h13.length_eq.trans hb.alphaS.length_eq.symm) hs hcoll
    refine ⟨?_, hcoll⟩
    rcases splines_step hb hst with e | ⟨e, hv⟩
    · exact ⟨by rw [e]; exact hb.splines, by rw [e]; exact hs, by rw [e]; exact ha⟩
    · refine ⟨forall₂_like_trans (forall₂_same_like e) (cur_like c hb), sat_same hm e hcur, Or.inr ⟨t, fun i s hi => ?_⟩⟩
      obtain ⟨s', hs', hsame⟩ := forall₂_get e hi
      exact ⟨s', hsame, hv hro i s' hs'⟩
  refine loop_ind I J (fun st hI => ⟨hI.1.splines, hI.2.1, hI.2.2.2⟩) ?_ ?_ fuel 0 (initSt c init x) ⟨base_init c init x, h0, h0, Or.inl rfl⟩ out h
  · intro t st st' hI _ hst
    have hk := key t st _ hI hst
    refine ⟨base_step hI.1 hst, hk.1.2.1, ?_, hk.1.2.2⟩
    have hcs : st'.collS = (prepare c st).collS := by
      rcases step_spec (e := env t) hI.1 with ⟨_, hs⟩ | ⟨_, order, reports, _, ⟨_, _, hs⟩ | ⟨_, _, hs⟩⟩
      · rw [hs] at hst
        obtain ⟨st2, g1, -, -, g4, -⟩ := accept_spec hst
        cases g1; exact g4
      · rw [hs] at hst
        obtain ⟨st2, g1, -, -, g4, -⟩ := accept_spec hst
        cases g1; exact g4
      · rw [hs] at hst
        rcases reject_spec hst with ⟨_, g⟩ | ⟨_, _, g⟩ | ⟨_, _, col, _, ⟨_, g⟩ | ⟨_, g⟩⟩ | ⟨_, _, col, x, _, _, g⟩ <;> · cases g <;> rfl
    rw [hcs]; exact hk.2
  · intro t st st' hI hst
    exact (key t st _ hI hst).1

end Verif.SplineOpt
