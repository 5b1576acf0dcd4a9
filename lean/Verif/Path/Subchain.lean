import Verif.Path.Extracted
set_option linter.unusedSectionVars false

/-!
# Paths of some degrees of freedom (C109)

`SubchainPath` (include/hpp/core/subchain-path.hh): the values of some segments of the configuration variables along another path.
-/
namespace Verif.PathV
variable {K : Type} [Field K] [LinearOrder K] [IsStrictOrderedRing K]

/-- `Eigen::BlockIndex::cardinal`: number of indices of the segments (first index, length). -/
def cardinal : List (ℕ × ℕ) → ℕ
  | [] => 0
  | (_, l) :: bs => l + cardinal bs

/-- `RowBlockIndices::rview (q)`: the segments one after the other; reading a segment out of the vector is undefined (external: hpp-constraints). -/
def rview {α : Type} (q : List α) : List (ℕ × ℕ) → Except Err (List α)
  | [] => .ok []
  | (s, l) :: bs => if s + l ≤ q.length then
      match rview q bs with
      | .error e => .error e
      | .ok r => .ok ((q.drop s).take l ++ r)
    else .error .indexOutOfBounds

/-- Members of `SubchainPath`: subchain-path.hh:152-156, and those of `Path`.  `qsize`: number of rows of `q_`; `osize`: output size of the original. -/
structure Sub (K : Type) where
  original : Gen K (List K)
  osize : ℕ
  blocks : List (ℕ × ℕ)
  qsize : ℕ
  cons : Option (Cst K (List K))
  tp : Option (K → K)
  tr : K × K
  pr : K × K
  /-- `outputSize ()` -/
  size : ℕ

/-- Constructor: subchain-path.hh:125-132. -/
def Sub.create (o : Gen K (List K)) (n : ℕ) (bs : List (ℕ × ℕ)) : Sub K := ⟨o, n, bs, n, none, none, o.tr, o.tr, cardinal bs⟩

/-- Copy: subchain-path.hh:134-139. -/
def Sub.copy (p : Sub K) : Sub K := p

/-- Copy with constraints: subchain-path.hh:141-145; `q_` is default constructed, without rows. -/
def Sub.copyWith (p : Sub K) (c : Option (Cst K (List K))) : Sub K := { p with qsize := 0, cons := c }

/-- `impl_compute`: subchain-path.hh:87-91.  Evaluating the original in a vector of another size is undefined. -/
def Sub.impl (p : Sub K) (s : K) : Except Err (List K) :=
  if p.qsize = p.osize then
    match p.original.eval s with
    | .error e => .error e
    | .ok q => rview q p.blocks
  else .error .indexOutOfBounds

/-- As a path. -/
def Sub.toGen (p : Sub K) : Gen K (List K) := ⟨p.impl, p.cons, p.tp, p.tr, p.pr⟩
def Sub.eval (p : Sub K) (t : K) : Except Err (List K) := p.toGen.eval t

/-- `initial`, `end`: subchain-path.hh:94-105, from those of the original. -/
def Sub.ending (p : Sub K) (q : Except Err (List K)) : Except Err (List K) := match q with
  | .error e => .error e
  | .ok q => rview q p.blocks

/-! ## Specification -/

/-- The indices of the segments, in order. -/
def indices (bs : List (ℕ × ℕ)) : List ℕ := bs.flatMap (fun b => List.range' b.1 b.2)

theorem indices_length (bs : List (ℕ × ℕ)) : (indices bs).length = cardinal bs := by
  induction bs with
  | nil => rfl
  | cons b bs ih => obtain ⟨s, l⟩ := b; simp only [indices, List.flatMap_cons, List.length_append, List.length_range', cardinal] at ih ⊢; rw [ih]

theorem take_drop_range' {α : Type} (q : List α) (s l : ℕ) (h : s + l ≤ q.length) :
    ((q.drop s).take l).map some = (List.range' s l).map (fun i => q[i]?) := by
  apply List.ext_getElem?
  intro i
  simp only [List.getElem?_map, List.getElem?_take, List.getElem?_drop]
  by_cases hi : i < l
  · rw [if_pos hi, List.getElem?_eq_getElem (by omega)]
    simp [hi]
  · simp [hi]

/-- C109: the extraction succeeds if and only if all segments are in the vector; then the result has as many values as the segments have indices, and they
are the values at these indices, in this order. -/
theorem C109_rview {α : Type} (q : List α) (bs : List (ℕ × ℕ)) :
    ((∃ r, rview q bs = .ok r) ↔ ∀ b ∈ bs, b.1 + b.2 ≤ q.length) ∧
    ∀ r, rview q bs = .ok r → r.length = cardinal bs ∧ r.map some = (indices bs).map (fun i => q[i]?) := by
  induction bs with
  | nil =>
    refine ⟨⟨fun _ => by simp, fun _ => ⟨[], rfl⟩⟩, ?_⟩
    intro r hr
    simp only [rview, Except.ok.injEq] at hr
    subst hr
    exact ⟨rfl, rfl⟩
  | cons b bs ih =>
    obtain ⟨s, l⟩ := b
    obtain ⟨ih1, ih2⟩ := ih
    by_cases h : s + l ≤ q.length
    · cases hb : rview q bs with
      | error e =>
        have e1 : rview q ((s, l) :: bs) = .error e := by simp only [rview, if_pos h, hb]
        rw [e1]
        refine ⟨⟨(fun ⟨r, hr⟩ => by cases hr), ?_⟩, fun r hr => by cases hr⟩
        intro ha
        obtain ⟨r, hr⟩ := ih1.2 (fun b hb' => ha b (by simp [hb']))
        rw [hb] at hr; cases hr
      | ok r' =>
        have e1 : rview q ((s, l) :: bs) = .ok ((q.drop s).take l ++ r') := by simp only [rview, if_pos h, hb]
        rw [e1]
        obtain ⟨i1, i2⟩ := ih2 r' hb
        have ha := ih1.1 ⟨r', hb⟩
        refine ⟨⟨fun _ b hb' => ?_, fun _ => ⟨_, rfl⟩⟩, ?_⟩
        · rcases List.mem_cons.1 hb' with rfl | hb''
          · exact h
          · exact ha b hb''
        · intro r hr
          simp only [Except.ok.injEq] at hr
          subst hr
          refine ⟨?_, ?_⟩
          · simp only [List.length_append, List.length_take, List.length_drop, i1, cardinal]
            omega
          · rw [List.map_append, i2, take_drop_range' q s l h]
            simp [indices, List.flatMap_cons]
    · have e1 : rview q ((s, l) :: bs) = .error .indexOutOfBounds := by simp only [rview, if_neg h]
      rw [e1]
      refine ⟨⟨(fun ⟨r, hr⟩ => by cases hr), fun ha => (h (ha (s, l) (by simp))).elim⟩, fun r hr => by cases hr⟩

theorem constrained_none (s : K) (r : Except Err (List K)) : constrained none s r = r := by cases r <;> rfl

theorem create_eval (o : Gen K (List K)) (n : ℕ) (bs : List (ℕ × ℕ)) (t : K) :
    (Sub.create o n bs).eval t = match o.eval t with | .error e => .error e | .ok q => rview q bs := by
  show constrained none t ((Sub.create o n bs).impl t) = _
  rw [constrained_none]
  simp only [Sub.impl, Sub.create, if_true]

/-- C109: along a new path, the values at time `t` are those of the original path at this time, at the indices of the segments; the interval is that of the
original path; there is a value if and only if the original has one (in configuration spaces where the segments fit). -/
theorem C109_eval (o : Gen K (List K)) (n : ℕ) (bs : List (ℕ × ℕ)) (hbs : ∀ b ∈ bs, b.1 + b.2 ≤ n) (ho : ∀ t q, o.eval t = .ok q → q.length = n) (t : K) :
    (Sub.create o n bs).tr = o.tr ∧
    (∀ e, (Sub.create o n bs).eval t = .error e ↔ o.eval t = .error e) ∧
    ∀ q, o.eval t = .ok q → ∃ r, (Sub.create o n bs).eval t = .ok r ∧ r.length = (Sub.create o n bs).size ∧ r.map some = (indices bs).map (fun i => q[i]?) := by
  have key := create_eval o n bs t
  refine ⟨rfl, ?_, ?_⟩
  · intro e
    rw [key]
    cases h : o.eval t with
    | error e' => simp
    | ok q =>
      obtain ⟨r, hr⟩ := (C109_rview q bs).1.2 (by rw [ho t q h]; exact hbs)
      simp [hr]
  · intro q hq
    obtain ⟨r, hr⟩ := (C109_rview q bs).1.2 (by rw [ho t q hq]; exact hbs)
    obtain ⟨h1, h2⟩ := (C109_rview q bs).2 r hr
    exact ⟨r, by rw [key, hq]; exact hr, h1, h2⟩

/-- C109: `initial ()` and `end ()` are the values at the ends of the interval whenever those of the original are. -/
theorem C109_ends (o : Gen K (List K)) (n : ℕ) (bs : List (ℕ × ℕ)) (qi : Except Err (List K)) (t : K) (h : qi = o.eval t) :
    (Sub.create o n bs).ending qi = (Sub.create o n bs).eval t := by
  rw [create_eval, h]
  rfl

/-- C109: extracting an interval and some degrees of freedom commute: the path of the degrees of freedom of an extracted path, and the path extracted from the
path of the degrees of freedom, have the same values, if the original has no time parameterization and its constraints do not depend on the parameter. -/
theorem C109_extract (o : Gen K (List K)) (ho : o.tp = none) (hc : ConstO o.cons) (n : ℕ) (bs : List (ℕ × ℕ)) (a b t : K) :
    (Sub.create (Ext.create o a b).toGen n bs).eval t = (Ext.create (Sub.create o n bs).toGen a b).eval t := by
  rw [create_eval]
  have e1 : (Ext.create o a b).toGen.eval t = constrained o.cons t (o.impl ((Ext.create o a b).sIn t)) := rfl
  have e2 : (Ext.create (Sub.create o n bs).toGen a b).eval t = (Sub.create o n bs).eval ((Ext.create o a b).sIn t) := by
    show constrained none t ((Sub.create o n bs).impl ((Ext.create o a b).sIn t)) = constrained none ((Ext.create o a b).sIn t) ((Sub.create o n bs).impl ((Ext.create o a b).sIn t))
    rw [constrained_none, constrained_none]
  have e3 : o.eval ((Ext.create o a b).sIn t) = constrained o.cons ((Ext.create o a b).sIn t) (o.impl ((Ext.create o a b).sIn t)) := by
    simp only [Gen.eval, Gen.paramAtTime, ho]
  rw [e2, create_eval, e1, e3, constrained_const hc t ((Ext.create o a b).sIn t)]

/-- C109: degrees of freedom of a path of degrees of freedom: the indices are composed. -/
theorem C109_compose {α : Type} (q r r' : List α) (bs cs : List (ℕ × ℕ)) (h : rview q bs = .ok r) (h' : rview r cs = .ok r') :
    r'.map some = (indices cs).map (fun j => (indices bs)[j]?.bind (fun i => q[i]?)) := by
  obtain ⟨l1, e1⟩ := (C109_rview q bs).2 r h
  obtain ⟨l2, e2⟩ := (C109_rview r cs).2 r' h'
  have hj : ∀ j ∈ indices cs, j < r.length := by
    intro j hj
    have hb := (C109_rview r cs).1.1 ⟨r', h'⟩
    simp only [indices, List.mem_flatMap, List.mem_range'_1] at hj
    obtain ⟨b, hb1, hb2⟩ := hj
    have := hb b hb1
    omega
  rw [e2]
  refine List.map_congr_left ?_
  intro j hjm
  have hjr := hj j hjm
  have e := congrArg (fun l => l[j]?) e1
  simp only [List.getElem?_map] at e
  rw [List.getElem?_eq_getElem hjr] at e ⊢
  have hji : j < (indices bs).length := by rw [indices_length, ← l1]; exact hjr
  rw [List.getElem?_eq_getElem hji] at e ⊢
  simp only [Option.map_some, Option.some.injEq] at e
  simpa using e

/-- C109: a copy has the same values. -/
theorem C109_copy (p : Sub K) (t : K) : p.copy.eval t = p.eval t ∧ p.copy.tr = p.tr := ⟨rfl, rfl⟩

/-- C109: a copy with constraints has the constraints given and the range of the original. -/
theorem C109_copyWith (p : Sub K) (c : Option (Cst K (List K))) : (p.copyWith c).cons = c ∧ (p.copyWith c).tr = p.tr ∧ (p.copyWith c).original = p.original ∧ (p.copyWith c).osize = p.osize := ⟨rfl, rfl, rfl, rfl⟩

/-- C109 (finding): a copy with constraints cannot be evaluated at any time: the vector in which the original path is evaluated has no rows. -/
theorem C109_copy_counterexample (o : Gen K (List K)) (n : ℕ) (hn : 0 < n) (bs : List (ℕ × ℕ)) (c : Option (Cst K (List K))) (t : K) :
    ((Sub.create o n bs).copyWith c).eval t = .error .indexOutOfBounds := by
  have h : ¬ 0 = n := by omega
  simp [Sub.eval, Gen.eval, Sub.toGen, Sub.create, Sub.copyWith, Sub.impl, h, constrained]

/-- The degrees of freedom 2 and 0 of a path of dimension 3. -/
example : (Sub.create (K := ℚ) ⟨fun t => .ok [t, 1, 2 * t], none, none, (0, 4), (0, 4)⟩ 3 [(2, 1), (0, 1)]).eval 3 = .ok [6, 3] ∧
    ((Sub.create (K := ℚ) ⟨fun t => .ok [t, 1, 2 * t], none, none, (0, 4), (0, 4)⟩ 3 [(2, 1), (0, 1)]).copyWith none).eval 3 = .error .indexOutOfBounds := by
  constructor
  · simp [Sub.eval, Gen.eval, Sub.toGen, Sub.create, Sub.impl, constrained, Gen.paramAtTime, rview]; norm_num
  · exact C109_copy_counterexample _ 3 (by omega) _ none 3

end Verif.PathV
