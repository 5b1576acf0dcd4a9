import Verif.SplineOpt.Loop
import Verif.Constraint.Compress
set_option linter.unusedSectionVars false

/-!
# Degrees of freedom that the spline optimizer does not change (C132)

A path of the vector to optimize may hold constraints: the optimizer then keeps the control points of the degrees of freedom selected by `computeActiveParameters`.  Configurations are vectors, as in
`Verif.SplineOpt.Continuity`; sets of degrees of freedom (`RowBlockIndices`) are lists of indices, free variables are lists of segments (first index, length).

The solver belongs to package hpp-constraints: what is assumed of it is stated in `Solver.Ok` and `Solver.Dep`.
-/
namespace Verif.Active
open Verif.Spline Verif.SplineOpt
open Verif.Compress hiding idx

/-- What the optimizer reads in the solver of the constraints of a path (`hpp::constraints::solver::BySubstitution`), and what the evaluation of the path does with it. -/
structure Solver where
  /-- `implicitDof ()`: degrees of freedom on which the implicit constraints depend once outputs of explicit constraints are replaced. -/
  implicit : List ℕ
  /-- `explicitConstraintSet ().activeDerivativeParameters ()` -/
  inputs : List ℕ
  /-- `explicitConstraintSet ().outDers ()` -/
  outputs : List ℕ
  /-- `freeVariables ()` -/
  free : List (ℕ × ℕ)
  /-- `explicitConstraintSet ().notOutDers ()` -/
  notOut : List (ℕ × ℕ)
  /-- `reducedDimension ()` -/
  rdim : ℕ
  /-- Reduced jacobian at a configuration: row, rank of the free variable. -/
  jac : (ℕ → ℝ) → ℕ → ℕ → ℝ
  /-- Error of the implicit constraints at a configuration, once outputs of explicit constraints are replaced. -/
  res : (ℕ → ℝ) → ℕ → ℝ
  /-- The error is below the threshold. -/
  small : (ℕ → ℝ) → Bool
  /-- Step computed from the error and the reduced jacobian, one value for each free variable. -/
  dir : (ℕ → ℝ) → (ℕ → ℕ → ℝ) → ℕ → ℝ
  /-- `ExplicitConstraintSet::solve` -/
  expl : (ℕ → ℝ) → ℕ → ℝ
  /-- `maxIterations` -/
  maxIter : ℕ

open scoped Classical in
/-- `J.col (r).isZero (guessThr)`: spline-gradient-based.cc:273. -/
noncomputable def zeroCol (S : Solver) (thr : ℝ) (q0 : ℕ → ℝ) (r : ℕ) : Bool :=
  decide (∀ i < S.rdim, |S.jac q0 i r| ≤ thr)

/-- The loop over the columns of the jacobian: spline-gradient-based.cc:272-286; `c` columns are left, `acc` is `passive`.  `none`: an element out of a vector of segments is read. -/
def scan (zero : ℕ → Bool) (notOut free : List (ℕ × ℕ)) : ℕ → ℕ → ℕ → ℕ → List ℕ → Option (List ℕ)
  | 0, _, _, _, acc => some acc
  | c + 1, r, j, k, acc =>
    match notOut[j]?, free[j]? with
    | some b, some f =>
      let acc := if zero r then acc ++ [b.1 + k] else acc
      if f.2 ≤ k + 1 then scan zero notOut free c (r + 1) (j + 1) 0 acc else scan zero notOut free c (r + 1) j (k + 1) acc
    | _, _ => none

open scoped Classical in
/-- `implicitBI` before the explicit part is added: spline-gradient-based.cc:250-297. -/
noncomputable def implicitPart (S : Solver) (q0 : ℕ → ℝ) (thr : ℝ) (useInput : Bool) : Option (List ℕ) :=
  if 0 < S.rdim then
    if 0 ≤ thr then
      match scan (zeroCol S thr q0) S.notOut S.free (total S.free) 0 0 0 [] with
      | some passive => some (S.implicit.filter fun d => decide (d ∉ passive))
      | none => none
    else some S.implicit
  else if useInput then some S.inputs
  else some []

/-- `computeActiveParameters`: spline-gradient-based.cc:242-306, the degrees of freedom that the optimizer shall not change (sorted, without repetition: `updateIndices`). -/
noncomputable def select (m : ℕ) (S : Solver) (q0 : ℕ → ℝ) (thr : ℝ) (useInput : Bool) : Option (List ℕ) :=
  match implicitPart S q0 thr useInput with
  | some l => some ((List.range m).filter fun d => decide (d ∈ l ++ S.outputs))
  | none => none

/-- `activeParameters` of a path: all degrees of freedom at construction (spline-gradient-based-abstract.hh:159), the complement of those selected if the path has constraints
(spline-gradient-based.cc:196-222). -/
noncomputable def activeOf (m : ℕ) (S : Option Solver) (q0 : ℕ → ℝ) (thr : ℝ) : Option (List ℕ) :=
  match S with
  | none => some (List.range m)
  | some S =>
    match select m S q0 thr false with
    | some sel => some ((List.range m).filter fun d => decide (d ∉ sel))
    | none => none

/-- `addProblemConstraints` (spline-gradient-based.cc:182-190): splines with their active degrees of freedom; each spline comes with the initial configuration and the constraints of the initial path. -/
noncomputable def activeAll (m : ℕ) (thr : ℝ) : List (VSpl × (ℕ → ℝ) × Option Solver) → Option (List (VSpl × List ℕ))
  | [] => some []
  | (s, q0, S) :: l =>
    match activeOf m S q0 thr, activeAll m thr l with
    | some a, some r => some ((s, a) :: r)
    | _, _ => none

/-- Iterations of the solver: the outputs of explicit constraints are computed, then steps along free variables are done as long as the error is not small (package hpp-constraints, without line search). -/
def Solver.iter (S : Solver) : ℕ → (ℕ → ℝ) → (ℕ → ℝ) × Bool
  | 0, q => (q, S.small (S.res q))
  | n + 1, q => if S.small (S.res q) then (q, true) else
      S.iter n (S.expl fun d => q d + uncompress S.free (S.dir (S.res q) (S.jac q)) (fun _ => 0) d)

def Solver.apply (S : Solver) (q : ℕ → ℝ) : (ℕ → ℝ) × Bool := S.iter S.maxIter (S.expl q)

/-- Evaluation of a path with constraints: src/path.cc:113-143 (`eval`, `applyConstraints`). -/
noncomputable def evalAt (S : Option Solver) (s : VSpl) (t : ℝ) : (ℕ → ℝ) × Bool :=
  match S with
  | none => (s.compute integ t, true)
  | some S => S.apply (s.compute integ t)

/-! ## Specification -/

/-- Same coordinates in a set of degrees of freedom. -/
def Agree (I : ℕ → Prop) (q q' : ℕ → ℝ) : Prop := ∀ d, I d → q d = q' d

/-- What package hpp-constraints guarantees about sets of degrees of freedom. -/
structure Solver.Ok (S : Solver) (m : ℕ) : Prop where
  same : S.notOut = S.free
  disj : Disj S.free
  pos : ∀ b ∈ S.free, 0 < b.2
  implicitFree : ∀ d ∈ S.implicit, Free S.free d
  outNotFree : ∀ d ∈ S.outputs, ¬ Free S.free d
  bound : ∀ d, d ∈ S.implicit ∨ d ∈ S.outputs → d < m
  none : S.rdim = 0 → S.implicit = []
  expl : ∀ q d, d ∉ S.outputs → S.expl q d = q d
  /-- A step does not move a free variable on which no constraint depends (pseudo-inverse: solution of minimal norm). -/
  dir : ∀ v J r, (∀ i < S.rdim, J i r = 0) → S.dir v J r = 0

/-- The implicit constraints depend on these degrees of freedom only. -/
structure Solver.Dep (S : Solver) (I : ℕ → Prop) : Prop where
  res : ∀ q q', Agree I q q' → S.res q = S.res q'
  jac : ∀ q q', Agree I q q' → S.jac q = S.jac q'
  zero : ∀ q r, ¬ I (Compress.idx S.free r) → ∀ i < S.rdim, S.jac q i r = 0

/-- Degree of freedom considered as passive: its column in the jacobian at the initial configuration of the path is below the threshold. -/
def Passive (S : Solver) (q0 : ℕ → ℝ) (thr : ℝ) (d : ℕ) : Prop := 0 ≤ thr ∧ ∃ r < total S.free, Compress.idx S.free r = d ∧ ∀ i < S.rdim, |S.jac q0 i r| ≤ thr

/-- Degrees of freedom of the implicit constraints that are not passive. -/
def Kept (S : Solver) (q0 : ℕ → ℝ) (thr : ℝ) (d : ℕ) : Prop := d ∈ S.implicit ∧ ¬ Passive S q0 thr d

/-! ## Proofs -/

theorem idx_split (pre post : List (ℕ × ℕ)) (b : ℕ × ℕ) (k : ℕ) (hk : k < b.2) : Compress.idx (pre ++ b :: post) (total pre + k) = b.1 + k := by
  induction pre with
  | nil => simp [Compress.idx, total, hk]
  | cons a pre ih =>
    simp only [List.cons_append, Compress.idx, total]
    rw [if_neg (by omega), show a.2 + total pre + k - a.2 = total pre + k by omega]
    exact ih

theorem total_append (l l' : List (ℕ × ℕ)) : total (l ++ l') = total l + total l' := by
  induction l with
  | nil => simp [total]
  | cons a l ih => simp only [List.cons_append, total, ih]; omega

/-- The loop reads nothing out of the vectors and gives the free variables of zero columns. -/
theorem scan_eq (zero : ℕ → Bool) (bs : List (ℕ × ℕ)) (hpos : ∀ b ∈ bs, 0 < b.2) (c : ℕ) : ∀ (pre post : List (ℕ × ℕ)) (k : ℕ) (acc : List ℕ), bs = pre ++ post → (∀ b ∈ post.head?, k < b.2) →
    (post = [] → k = 0) → total pre + k + c = total bs →
    scan zero bs bs c (total pre + k) pre.length k acc = some (acc ++ ((List.range' (total pre + k) c).filter zero).map (Compress.idx bs)) := by
  induction c with
  | zero => intro pre post k acc _ _ _ _; simp [scan]
  | succ c ih =>
    intro pre post k acc hb hk hk0 hc
    cases post with
    | nil =>
      have := hk0 rfl
      subst hb
      simp at hc
      omega
    | cons b post =>
      have hkb := hk b (by simp)
      have hget : bs[pre.length]? = some b := by rw [hb]; simp
      have hidx : Compress.idx bs (total pre + k) = b.1 + k := by rw [hb]; exact idx_split _ _ _ _ hkb
      have hacc : (if zero (total pre + k) then acc ++ [b.1 + k] else acc) ++ ((List.range' (total pre + k + 1) c).filter zero).map (Compress.idx bs) =
          acc ++ ((List.range' (total pre + k) (c + 1)).filter zero).map (Compress.idx bs) := by
        rw [List.range'_succ, List.filter_cons]
        by_cases hz : zero (total pre + k) = true
        · simp [hz, hidx]
        · simp [hz]
      rw [scan, hget]
      simp only
      by_cases hlast : b.2 ≤ k + 1
      · rw [if_pos hlast]
        have hek : k + 1 = b.2 := by omega
        have ht : total (pre ++ [b]) = total pre + k + 1 := by rw [total_append]; simp [total]; omega
        have := ih (pre ++ [b]) post 0 (if zero (total pre + k) then acc ++ [b.1 + k] else acc) (by rw [hb]; simp)
          (fun x hx => hpos x (by rw [hb]; exact List.mem_append_right _ (List.mem_cons_of_mem _ (List.mem_of_mem_head? hx)))) (fun _ => rfl) (by rw [ht]; omega)
        rw [ht, List.length_append, List.length_singleton, Nat.add_zero] at this
        rw [this, hacc]
      · rw [if_neg hlast]
        have := ih pre (b :: post) (k + 1) (if zero (total pre + k) then acc ++ [b.1 + k] else acc) hb (fun x hx => by simp at hx; subst hx; omega) (fun h => by cases h) (by omega)
        rw [← Nat.add_assoc] at this
        rw [this, hacc]

theorem scan_total (zero : ℕ → Bool) (bs : List (ℕ × ℕ)) (hpos : ∀ b ∈ bs, 0 < b.2) :
    scan zero bs bs (total bs) 0 0 0 [] = some (((List.range (total bs)).filter zero).map (Compress.idx bs)) := by
  have := scan_eq zero bs hpos (total bs) [] bs 0 [] rfl (fun b hb => hpos b (List.mem_of_mem_head? hb)) (fun _ => rfl) (by simp [total])
  simpa [total, List.range_eq_range'] using this

theorem implicitPart_spec {S : Solver} {m : ℕ} (h : S.Ok m) (q0 : ℕ → ℝ) (thr : ℝ) :
    ∃ l, implicitPart S q0 thr false = some l ∧ ∀ d, d ∈ l ↔ Kept S q0 thr d := by
  classical
  unfold implicitPart
  by_cases h0 : 0 < S.rdim
  · rw [if_pos h0]
    by_cases ht : 0 ≤ thr
    · rw [if_pos ht, h.same, scan_total _ _ h.pos]
      refine ⟨_, rfl, fun d => ?_⟩
      unfold Kept Passive zeroCol
      simp only [List.mem_filter, decide_eq_true_eq, List.mem_map, List.mem_range, not_exists, not_and]
      constructor
      · rintro ⟨h1, h2⟩
        exact ⟨h1, fun _ r hr e hz => h2 r ⟨hr, hz⟩ e⟩
      · rintro ⟨h1, h2⟩
        exact ⟨h1, fun r hr e => h2 ht r hr.1 e hr.2⟩
    · rw [if_neg ht]
      exact ⟨_, rfl, fun d => ⟨fun hd => ⟨hd, fun hp => ht hp.1⟩, fun hd => hd.1⟩⟩
  · rw [if_neg h0]
    refine ⟨[], by simp, fun d => ⟨fun hd => by (cases hd), fun hd => ?_⟩⟩
    have := hd.1
    rw [h.none (by omega)] at this
    exact this

/-- C132: which degrees of freedom the optimizer may change on a path with constraints: those that are neither outputs of explicit constraints nor used by implicit constraints, except those whose
column of the jacobian at the initial configuration of the path is below the threshold, if it is not negative.  Nothing out of the vectors of segments is read. -/
theorem C132_active {S : Solver} {m : ℕ} (h : S.Ok m) (q0 : ℕ → ℝ) (thr : ℝ) :
    ∃ a, activeOf m (some S) q0 thr = some a ∧ ∀ d, d ∈ a ↔ d < m ∧ d ∉ S.outputs ∧ (d ∈ S.implicit → Passive S q0 thr d) := by
  obtain ⟨l, hl, hd⟩ := implicitPart_spec h q0 thr
  refine ⟨(List.range m).filter fun d => decide (d ∉ (List.range m).filter fun d => decide (d ∈ l ++ S.outputs)), by simp only [activeOf, select, hl], fun d => ?_⟩
  simp only [List.mem_filter, List.mem_range, decide_eq_true_eq, List.mem_append, not_and, not_or, hd]
  unfold Kept
  constructor
  · rintro ⟨h1, h2⟩
    exact ⟨h1, (h2 h1).2, fun hi => by by_contra hp; exact (h2 h1).1 ⟨hi, hp⟩⟩
  · rintro ⟨h1, h2, h3⟩
    exact ⟨h1, fun _ => ⟨fun hk => hk.2 (h3 hk.1), h2⟩⟩

theorem uncompress_zero (bs : List (ℕ × ℕ)) (hd : Disj bs) (small : ℕ → ℝ) (d : ℕ) (h : ∀ r < total bs, Compress.idx bs r = d → small r = 0) : uncompress bs small (fun _ => 0) d = 0 := by
  by_cases hf : Free bs d
  · obtain ⟨r, hr, e⟩ := idx_surj bs d hf
    subst e
    unfold uncompress
    rw [uncompressFrom_idx small bs hd 0 _ r hr, Nat.zero_add]
    exact h r hr rfl
  · exact (uncompressFrom_out small bs 0 _ d hf)

theorem iter_agree {S : Solver} {m : ℕ} (h : S.Ok m) {I : ℕ → Prop} (hI : ∀ d, I d → d ∉ S.outputs) (hS : S.Dep I) (n : ℕ) :
    ∀ q q', Agree I q q' → (S.iter n q).2 = (S.iter n q').2 ∧ Agree I (S.iter n q).1 (S.iter n q').1 := by
  induction n with
  | zero => intro q q' e; exact ⟨by simp only [Solver.iter, hS.res q q' e], e⟩
  | succ n ih =>
    intro q q' e
    simp only [Solver.iter, hS.res q q' e, hS.jac q q' e]
    split
    · exact ⟨rfl, e⟩
    · refine ih _ _ fun d hd => ?_
      rw [h.expl _ _ (hI d hd), h.expl _ _ (hI d hd), e d hd]

theorem iter_frame {S : Solver} {m : ℕ} (h : S.Ok m) {I : ℕ → Prop} (hS : S.Dep I) (n : ℕ) : ∀ q d, ¬ I d → d ∉ S.outputs → (S.iter n q).1 d = q d := by
  induction n with
  | zero => intro q d _ _; rfl
  | succ n ih =>
    intro q d hd ho
    simp only [Solver.iter]
    split
    · rfl
    · rw [ih _ d hd ho, h.expl _ _ ho, uncompress_zero _ h.disj _ _ (fun r _ e => h.dir _ _ r (hS.zero q r (by rw [e]; exact hd))), add_zero]

theorem apply_agree {S : Solver} {m : ℕ} (h : S.Ok m) {I : ℕ → Prop} (hI : ∀ d, I d → d ∉ S.outputs) (hS : S.Dep I) {q q' : ℕ → ℝ} (e : Agree I q q') :
    (S.apply q).2 = (S.apply q').2 ∧ Agree I (S.apply q).1 (S.apply q').1 :=
  iter_agree h hI hS _ _ _ fun d hd => by rw [h.expl _ _ (hI d hd), h.expl _ _ (hI d hd), e d hd]

theorem apply_frame {S : Solver} {m : ℕ} (h : S.Ok m) {I : ℕ → Prop} (hS : S.Dep I) (q : ℕ → ℝ) (d : ℕ) (hd : ¬ I d) (ho : d ∉ S.outputs) : (S.apply q).1 d = q d := by
  unfold Solver.apply
  rw [iter_frame h hS _ _ d hd ho, h.expl _ _ ho]

theorem activeAll_get {m : ℕ} {thr : ℝ} {l : List (VSpl × (ℕ → ℝ) × Option Solver)} : ∀ {r : List (VSpl × List ℕ)}, activeAll m thr l = some r → ∀ {j : ℕ} {s : VSpl} {q0 : ℕ → ℝ} {S : Option Solver},
    l[j]? = some (s, q0, S) → ∃ a, r[j]? = some (s, a) ∧ activeOf m S q0 thr = some a := by
  induction l with
  | nil => intro r _ j s q0 S hj; simp at hj
  | cons x l ih =>
    intro r h j s q0 S hj
    obtain ⟨s1, q1, S1⟩ := x
    rw [activeAll] at h
    split at h
    · next a r' ha hr =>
      cases h
      cases j with
      | zero => simp at hj; obtain ⟨rfl, rfl, rfl⟩ := hj; exact ⟨a, by simp, ha⟩
      | succ j => simpa using ih hr (by simpa using hj)
    · cases h

theorem activeAll_fst {m : ℕ} {thr : ℝ} {l : List (VSpl × (ℕ → ℝ) × Option Solver)} : ∀ {r : List (VSpl × List ℕ)}, activeAll m thr l = some r → r.map Prod.fst = l.map Prod.fst := by
  induction l with
  | nil => intro r h; cases h; rfl
  | cons x l ih =>
    intro r h
    obtain ⟨s1, q1, S1⟩ := x
    rw [activeAll] at h
    split at h
    · next a r' ha hr => cases h; simp [ih hr]
    · cases h

/-- Splines that satisfy the equality constraints have the same coordinates as the initial ones at all times, for the degrees of freedom that are not active. -/
theorem compute_fixed {m n K : ℕ} {r : List (VSpl × List ℕ)} {out : List VSpl} (hn : ∀ x ∈ r, x.1.n = n) (hs : Sat m (n + 1) (equalities m n K r) out) {j : ℕ} {s s' : VSpl} {a : List ℕ}
    (hl : r[j]? = some (s, a)) (ho : out[j]? = some s') (hk : Like s' s) {d : ℕ} (hd : d < m) (ha : d ∉ a) (t : ℝ) : s'.compute integ t d = s.compute integ t d := by
  unfold Spl.compute integ Spl.velocity
  have hp : s'.param t = s.param t := by unfold Spl.param; rw [hk.2.2.1, hk.2.2.2]
  rw [hk.2.1, hp, hk.1]
  congr 1
  refine Finset.sum_congr rfl fun i hi => ?_
  have := Finset.mem_range.1 hi
  rw [hn _ (List.mem_of_getElem? hl)] at this
  rw [fixed_of_sat hs hl ho this hd ha]

/-- C132, whatever the guess: if the implicit constraints depend only on the degrees of freedom kept, paths of an optimized vector can be evaluated exactly where the paths of the initial one can, with the
same values of these degrees of freedom. -/
theorem keeps {m n K : ℕ} {thr : ℝ} {l : List (VSpl × (ℕ → ℝ) × Option Solver)} {r : List (VSpl × List ℕ)} (hr : activeAll m thr l = some r) (hn : ∀ x ∈ l, x.1.n = n) {out : List VSpl}
    (hk : List.Forall₂ Like out (l.map Prod.fst)) (hs : Sat m (n + 1) (equalities m n K r) out) {j : ℕ} {s s' : VSpl} {q0 : ℕ → ℝ} {S : Solver} (hj : l[j]? = some (s, q0, some S))
    (ho : out[j]? = some s') (h : S.Ok m) (hS : S.Dep (Kept S q0 thr)) (t : ℝ) :
    (evalAt (some S) s' t).2 = (evalAt (some S) s t).2 ∧ ∀ d, Kept S q0 thr d → (evalAt (some S) s' t).1 d = (evalAt (some S) s t).1 d := by
  obtain ⟨a, ha, hact⟩ := activeAll_get hr hj
  obtain ⟨a', ha', hd⟩ := C132_active h q0 thr
  rw [hact] at ha'
  cases ha'
  have hlike : Like s' s := by
    have := forall₂_get hk ho
    obtain ⟨s2, h2, h3⟩ := this
    rw [List.getElem?_map, hj] at h2
    cases h2
    exact h3
  have hn' : ∀ x ∈ r, x.1.n = n := by
    intro x hx
    have : x.1 ∈ l.map Prod.fst := by rw [← activeAll_fst hr]; exact List.mem_map_of_mem hx
    obtain ⟨y, hy, e⟩ := List.mem_map.1 this
    rw [← e]; exact hn y hy
  refine apply_agree h (fun d hd' ho' => h.outNotFree d ho' (h.implicitFree d hd'.1)) hS fun d hd' => ?_
  exact compute_fixed hn' hs ha ho hlike (h.bound d (Or.inl hd'.1)) (fun hda => hd'.2 (((hd d).1 hda).2.2 hd'.1)) t

theorem kept_neg {S : Solver} {q0 : ℕ → ℝ} {thr : ℝ} (ht : thr < 0) : Kept S q0 thr = (· ∈ S.implicit) := by
  funext d
  exact propext ⟨fun h => h.1, fun h => ⟨h, fun hp => absurd hp.1 (not_le.2 ht)⟩⟩

/-- C132: with a negative threshold (the default), whatever the loop of the optimizer returns, each path that holds constraints can be evaluated at a parameter exactly when the initial one can; the degrees of
freedom used by implicit constraints then have the same values, and those that are not outputs of explicit constraints either have the values that the optimizer gave them: the projection does not
change them. -/
theorem C132_evaluation {κ : Type} (c : Cfg κ) (hm : 0 < c.m) (n K : ℕ) (hnb : c.nb = n + 1) (hro : c.returnOptimum = false) (env : ℕ → Env (ℕ → ℝ) κ) (thr : ℝ) (ht : thr < 0)
    (l : List (VSpl × (ℕ → ℝ) × Option Solver)) (hn : ∀ x ∈ l, x.1.n = n) (r : List (VSpl × List ℕ)) (hr : activeAll c.m thr l = some r)
    (h0 : Sat c.m c.nb (equalities c.m n K r) (l.map Prod.fst)) (hsol : ∀ v, Sat c.m c.nb (equalities c.m n K r) (updateSplines c.m c.nb (l.map Prod.fst) (c.sol v))) (x : κ) (fuel : ℕ) (out : LSt (ℕ → ℝ) κ)
    (h : optLoop c env fuel 0 (initSt c (l.map Prod.fst) x) = .ok (some out)) (j : ℕ) (s s' : VSpl) (q0 : ℕ → ℝ) (S : Solver) (hj : l[j]? = some (s, q0, some S))
    (ho : out.splines[j]? = some s') (hS : S.Ok c.m) (hd : S.Dep (· ∈ S.implicit)) (t : ℝ) :
    (evalAt (some S) s' t).2 = (evalAt (some S) s t).2 ∧ (∀ d ∈ S.implicit, (evalAt (some S) s' t).1 d = (evalAt (some S) s t).1 d) ∧
    ∀ d, d ∉ S.implicit → d ∉ S.outputs → (evalAt (some S) s' t).1 d = s'.compute integ t d := by
  obtain ⟨g1, g2, -⟩ := C93_valid c hm (by omega) hro env _ x _ h0 hsol fuel out h
  rw [hnb] at g2
  obtain ⟨k1, k2⟩ := keeps hr hn g1 g2 hj ho hS (by rw [kept_neg ht]; exact hd) t
  refine ⟨k1, fun d hd' => k2 d (by rw [kept_neg ht]; exact hd'), fun d h1 h2 => apply_frame hS hd _ d h1 h2⟩

/-- C132: the control points of the outputs of explicit constraints, and of the degrees of freedom used by implicit constraints, do not change, so that the error of implicit constraints before projection is that
of the initial path; where it is small, the evaluation of the optimized path only computes the outputs of explicit constraints. -/
theorem C132_error {m n K : ℕ} {thr : ℝ} (ht : thr < 0) {l : List (VSpl × (ℕ → ℝ) × Option Solver)} {r : List (VSpl × List ℕ)} (hr : activeAll m thr l = some r) (hn : ∀ x ∈ l, x.1.n = n)
    {out : List VSpl} (hk : List.Forall₂ Like out (l.map Prod.fst)) (hs : Sat m (n + 1) (equalities m n K r) out) {j : ℕ} {s s' : VSpl} {q0 : ℕ → ℝ} {S : Solver} (hj : l[j]? = some (s, q0, some S))
    (ho : out[j]? = some s') (h : S.Ok m) (hS : S.Dep (· ∈ S.implicit)) (t : ℝ) :
    S.res (s'.compute integ t) = S.res (s.compute integ t) ∧ (∀ d, d ∈ S.implicit ∨ d ∈ S.outputs → s'.compute integ t d = s.compute integ t d) ∧
    (S.small (S.res (s.compute integ t)) = true → evalAt (some S) s' t = (S.expl (s'.compute integ t), true)) := by
  obtain ⟨a, ha, hact⟩ := activeAll_get hr hj
  obtain ⟨a', ha', hd⟩ := C132_active h q0 thr
  rw [hact] at ha'
  cases ha'
  have hlike : Like s' s := by
    obtain ⟨s2, h2, h3⟩ := forall₂_get hk ho
    rw [List.getElem?_map, hj] at h2
    cases h2
    exact h3
  have hn' : ∀ x ∈ r, x.1.n = n := by
    intro x hx
    have : x.1 ∈ l.map Prod.fst := by rw [← activeAll_fst hr]; exact List.mem_map_of_mem hx
    obtain ⟨y, hy, e⟩ := List.mem_map.1 this
    rw [← e]; exact hn y hy
  have hfix : ∀ d, d ∈ S.implicit ∨ d ∈ S.outputs → s'.compute integ t d = s.compute integ t d := by
    intro d hd'
    refine compute_fixed hn' hs ha ho hlike (h.bound d hd') (fun hda => ?_) t
    obtain ⟨-, h2, h3⟩ := (hd d).1 hda
    rcases hd' with hd' | hd'
    · exact absurd (h3 hd').1 (not_le.2 ht)
    · exact h2 hd'
  have hres : S.res (s'.compute integ t) = S.res (s.compute integ t) := hS.res _ _ fun d hd' => hfix d (Or.inl hd')
  refine ⟨hres, hfix, fun hsm => ?_⟩
  have he : S.res (S.expl (s'.compute integ t)) = S.res (s.compute integ t) := by
    rw [← hres]
    exact hS.res _ _ fun d hd' => h.expl _ _ fun hout => h.outNotFree d hout (h.implicitFree d hd')
  simp only [evalAt, Solver.apply]
  cases S.maxIter with
  | zero => simp only [Solver.iter, he, hsm]
  | succ k => simp only [Solver.iter, he, hsm, if_true]

/-- The error is an affine function of the free variables. -/
def Solver.Affine (S : Solver) : Prop := ∀ q0 q q' i, i < S.rdim → S.res q' i - S.res q i = ∑ r ∈ Finset.range (total S.free), S.jac q0 i r * (q' (Compress.idx S.free r) - q (Compress.idx S.free r))

/-- C132: with a threshold that is not negative, for affine constraints, the error along the optimized path before projection differs from the error along the initial one by the threshold times the sum of the
displacements of free variables at most: not at all with threshold 0.  Partial: false in general (`C132_guess_counterexample`). -/
theorem C132_guess_partial {m n K : ℕ} {thr : ℝ} (ht : 0 ≤ thr) {l : List (VSpl × (ℕ → ℝ) × Option Solver)} {r : List (VSpl × List ℕ)} (hr : activeAll m thr l = some r) (hn : ∀ x ∈ l, x.1.n = n)
    {out : List VSpl} (hk : List.Forall₂ Like out (l.map Prod.fst)) (hs : Sat m (n + 1) (equalities m n K r) out) {j : ℕ} {s s' : VSpl} {q0 : ℕ → ℝ} {S : Solver} (hj : l[j]? = some (s, q0, some S))
    (ho : out[j]? = some s') (h : S.Ok m) (hS : S.Dep (· ∈ S.implicit)) (haff : S.Affine) (t : ℝ) (i : ℕ) (hi : i < S.rdim) :
    |S.res (s'.compute integ t) i - S.res (s.compute integ t) i| ≤
      thr * ∑ r ∈ Finset.range (total S.free), |s'.compute integ t (Compress.idx S.free r) - s.compute integ t (Compress.idx S.free r)| := by
  obtain ⟨a, ha, hact⟩ := activeAll_get hr hj
  obtain ⟨a', ha', hd⟩ := C132_active h q0 thr
  rw [hact] at ha'
  cases ha'
  have hlike : Like s' s := by
    obtain ⟨s2, h2, h3⟩ := forall₂_get hk ho
    rw [List.getElem?_map, hj] at h2
    cases h2
    exact h3
  have hn' : ∀ x ∈ r, x.1.n = n := by
    intro x hx
    have : x.1 ∈ l.map Prod.fst := by rw [← activeAll_fst hr]; exact List.mem_map_of_mem hx
    obtain ⟨y, hy, e⟩ := List.mem_map.1 this
    rw [← e]; exact hn y hy
  rw [haff q0 _ _ i hi, Finset.mul_sum]
  refine (Finset.abs_sum_le_sum_abs _ _).trans (Finset.sum_le_sum fun k hk' => ?_)
  have hk' := Finset.mem_range.1 hk'
  rw [abs_mul]
  by_cases him : Compress.idx S.free k ∈ S.implicit
  · by_cases hp : Passive S q0 thr (Compress.idx S.free k)
    · obtain ⟨-, k2, h2, h3, h4⟩ := hp
      have := idx_inj S.free h.disj _ _ h2 hk' h3
      subst this
      exact mul_le_mul_of_nonneg_right (h4 i hi) (abs_nonneg _)
    · have := compute_fixed hn' hs ha ho hlike (h.bound _ (Or.inl him)) (fun hda => hp (((hd _).1 hda).2.2 him)) t
      rw [this, sub_self, abs_zero, mul_zero, mul_zero]
  · rw [hS.zero q0 k him i hi, abs_zero, zero_mul]
    exact mul_nonneg ht (abs_nonneg _)

/-! ## Examples -/

/-- Two degrees of freedom (and a third one, output of an explicit constraint: the double of the second one); the first one shall be 1. -/
noncomputable def demo : Solver where
  implicit := [0]
  inputs := [1]
  outputs := [2]
  free := [(0, 2)]
  notOut := [(0, 2)]
  rdim := 1
  jac := fun _ i r => if i = 0 ∧ r = 0 then 1 else 0
  res := fun q i => if i = 0 then q 0 - 1 else 0
  small := fun v => by classical exact decide (v 0 = 0)
  dir := fun v J r => -v 0 * J 0 r
  expl := fun q d => if d = 2 then 2 * q 1 else q d
  maxIter := 3

theorem demo_ok : demo.Ok 3 where
  same := rfl
  disj := List.pairwise_singleton _ _
  pos := by intro b hb; simp [demo] at hb; subst hb; decide
  implicitFree := by intro d hd; simp [demo] at hd; subst hd; exact ⟨(0, 2), by simp [demo], by decide, by decide⟩
  outNotFree := by
    intro d hd
    simp [demo] at hd
    subst hd
    rintro ⟨b, hb, h1, h2⟩
    simp [demo] at hb
    subst hb
    simp at h2
  bound := by intro d hd; simp [demo] at hd; omega
  none := by intro h; simp [demo] at h
  expl := by intro q d hd; simp [demo] at hd; simp [demo, hd]
  dir := by intro v J r h; simp only [demo]; rw [h 0 (by simp [demo]), mul_zero]

theorem demo_dep : demo.Dep (· ∈ demo.implicit) where
  res := by intro q q' h; funext i; simp only [demo]; rw [h 0 (by simp [demo])]
  jac := by intro q q' _; rfl
  zero := by
    intro q r h i hi
    simp only [demo, List.mem_singleton, Compress.idx] at h ⊢
    rw [if_neg]
    rintro ⟨-, rfl⟩
    simp at h

/-- The optimizer may change the second degree of freedom only; with threshold 2 it may change the first one too. -/
example : ∃ a, activeOf 3 (some demo) (fun _ => 0) (-1) = some a ∧ ∀ d, d ∈ a ↔ d = 1 := by
  obtain ⟨a, h1, h2⟩ := C132_active demo_ok (fun _ => 0) (-1)
  refine ⟨a, h1, fun d => (h2 d).trans ?_⟩
  have : ¬ (0 : ℝ) ≤ -1 := by norm_num
  simp only [demo, List.mem_singleton, Passive, this, false_and, imp_false]
  omega

example : ∃ a, activeOf 3 (some demo) (fun _ => 0) 2 = some a ∧ 0 ∈ a := by
  obtain ⟨a, h1, h2⟩ := C132_active demo_ok (fun _ => 0) 2
  refine ⟨a, h1, (h2 0).2 ⟨by decide, by simp [demo], fun _ => ⟨by norm_num, 0, by simp [demo, total], by simp [demo, Compress.idx], ?_⟩⟩⟩
  intro i hi
  simp only [demo]
  split <;> norm_num

theorem derAt_ends {s : VSpl} (h : s.s0 < s.s1) (d : ℕ) : derAt s 0 0 d = s.P 0 d ∧ derAt s 0 1 d = s.P s.n d := by
  obtain ⟨-, h1, h2⟩ := C54_value s integ h
  obtain ⟨h3, h4⟩ := derAt_compute h d
  rw [h1] at h3
  rw [h2] at h4
  unfold integ at h3 h4
  exact ⟨by linarith, by linarith⟩

/-- A spline with the same ends and the same control points for degrees of freedom that are not active satisfies the equality constraints without derivatives. -/
theorem sat_one {m n : ℕ} {s s' : VSpl} {a : List ℕ} (hs : s.s0 < s.s1) (hn : s.n = n) (hk : Like s' s) (ha : ∀ d ∈ a, d < m) (h1 : ∀ i d, d ∉ a → s'.P i d = s.P i d)
    (h2 : ∀ d ∈ a, s'.P 0 d = s.P 0 d ∧ s'.P n d = s.P n d) : Sat m (n + 1) (equalities m n 0 [(s, a)]) [s'] := by
  have hs' : s'.s0 < s'.s1 := by rw [hk.2.2.1, hk.2.2.2]; exact hs
  intro r hr
  rcases List.mem_append.1 hr with hr | hr
  · obtain ⟨j, s1, a1, k, d, g1, g2, g3, rfl⟩ := problemRows_mem hr
    cases j with
    | zero =>
      simp at g1
      obtain ⟨rfl, rfl⟩ := g1
      rw [zero_add]
      refine (fixRow_holds (s' := s') (by simp) g2 g3).2 (h1 _ _ ?_)
      simp [problemRows, fixRows] at hr
      obtain ⟨k', hk', d', ⟨hd1, hd2⟩, e1, e2⟩ := hr
      have : d' = d := by
        have g := congrArg (· % m) e1
        simpa [Nat.add_mod, Nat.mod_eq_of_lt hd1, Nat.mod_eq_of_lt g3] using g
      rw [← this]; exact hd2
    | succ j => simp at g1
  · simp only [continuityRows, zero_add, List.range_one, List.flatMap_cons, List.flatMap_nil, List.append_nil, orderRows, List.head?_cons, List.getLast?_singleton, midRows,
      List.mem_append, List.mem_map, List.length_singleton, Nat.sub_self] at hr
    rcases hr with ⟨d, hd, rfl⟩ | ⟨d, hd, rfl⟩
    · rw [contRow_start (s' := s') (by simp) (ha d hd)]
      simp only [beq_self_eq_true, if_true]
      rw [← derAt_eq hn, ← bf_like hk, ← derAt_eq (hk.1.trans hn), (derAt_ends hs d).1, (derAt_ends hs' d).1, (h2 d hd).1]
    · rw [contRow_end (j := 0) (s' := s') (by simp) (ha d hd)]
      simp only [beq_self_eq_true, if_true]
      rw [← derAt_eq hn, ← bf_like hk, ← derAt_eq (hk.1.trans hn), (derAt_ends hs d).2, (derAt_ends hs' d).2, hk.1, hn, (h2 d hd).2]

/-- Splines of degree 2 with middle control point `x` for the second degree of freedom. -/
noncomputable def arc (x : ℝ) : VSpl := ⟨2, fun _ => 0, fun i d => if d = 0 then 1 else if d = 1 ∧ i = 1 then x else 0, 0, 1⟩

/-- The hypotheses of C132 are met by an optimized path that differs from the initial one. -/
example : ∃ r, activeAll 3 (-1) [(arc 0, fun _ => 0, some demo)] = some r ∧ List.Forall₂ Like [arc 5] [arc 0] ∧ Sat 3 3 (equalities 3 2 0 r) [arc 5] ∧
    (arc 5).compute integ (1 / 2) 1 = 5 / 2 ∧ (arc 0).compute integ (1 / 2) 1 = 0 := by
  obtain ⟨a, h1, h2⟩ := C132_active demo_ok (fun _ => 0) (-1)
  have hd : ∀ d, d ∈ a ↔ d = 1 := by
    intro d
    have : ¬ (0 : ℝ) ≤ -1 := by norm_num
    rw [h2]
    simp only [demo, List.mem_singleton, Passive, this, false_and, imp_false]
    omega
  refine ⟨[(arc 0, a)], by simp only [activeAll, h1], List.Forall₂.cons ⟨rfl, rfl, rfl, rfl⟩ List.Forall₂.nil, ?_, ?_, ?_⟩
  · refine sat_one (by norm_num [arc]) rfl ⟨rfl, rfl, rfl, rfl⟩ (fun d h => by rw [(hd d).1 h]; decide) (fun i d h => ?_) (fun d h => ?_)
    · have : d ≠ 1 := fun e => h ((hd d).2 e)
      simp [arc, this]
    · simp [arc]
  all_goals
    rw [(C54_value _ integ (by norm_num [arc])).1 _ (by norm_num [arc]) (by norm_num [arc])]
    simp only [integ, curve, arc, Finset.sum_range_succ, Finset.sum_range_zero, bernsteinPolynomial]
    norm_num [Nat.choose]

/-- The product of two degrees of freedom shall be zero; the evaluation checks it. -/
noncomputable def prod : Solver where
  implicit := [0, 1]
  inputs := []
  outputs := []
  free := [(0, 2)]
  notOut := [(0, 2)]
  rdim := 1
  jac := fun q _ r => if r = 0 then q 1 else if r = 1 then q 0 else 0
  res := fun q _ => q 0 * q 1
  small := fun v => by classical exact decide (v 0 = 0)
  dir := fun _ _ _ => 0
  expl := fun q => q
  maxIter := 0

theorem prod_ok : prod.Ok 2 where
  same := rfl
  disj := List.pairwise_singleton _ _
  pos := by intro b hb; simp [prod] at hb; subst hb; decide
  implicitFree := by intro d hd; simp [prod] at hd; exact ⟨(0, 2), by simp [prod], by simp, by simp; omega⟩
  outNotFree := by intro d hd; simp [prod] at hd
  bound := by intro d hd; simp [prod] at hd; omega
  none := by intro h; simp [prod] at h
  expl := by intro q d hd; rfl
  dir := by intro v J r h; rfl

theorem prod_dep : prod.Dep (· ∈ prod.implicit) where
  res := by intro q q' h; funext i; simp only [prod]; rw [h 0 (by simp [prod]), h 1 (by simp [prod])]
  jac := by intro q q' h; funext i r; simp only [prod]; rw [h 0 (by simp [prod]), h 1 (by simp [prod])]
  zero := by
    intro q r h i hi
    simp only [prod, List.mem_cons, List.not_mem_nil, or_false, Compress.idx] at h ⊢
    have h0 : r ≠ 0 := by rintro rfl; simp at h
    have h1 : r ≠ 1 := by rintro rfl; simp at h
    rw [if_neg h0, if_neg h1]

/-- The first degree of freedom goes from 0 to 1, the second one goes from 0 to 0 with middle control point `x`. -/
noncomputable def bump (x : ℝ) : VSpl := ⟨2, fun _ => 0, fun i d => if d = 0 then i / 2 else if d = 1 ∧ i = 1 then x else 0, 0, 1⟩

/-- C132: a degree of freedom is declared passive from the jacobian at the initial configuration of the path only: with threshold 0, on a path that satisfies the constraint everywhere, all degrees of freedom
are free, and a path that does not satisfy the constraint has the constraints of the optimizer satisfied. -/
theorem C132_guess_counterexample : ∃ r, activeAll 2 0 [(bump 0, (bump 0).compute integ 0, some prod)] = some r ∧ (∀ t, (evalAt (some prod) (bump 0) t).2 = true) ∧
    List.Forall₂ Like [bump 1] [bump 0] ∧ Sat 2 3 (equalities 2 2 0 r) [bump 1] ∧ (evalAt (some prod) (bump 1) (1 / 2)).2 = false := by
  obtain ⟨a, h1, h2⟩ := C132_active prod_ok ((bump 0).compute integ 0) 0
  have h00 : (bump 0).compute integ 0 = fun d => 0 + (bump 0).P 0 d := (C54_value (bump 0) integ (by norm_num [bump])).2.1
  have hz : ∀ t, (bump 0).compute integ t 1 = 0 := by
    intro t
    simp [Spl.compute, integ, Spl.velocity, bump]
  have hd : ∀ d, d ∈ a ↔ d < 2 := by
    intro d
    rw [h2]
    refine ⟨fun h => h.1, fun h => ⟨h, by simp [prod], fun _ => ⟨le_rfl, d, by simpa [prod, total] using h, by simp [prod, Compress.idx, h], ?_⟩⟩⟩
    intro i hi
    simp only [prod, h00]
    norm_num [bump]
  refine ⟨[(bump 0, a)], by simp only [activeAll, h1], fun t => ?_, List.Forall₂.cons ⟨rfl, rfl, rfl, rfl⟩ List.Forall₂.nil, ?_, ?_⟩
  · simp only [evalAt, Solver.apply, prod, Solver.iter, hz, mul_zero]
    simp
  · refine sat_one (by norm_num [bump]) rfl ⟨rfl, rfl, rfl, rfl⟩ (fun d h => (hd d).1 h) (fun i d h => ?_) (fun d h => ?_)
    · have : ¬ d < 2 := fun e => h ((hd d).2 e)
      have h0 : d ≠ 0 := by omega
      have h1 : d ≠ 1 := by omega
      simp [bump, h0, h1]
    · simp [bump]
  · simp only [evalAt, Solver.apply, prod, Solver.iter]
    rw [(C54_value _ integ (by norm_num [bump])).1 _ (by norm_num [bump]) (by norm_num [bump])]
    simp only [integ, curve, bump, Finset.sum_range_succ, Finset.sum_range_zero, bernsteinPolynomial]
    norm_num [Nat.choose]

end Verif.Active
