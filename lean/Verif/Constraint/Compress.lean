import Mathlib.Algebra.BigOperators.Intervals
import Mathlib.Algebra.Ring.Defs
import Mathlib.Algebra.Field.Rat
import Mathlib.Tactic.Ring
import Mathlib.Tactic.Linarith
set_option linter.unusedSectionVars false

/-!
# Compression of the outputs of explicit constraints (C119), settings and right hand sides of a projector (C120)

The free variables (`notOutDers` of package hpp-constraints) are a list of segments (first index, length), disjoint and inside the vector.  Vectors are functions, their sizes are in the hypotheses.
-/
namespace Verif.Compress
open Finset
variable {K : Type}

/-- Number of free variables: sum of the lengths (`nbIndices`). -/
def total : List (ℕ × ℕ) → ℕ
  | [] => 0
  | b :: bs => b.2 + total bs

/-- `compressVector` (config-projector.cc:145-149): the segments of the vector one after the other (`rview`); the result at rank `k`. -/
def compress : List (ℕ × ℕ) → (ℕ → K) → ℕ → K
  | [], v, k => v k
  | b :: bs, v, k => if k < b.2 then v (b.1 + k) else compress bs v (k - b.2)

/-- `uncompressVector` (config-projector.cc:139-143): the segments of the vector are assigned one after the other (`lview`), the first element of `small` not yet used being at rank `off`. -/
def uncompressFrom (small : ℕ → K) : List (ℕ × ℕ) → ℕ → (ℕ → K) → ℕ → K
  | [], _, v => v
  | b :: bs, off, v => uncompressFrom small bs (off + b.2) (fun i => if b.1 ≤ i ∧ i < b.1 + b.2 then small (off + (i - b.1)) else v i)

def uncompress (bs : List (ℕ × ℕ)) (small v : ℕ → K) : ℕ → K := uncompressFrom small bs 0 v

/-- `compressMatrix` (config-projector.cc:151-164): rows and columns, or columns only. -/
def compressM (bs : List (ℕ × ℕ)) (M : ℕ → ℕ → K) (rows : Bool) : ℕ → ℕ → K :=
  if rows then compress bs (fun i => compress bs (M i)) else fun i => compress bs (M i)

/-- `uncompressMatrix` (config-projector.cc:166-179). -/
def uncompressM (bs : List (ℕ × ℕ)) (small M : ℕ → ℕ → K) (rows : Bool) : ℕ → ℕ → K :=
  if rows then fun i j => uncompress bs (fun k => uncompress bs (small k) (M i) j) (fun i => M i j) i
  else fun i => uncompress bs (small i) (M i)

/-! ## Specification -/

/-- The variable belongs to a segment. -/
def Free (bs : List (ℕ × ℕ)) (i : ℕ) : Prop := ∃ b ∈ bs, b.1 ≤ i ∧ i < b.1 + b.2

/-- Segments without common variable. -/
def Disj (bs : List (ℕ × ℕ)) : Prop := bs.Pairwise fun a b => ∀ i, ¬ ((a.1 ≤ i ∧ i < a.1 + a.2) ∧ b.1 ≤ i ∧ i < b.1 + b.2)

/-- Index of the free variable of rank `k`. -/
def idx : List (ℕ × ℕ) → ℕ → ℕ
  | [], k => k
  | b :: bs, k => if k < b.2 then b.1 + k else idx bs (k - b.2)

theorem compress_idx (bs : List (ℕ × ℕ)) (v : ℕ → K) (k : ℕ) : compress bs v k = v (idx bs k) := by
  induction bs generalizing k with
  | nil => rfl
  | cons b bs ih =>
    simp only [compress, idx]
    by_cases h : k < b.2
    · rw [if_pos h, if_pos h]
    · rw [if_neg h, if_neg h, ih]

theorem idx_free (bs : List (ℕ × ℕ)) (k : ℕ) (hk : k < total bs) : Free bs (idx bs k) := by
  induction bs generalizing k with
  | nil => exact absurd hk (by simp [total])
  | cons b bs ih =>
    simp only [total] at hk
    simp only [idx]
    by_cases h : k < b.2
    · rw [if_pos h]; exact ⟨b, by simp, by omega, by omega⟩
    · rw [if_neg h]
      obtain ⟨c, hc, h'⟩ := ih (k - b.2) (by omega)
      exact ⟨c, List.mem_cons_of_mem _ hc, h'⟩

theorem idx_surj (bs : List (ℕ × ℕ)) (i : ℕ) (h : Free bs i) : ∃ k, k < total bs ∧ idx bs k = i := by
  induction bs with
  | nil => obtain ⟨b, hb, _⟩ := h; cases hb
  | cons b bs ih =>
    obtain ⟨c, hc, h1, h2⟩ := h
    rcases List.mem_cons.1 hc with rfl | hc
    · exact ⟨i - c.1, by simp only [total]; omega, by simp only [idx]; rw [if_pos (by omega)]; omega⟩
    · obtain ⟨k, hk, e⟩ := ih ⟨c, hc, h1, h2⟩
      refine ⟨k + b.2, by simp only [total]; omega, ?_⟩
      simp only [idx]
      rw [if_neg (by omega), Nat.add_sub_cancel]
      exact e

theorem idx_inj (bs : List (ℕ × ℕ)) (hd : Disj bs) (k k' : ℕ) (hk : k < total bs) (hk' : k' < total bs) (h : idx bs k = idx bs k') : k = k' := by
  induction bs generalizing k k' with
  | nil => exact absurd hk (by simp [total])
  | cons b bs ih =>
    have hd' := List.pairwise_cons.1 hd
    simp only [total] at hk hk'
    simp only [idx] at h
    by_cases h1 : k < b.2 <;> by_cases h2 : k' < b.2
    · rw [if_pos h1, if_pos h2] at h; omega
    · rw [if_pos h1, if_neg h2] at h
      obtain ⟨c, hc, a1, a2⟩ := idx_free bs (k' - b.2) (by omega)
      exact (hd'.1 c hc (b.1 + k) ⟨⟨by omega, by omega⟩, by rw [h]; exact a1, by rw [h]; exact a2⟩).elim
    · rw [if_neg h1, if_pos h2] at h
      obtain ⟨c, hc, a1, a2⟩ := idx_free bs (k - b.2) (by omega)
      exact (hd'.1 c hc (b.1 + k') ⟨⟨by omega, by omega⟩, by rw [← h]; exact a1, by rw [← h]; exact a2⟩).elim
    · rw [if_neg h1, if_neg h2] at h
      have := ih hd'.2 (k - b.2) (k' - b.2) (by omega) (by omega) h
      omega

theorem uncompressFrom_out (small : ℕ → K) (bs : List (ℕ × ℕ)) (off : ℕ) (v : ℕ → K) (i : ℕ) (h : ¬ Free bs i) : uncompressFrom small bs off v i = v i := by
  induction bs generalizing off v with
  | nil => rfl
  | cons b bs ih =>
    simp only [uncompressFrom]
    rw [ih]
    · rw [if_neg]; exact fun hb => h ⟨b, by simp, hb⟩
    · rintro ⟨c, hc, h'⟩; exact h ⟨c, List.mem_cons_of_mem _ hc, h'⟩

theorem uncompressFrom_idx (small : ℕ → K) (bs : List (ℕ × ℕ)) (hd : Disj bs) (off : ℕ) (v : ℕ → K) (k : ℕ) (hk : k < total bs) : uncompressFrom small bs off v (idx bs k) = small (off + k) := by
  induction bs generalizing off v k with
  | nil => exact absurd hk (by simp [total])
  | cons b bs ih =>
    have hd' := List.pairwise_cons.1 hd
    simp only [total] at hk
    simp only [uncompressFrom, idx]
    by_cases h : k < b.2
    · rw [if_pos h, uncompressFrom_out, if_pos ⟨by omega, by omega⟩]
      · congr 1; omega
      · rintro ⟨c, hc, a1, a2⟩
        exact hd'.1 c hc (b.1 + k) ⟨⟨by omega, by omega⟩, a1, a2⟩
    · rw [if_neg h, ih hd'.2 _ _ _ (by omega)]
      congr 1; omega

/-- C119: uncompressing then compressing gives the vector back; uncompressing does not change the outputs of explicit constraints, and gives each free variable its value in the compressed vector. -/
theorem C119_uncompress (bs : List (ℕ × ℕ)) (hd : Disj bs) (small v : ℕ → K) :
    (∀ k < total bs, compress bs (uncompress bs small v) k = small k) ∧ (∀ i, ¬ Free bs i → uncompress bs small v i = v i) ∧
    ∀ i, Free bs i → ∃ k < total bs, uncompress bs small v i = small k ∧ ∀ w : ℕ → K, compress bs w k = w i := by
  refine ⟨fun k hk => ?_, fun i hi => uncompressFrom_out small bs 0 v i hi, fun i hi => ?_⟩
  · rw [compress_idx]
    unfold uncompress
    rw [uncompressFrom_idx small bs hd 0 v k hk, Nat.zero_add]
  · obtain ⟨k, hk, rfl⟩ := idx_surj bs i hi
    refine ⟨k, hk, ?_, fun w => compress_idx bs w k⟩
    unfold uncompress
    rw [uncompressFrom_idx small bs hd 0 v k hk, Nat.zero_add]

theorem uncompress_compress (bs : List (ℕ × ℕ)) (hd : Disj bs) (v w : ℕ → K) (i : ℕ) [Decidable (Free bs i)] : uncompress bs (compress bs v) w i = if Free bs i then v i else w i := by
  obtain ⟨_, h2, h3⟩ := C119_uncompress bs hd (compress bs v) w
  by_cases h : Free bs i
  · obtain ⟨k, hk, e1, e2⟩ := h3 i h
    rw [if_pos h, e1, e2]
  · rw [if_neg h, h2 i h]

/-- C119: compressing then uncompressing gives the vector back on free variables, and leaves the others of the destination. -/
theorem C119_compress (bs : List (ℕ × ℕ)) (hd : Disj bs) (v w : ℕ → K) (i : ℕ) :
    (Free bs i → uncompress bs (compress bs v) w i = v i) ∧ (¬ Free bs i → uncompress bs (compress bs v) w i = w i) := by
  classical
  exact ⟨fun h => by rw [uncompress_compress bs hd, if_pos h], fun h => by rw [uncompress_compress bs hd, if_neg h]⟩

/-- C119: the same for matrices: columns only, or rows and columns. -/
theorem C119_matrix (bs : List (ℕ × ℕ)) (hd : Disj bs) (small M : ℕ → ℕ → K) :
    (∀ i, ∀ k < total bs, compressM bs (uncompressM bs small M false) false i k = small i k) ∧
    (∀ l < total bs, ∀ k < total bs, compressM bs (uncompressM bs small M true) true l k = small l k) ∧
    (∀ i j, ¬ Free bs j → uncompressM bs small M false i j = M i j) ∧
    (∀ i j, ¬ Free bs i ∨ ¬ Free bs j → uncompressM bs small M true i j = M i j) := by
  have h1 := fun (s v : ℕ → K) => C119_uncompress bs hd s v
  refine ⟨fun i k hk => ?_, fun l hl k hk => ?_, fun i j hj => ?_, fun i j hij => ?_⟩
  · simp only [compressM, uncompressM, Bool.false_eq_true, if_false]
    exact (h1 _ _).1 k hk
  · simp only [compressM, uncompressM, if_true]
    rw [compress_idx, compress_idx]
    have a : uncompress bs (fun k' => uncompress bs (small k') (M (idx bs l)) (idx bs k)) (fun i => M i (idx bs k)) (idx bs l) = uncompress bs (small l) (M (idx bs l)) (idx bs k) := by
      unfold uncompress
      rw [uncompressFrom_idx _ bs hd 0 _ l hl, Nat.zero_add]
    rw [a]
    unfold uncompress
    rw [uncompressFrom_idx _ bs hd 0 _ k hk, Nat.zero_add]
  · simp only [uncompressM, Bool.false_eq_true, if_false]
    exact (h1 _ _).2.1 j hj
  · simp only [uncompressM, if_true]
    by_cases hi : Free bs i
    · have hj : ¬ Free bs j := hij.resolve_left (fun h => h hi)
      obtain ⟨k, hk, e1, _⟩ := (h1 (fun k => uncompress bs (small k) (M i) j) (fun i => M i j)).2.2 i hi
      rw [e1]
      exact (h1 _ _).2.1 j hj
    · exact (h1 _ _).2.1 i hi

/-- C119: the compressed jacobian times a compressed velocity is the jacobian times the velocity with zero for the outputs of explicit constraints. -/
theorem C119_product [CommRing K] (bs : List (ℕ × ℕ)) (hd : Disj bs) (n : ℕ) (hn : ∀ b ∈ bs, b.1 + b.2 ≤ n) (J : ℕ → ℕ → K) (small : ℕ → K) (r : ℕ) :
    ∑ k ∈ range (total bs), compressM bs J false r k * small k = ∑ i ∈ range n, J r i * uncompress bs small (fun _ => 0) i := by
  classical
  simp only [compressM, Bool.false_eq_true, if_false]
  have himg : (range (total bs)).image (idx bs) = (range n).filter (Free bs) := by
    ext i
    simp only [mem_image, mem_range, mem_filter]
    constructor
    · rintro ⟨k, hk, rfl⟩
      have hf := idx_free bs k hk
      obtain ⟨b, hb, _, h2⟩ := hf
      exact ⟨lt_of_lt_of_le h2 (hn b hb), idx_free bs k hk⟩
    · rintro ⟨_, hf⟩; exact idx_surj bs i hf
  have e1 : ∑ k ∈ range (total bs), compress bs (J r) k * small k = ∑ k ∈ range (total bs), J r (idx bs k) * uncompress bs small (fun _ => 0) (idx bs k) := by
    refine sum_congr rfl fun k hk => ?_
    rw [compress_idx]
    unfold uncompress
    rw [uncompressFrom_idx small bs hd 0 _ k (mem_range.1 hk), Nat.zero_add]
  rw [e1, ← sum_image (f := fun i => J r i * uncompress bs small (fun _ => 0) i) (g := idx bs) fun a ha b hb h => idx_inj bs hd a b (mem_range.1 ha) (mem_range.1 hb) h, himg, sum_filter]
  refine sum_congr rfl fun i _ => ?_
  by_cases h : Free bs i
  · rw [if_pos h]
  · rw [if_neg h]
    unfold uncompress
    rw [uncompressFrom_out small bs 0 _ i h, mul_zero]

/-- Free variables 1, 2, 5 of a vector of size 7. -/
example : (List.range 3).map (compress [(1, 2), (5, 1)] fun i => 10 * i) = [10, 20, 50] ∧ (List.range 7).map (uncompress [(1, 2), (5, 1)] (fun k => k + 1) fun _ => 0) = [0, 1, 2, 0, 0, 3, 0] := by
  decide +kernel

example : Disj [(1, 2), (5, 1)] := by
  simp only [Disj, List.pairwise_cons, List.mem_singleton, forall_eq, List.not_mem_nil, false_implies, implies_true, List.Pairwise.nil, and_true]
  intro i; omega

/-! ## C120: settings and right hand sides -/

/-- Line searches: config-projector.hh:68. -/
inductive LS where
  | backtracking | errorNormBased | fixedSequence | constant
deriving DecidableEq, Repr

variable {N R : Type} [DecidableEq N]

/-- `ConfigProjector`: line search, both thresholds, number of iterations, constraints of the solver with their right hand sides.  The solver is copied by the copy constructor (config-projector.cc:101-107). -/
structure Proj (N K R : Type) where
  ls : LS
  errorThreshold : K
  inequalityThreshold : K
  maxIterations : ℕ
  rhs : List (N × R)

/-- The projectors and the static member `defaultLineSearch_`. -/
structure World (N K R : Type) where
  dflt : LS
  ps : List (Proj N K R)

/-- Calls on projector number `k`. -/
inductive Op (N K R : Type) where
  | defaultLineSearch (l : LS)
  | create (threshold : K) (maxIterations : ℕ)
  | createCopy (k : ℕ)
  | lineSearchType (k : ℕ) (l : LS)
  | errorThreshold (k : ℕ) (e : K)
  | maxIterations (k : ℕ) (n : ℕ)
  | add (k : ℕ) (c : N) (r : R)
  | rightHandSide (k : ℕ) (c : N) (r : R)
  | rightHandSideFromConfig (k : ℕ) (c : N) (r : R)

/-- Change projector number `k`. -/
def World.mod (w : World N K R) (k : ℕ) (f : Proj N K R → Proj N K R) : World N K R := { w with ps := w.ps.modify k f }

/-- Assignment of the right hand side of a constraint (`BySubstitution::rightHandSide` of hpp-constraints: nothing if the constraint is not there). -/
def setRhs (c : N) (r : R) (l : List (N × R)) : List (N × R) := l.map fun x => if x.1 = c then (x.1, r) else x

/-- Effect of a call, and whether an exception is thrown: config-projector.cc:57-99 (`defaultLineSearch`, `create`, `createCopy`), 120-123 (`add`: no effect if already there), 285-318 (`rightHandSideFromConfig`, where `r` is the value of the function at
the configuration, and `rightHandSide`), 389-400 (`maxIterations`, `errorThreshold`).  A call on a projector that does not exist is not possible (no effect). -/
def step (w : World N K R) : Op N K R → World N K R × Bool
  | .defaultLineSearch l => ({ w with dflt := l }, false)
  | .create t n => ({ w with ps := w.ps ++ [⟨w.dflt, t, t, n, []⟩] }, false)
  | .createCopy k => match w.ps[k]? with
    | none => (w, false)
    | some p => ({ w with ps := w.ps ++ [p] }, false)
  | .lineSearchType k l => (w.mod k fun p => { p with ls := l }, false)
  | .errorThreshold k e => (w.mod k fun p => { p with errorThreshold := e, inequalityThreshold := e }, false)
  | .maxIterations k n => (w.mod k fun p => { p with maxIterations := n }, false)
  | .add k c r => (w.mod k fun p => if c ∈ p.rhs.map Prod.fst then p else { p with rhs := p.rhs ++ [(c, r)] }, false)
  | .rightHandSide k c r => (w.mod k fun p => { p with rhs := setRhs c r p.rhs }, false)
  | .rightHandSideFromConfig k c r => (w.mod k fun p => { p with rhs := setRhs c r p.rhs }, match w.ps[k]? with
    | none => false
    | some p => decide (c ∉ p.rhs.map Prod.fst))

def run (w : World N K R) (os : List (Op N K R)) : World N K R := os.foldl (fun w o => (step w o).1) w

/-- The projector a call may change. -/
def Op.target : Op N K R → Option ℕ
  | .defaultLineSearch _ => none
  | .create _ _ => none
  | .createCopy _ => none
  | .lineSearchType k _ => some k
  | .errorThreshold k _ => some k
  | .maxIterations k _ => some k
  | .add k _ _ => some k
  | .rightHandSide k _ _ => some k
  | .rightHandSideFromConfig k _ _ => some k

theorem step_frame (w : World N K R) (o : Op N K R) (j : ℕ) (p : Proj N K R) (hp : w.ps[j]? = some p) (ht : o.target ≠ some j) : (step w o).1.ps[j]? = some p := by
  have hj := (List.getElem?_eq_some_iff.1 hp).1
  have m : ∀ (k : ℕ) (f : Proj N K R → Proj N K R), k ≠ j → (w.mod k f).ps[j]? = some p := by
    intro k f hk
    simp [World.mod, hk, hp]
  cases o with
  | defaultLineSearch l => exact hp
  | create t n => simp only [step]; rw [List.getElem?_append_left hj]; exact hp
  | createCopy k =>
    simp only [step]
    cases w.ps[k]? with
    | none => exact hp
    | some q => simp only; rw [List.getElem?_append_left hj]; exact hp
  | lineSearchType k l => exact m k _ fun e => ht (by rw [e]; rfl)
  | errorThreshold k e => exact m k _ fun e => ht (by rw [e]; rfl)
  | maxIterations k n => exact m k _ fun e => ht (by rw [e]; rfl)
  | add k c r => exact m k _ fun e => ht (by rw [e]; rfl)
  | rightHandSide k c r => exact m k _ fun e => ht (by rw [e]; rfl)
  | rightHandSideFromConfig k c r => exact m k _ fun e => ht (by rw [e]; rfl)

/-- C120: calls on other projectors, copies of it, and changes of the default line search do not change a projector. -/
theorem C120_frame (w : World N K R) (os : List (Op N K R)) (j : ℕ) (p : Proj N K R) (hp : w.ps[j]? = some p) (ht : ∀ o ∈ os, o.target ≠ some j) : (run w os).ps[j]? = some p := by
  induction os generalizing w with
  | nil => exact hp
  | cons o os ih => exact ih _ (step_frame w o j p hp (ht o (by simp))) fun x hx => ht x (List.mem_cons_of_mem _ hx)

/-- C120: a copy is equal to the projector at the time of the copy; a new projector has the default line search of that time and its threshold is used for equalities and inequalities. -/
theorem C120_create (w : World N K R) :
    (∀ (k : ℕ) (p : Proj N K R), w.ps[k]? = some p → (step w (.createCopy k)).1.ps = w.ps ++ [p]) ∧
    ∀ t n, ∃ p, (step w (.create t n)).1.ps = w.ps ++ [p] ∧ p.ls = w.dflt ∧ p.errorThreshold = t ∧ p.inequalityThreshold = t ∧ p.maxIterations = n ∧ p.rhs = [] := by
  refine ⟨fun k p hk => by simp only [step, hk], fun t n => ⟨⟨w.dflt, t, t, n, []⟩, rfl, rfl, rfl, rfl, rfl, rfl⟩⟩

/-- C120: each setter writes its own field of the projector: what is read afterwards is the last value given, and the other settings and the right hand sides are those before; `add` does nothing if the constraint is already there. -/
theorem C120_setters (w : World N K R) (k : ℕ) (p : Proj N K R) (hp : w.ps[k]? = some p) :
    (∀ l, (step w (.lineSearchType k l)).1.ps[k]? = some ⟨l, p.errorThreshold, p.inequalityThreshold, p.maxIterations, p.rhs⟩) ∧
    (∀ e, (step w (.errorThreshold k e)).1.ps[k]? = some ⟨p.ls, e, e, p.maxIterations, p.rhs⟩) ∧
    (∀ n, (step w (.maxIterations k n)).1.ps[k]? = some ⟨p.ls, p.errorThreshold, p.inequalityThreshold, n, p.rhs⟩) ∧
    (∀ c r, c ∈ p.rhs.map Prod.fst → (step w (.add k c r)).1.ps[k]? = some p) ∧
    (∀ c r, c ∉ p.rhs.map Prod.fst → (step w (.add k c r)).1.ps[k]? = some ⟨p.ls, p.errorThreshold, p.inequalityThreshold, p.maxIterations, p.rhs ++ [(c, r)]⟩) ∧
    ∀ l, (step w (.defaultLineSearch l)).1.dflt = l := by
  have m : ∀ f : Proj N K R → Proj N K R, (w.mod k f).ps[k]? = some (f p) := by
    intro f
    simp [World.mod, hp]
  refine ⟨fun l => m _, fun e => m _, fun n => m _, fun c r hc => ?_, fun c r hc => ?_, fun l => rfl⟩
  · have := m fun p => if c ∈ p.rhs.map Prod.fst then p else { p with rhs := p.rhs ++ [(c, r)] }
    rw [if_pos hc] at this; exact this
  · have := m fun p => if c ∈ p.rhs.map Prod.fst then p else { p with rhs := p.rhs ++ [(c, r)] }
    rw [if_neg hc] at this; exact this

/-- Both thresholds are the same in all projectors. -/
theorem C120_threshold (d : LS) (os : List (Op N K R)) (p : Proj N K R) (hp : p ∈ (run ⟨d, []⟩ os).ps) : p.inequalityThreshold = p.errorThreshold := by
  suffices H : ∀ (os : List (Op N K R)) (w : World N K R), (∀ p ∈ w.ps, p.inequalityThreshold = p.errorThreshold) → ∀ p ∈ (run w os).ps, p.inequalityThreshold = p.errorThreshold from
    H os _ (by simp) p hp
  intro os
  induction os with
  | nil => intro w h; exact h
  | cons o os ih =>
    intro w h
    refine ih _ ?_
    have m : ∀ (k : ℕ) (f : Proj N K R → Proj N K R), (∀ p, p.inequalityThreshold = p.errorThreshold → (f p).inequalityThreshold = (f p).errorThreshold) →
        ∀ p ∈ (w.mod k f).ps, p.inequalityThreshold = p.errorThreshold := by
      intro k f hf p hp
      obtain ⟨i, hi⟩ := List.mem_iff_getElem?.1 hp
      simp only [World.mod, List.getElem?_modify] at hi
      cases hq : w.ps[i]? with
      | none => rw [hq] at hi; simp at hi
      | some q =>
        rw [hq] at hi
        simp only [Functor.map, Option.map_some, Option.some.injEq] at hi
        subst hi
        have := h q (List.mem_of_getElem? hq)
        by_cases e : k = i
        · rw [if_pos e]; exact hf q this
        · rw [if_neg e]; exact this
    cases o with
    | defaultLineSearch l => exact h
    | create t n =>
      intro p hp
      rcases List.mem_append.1 hp with hp | hp
      · exact h p hp
      · rw [List.mem_singleton.1 hp]
    | createCopy k =>
      simp only [step]
      cases hq : w.ps[k]? with
      | none => exact h
      | some q =>
        intro p hp
        rcases List.mem_append.1 hp with hp | hp
        · exact h p hp
        · rw [List.mem_singleton.1 hp]; exact h q (List.mem_of_getElem? hq)
    | lineSearchType k l => exact m k _ fun p hp => hp
    | errorThreshold k e => exact m k _ fun p hp => rfl
    | maxIterations k n => exact m k _ fun p hp => hp
    | add k c r => exact m k _ fun p hp => by by_cases hc : c ∈ p.rhs.map Prod.fst <;> simp [hc, hp]
    | rightHandSide k c r => exact m k _ fun p hp => hp
    | rightHandSideFromConfig k c r => exact m k _ fun p hp => hp

/-- C120: setting the right hand side of a constraint of the projector changes this one and no other, whether it is given or computed from a configuration; computing it for a constraint that is not in the projector throws an
exception and changes nothing. -/
theorem C120_rhs_partial (w : World N K R) (k : ℕ) (p : Proj N K R) (hp : w.ps[k]? = some p) (c : N) (r : R) :
    (∃ p', (step w (.rightHandSide k c r)).1.ps[k]? = some p' ∧ (step w (.rightHandSideFromConfig k c r)).1.ps[k]? = some p' ∧ p'.rhs.map Prod.fst = p.rhs.map Prod.fst ∧
      (∀ x ∈ p'.rhs, x.1 = c → x.2 = r) ∧ (∀ x, x.1 ≠ c → (x ∈ p'.rhs ↔ x ∈ p.rhs)) ∧ (c ∉ p.rhs.map Prod.fst → p'.rhs = p.rhs)) ∧
    ((step w (.rightHandSideFromConfig k c r)).2 = true ↔ c ∉ p.rhs.map Prod.fst) := by
  refine ⟨⟨{ p with rhs := setRhs c r p.rhs }, by simp [step, World.mod, hp], by simp [step, World.mod, hp], ?_, ?_, ?_, ?_⟩, ?_⟩
  · simp only [setRhs, List.map_map]
    refine List.map_congr_left fun x _ => ?_
    by_cases h : x.1 = c <;> simp [h]
  · intro x hx hc
    simp only [setRhs, List.mem_map] at hx
    obtain ⟨y, _, rfl⟩ := hx
    by_cases h : y.1 = c
    · simp [h]
    · simp [h] at hc
  · intro x hx
    simp only [setRhs, List.mem_map]
    constructor
    · rintro ⟨y, hy, rfl⟩
      by_cases h : y.1 = c
      · rw [if_pos h] at hx; exact (hx h).elim
      · rw [if_neg h]; exact hy
    · intro hm; exact ⟨x, hm, by rw [if_neg hx]⟩
  · intro hc
    simp only [setRhs]
    conv_rhs => rw [← List.map_id p.rhs]
    refine List.map_congr_left fun x hx => ?_
    rw [if_neg]
    · rfl
    · intro e; exact hc (List.mem_map.2 ⟨x, hx, e⟩)
  · simp only [step, hp, decide_eq_true_eq]

/-- C120 (finding): giving a right hand side to a constraint that is not in the projector changes nothing and reports nothing: the message is built, but not thrown (config-projector.cc:307-318). -/
theorem C120_rhs_counterexample :
    let w := run (⟨.fixedSequence, []⟩ : World ℕ ℕ ℕ) [.create 1 10, .add 0 5 0]
    (step w (.rightHandSide 0 6 3)).2 = false ∧ (step w (.rightHandSide 0 6 3)).1.ps.map Proj.rhs = [[(5, 0)]] ∧ (step w (.rightHandSideFromConfig 0 6 3)).2 = true := by
  decide +kernel

end Verif.Compress
