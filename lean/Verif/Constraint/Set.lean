import Mathlib.Data.List.Basic
import Mathlib.Tactic.Common
set_option linter.unusedSectionVars false

/-!
# `ConstraintSet` and `ConfigProjector` (C45, C72)
-/
namespace Verif.Cons
variable {M Q : Type}

/-- What is used of the constraints other than sets: which ones are instances of `ConfigProjector`, the projector named "Trivial" made by the
constructor of sets, `isSatisfied`, `impl_compute` (it may change the configuration also when it fails) and the error vector written by the
second version of `isSatisfied`. -/
structure CEnv (M Q : Type) where
  isProj : M → Bool
  trivial : M
  sat : M → Q → Bool
  compute : M → Q → Bool × Q
  err : M → Q → List Int

/-- `ConstraintSet`: constraint-set.hh members `constraints_` and `configProjI_` (`none` for -1). -/
structure CSet (M : Type) where
  mem : List M
  projI : Option Nat
deriving DecidableEq, Repr

inductive Err where
  /-- std::runtime_error, "cannot store more than one config-projector" -/
  | runtime
  /-- undefined behaviour: iterators invalidated while traversing -/
  | ub
  /-- no such set -/
  | noSet
deriving DecidableEq, Repr

variable (E : CEnv M Q)

/-- Constructor: constraint-set.cc:51-54. -/
def CSet.create : CSet M := ⟨[E.trivial], none⟩

/-- `addConstraint` for a constraint that is not a set: constraint-set.cc:63-73, 79.  `erase (begin ())` of an empty vector does not occur
(`rep_add`). -/
def CSet.add (s : CSet M) (c : M) : Except Err (CSet M) :=
  if E.isProj c = true then
    match s.projI with
    | some _ => .error .runtime
    | none => .ok ⟨s.mem.tail ++ [c], some s.mem.tail.length⟩
  else .ok ⟨s.mem ++ [c], s.projI⟩

/-- `addConstraint` for another set: constraint-set.cc:74-78; members of the other set are added one after the other.  An exception leaves what
has been done before. -/
def CSet.addList (s : CSet M) : List M → CSet M × Option Err
  | [] => (s, none)
  | c :: l => match s.add E c with
    | .error e => (s, some e)
    | .ok s' => CSet.addList s' l

/-- `configProjector`: constraint-set.cc:82-86. -/
def CSet.configProjector (s : CSet M) : Option M :=
  match s.projI with
  | some i => s.mem[i]?
  | none => none

/-- `isSatisfied (configuration)`: constraint-set.cc:88-96. -/
def satLoop (q : Q) : List M → Bool
  | [] => true
  | c :: l => if E.sat c q = false then false else satLoop q l

def CSet.isSatisfied (s : CSet M) (q : Q) : Bool := satLoop E q s.mem

/-- `isSatisfied (configuration, error)`: constraint-set.cc:98-112; there is no early exit, errors are concatenated. -/
def satErrLoop (q : Q) : List M → Bool → List Int → Bool × List Int
  | [], r, e => (r, e)
  | c :: l, r, e => satErrLoop q l (if E.sat c q = false then false else r) (e ++ E.err c q)

def CSet.isSatisfiedErr (s : CSet M) (q : Q) : Bool × List Int := satErrLoop E q s.mem true []

/-- `impl_compute`: constraint-set.cc:40-46 (called by `Constraint::apply`, constraint.cc:36-38). -/
def computeLoop : List M → Q → Bool × Q
  | [], q => (true, q)
  | c :: l, q => match E.compute c q with
    | (false, q') => (false, q')
    | (true, q') => computeLoop l q'

def CSet.apply (s : CSet M) (q : Q) : Bool × Q := computeLoop E s.mem q

/-! ## Histories -/

/-- Calls on a store of sets designated by their rank of creation. -/
inductive Op (M : Type) where
  | create
  | copy (i : Nat)
  | add (i : Nat) (c : M)
  | addSet (i j : Nat)

/-- One call: the store after the call and the exception.  Members are copied by `copy` (constraint-set.cc:56-61); a copied member is the same
constraint for what is observed here.  A set added to itself is traversed while it is modified: nothing happens before the exception when its
first member is a second projector, the behaviour is undefined otherwise. -/
def step (st : List (CSet M)) : Op M → List (CSet M) × Option Err
  | .create => (st ++ [CSet.create E], none)
  | .copy i => match st[i]? with
    | none => (st, some .noSet)
    | some s => (st ++ [s], none)
  | .add i c => match st[i]? with
    | none => (st, some .noSet)
    | some s => match s.add E c with
      | .error e => (st, some e)
      | .ok s' => (st.set i s', none)
  | .addSet i j => match st[i]?, st[j]? with
    | some s, some s' =>
      if i = j then
        match s.mem with
        | [] => (st, none)
        | c :: _ => match s.add E c with
          | .error e => (st, some e)
          | .ok _ => (st, some .ub)
      else
        let r := s.addList E s'.mem
        (st.set i r.1, r.2)
    | _, _ => (st, some .noSet)

/-! ## Specification: a set is the list of the constraints added to it -/

/-- A constraint can be added unless it is a second projector. -/
def canAdd (U : List M) (c : M) : Prop := E.isProj c = true → ∀ x ∈ U, E.isProj x = false

/-- Members seen when a set is traversed: the constraints added to it, preceded by the trivial projector when none of them is a projector. -/
def seen (U : List M) : List M := if U.any E.isProj = true then U else E.trivial :: U

/-- Adding constraints in order until one is refused: `Added U l U' refused`. -/
inductive Added : List M → List M → List M → Option M → Prop
  | done (U : List M) : Added U [] U none
  | ok {U l U' : List M} {c : M} {r : Option M} (hc : canAdd E U c) (h : Added (U ++ [c]) l U' r) : Added U (c :: l) U' r
  | refused {U l : List M} {c : M} (hc : ¬ canAdd E U c) : Added U (c :: l) U (some c)

/-- Effect of the calls on the lists of added constraints, with the exception. -/
inductive SpecStep : List (List M) → Op M → List (List M) → Option Err → Prop
  | create (us : List (List M)) : SpecStep us .create (us ++ [[]]) none
  | copy {us : List (List M)} {i : Nat} {U : List M} (h : us[i]? = some U) : SpecStep us (.copy i) (us ++ [U]) none
  | add {us : List (List M)} {i : Nat} {U : List M} {c : M} (h : us[i]? = some U) (hc : canAdd E U c) :
      SpecStep us (.add i c) (us.set i (U ++ [c])) none
  | addThrows {us : List (List M)} {i : Nat} {U : List M} {c : M} (h : us[i]? = some U) (hc : ¬ canAdd E U c) :
      SpecStep us (.add i c) us (some .runtime)
  | addSet {us : List (List M)} {i j : Nat} {U V U' : List M} (h : us[i]? = some U) (h' : us[j]? = some V) (hij : i ≠ j)
      (ha : Added E U (seen E V) U' none) : SpecStep us (.addSet i j) (us.set i U') none
  | addSetThrows {us : List (List M)} {i j : Nat} {U V U' : List M} {c : M} (h : us[i]? = some U) (h' : us[j]? = some V) (hij : i ≠ j)
      (ha : Added E U (seen E V) U' (some c)) : SpecStep us (.addSet i j) (us.set i U') (some .runtime)

/-- Executions of the model where no call is invalid (unknown set) nor adds a set to itself. -/
inductive Run : List (CSet M) → Prop
  | nil : Run []
  | step {st : List (CSet M)} (h : Run st) (op : Op M) (hne : (step E st op).2 ≠ some .noSet) (hij : ∀ i, op ≠ .addSet i i) :
      Run (step E st op).1

/-- Executions of the specification. -/
inductive SpecRun : List (List M) → Prop
  | nil : SpecRun []
  | step {us us' : List (List M)} {op : Op M} {e : Option Err} (h : SpecRun us) (hs : SpecStep E us op us' e) : SpecRun us'

/-- A set and the constraints added to it. -/
structure Rep (s : CSet M) (U : List M) : Prop where
  mem : s.mem = seen E U
  one : ∀ (i : Nat) (c : M), U[i]? = some c → E.isProj c = true → s.projI = some i
  no : (∀ c ∈ U, E.isProj c = false) → s.projI = none

variable {E}

theorem seen_none {U : List M} (h : ∀ c ∈ U, E.isProj c = false) : seen E U = E.trivial :: U := by
  unfold seen
  rw [if_neg]
  simp only [List.any_eq_true, not_exists, not_and, Bool.not_eq_true]
  exact h

theorem seen_some {U : List M} {c : M} (h : c ∈ U) (hc : E.isProj c = true) : seen E U = U := by
  unfold seen
  rw [if_pos]
  exact List.any_eq_true.2 ⟨c, h, hc⟩

theorem dec_proj (U : List M) : (∀ c ∈ U, E.isProj c = false) ∨ ∃ c ∈ U, E.isProj c = true := by
  by_cases h : ∃ c ∈ U, E.isProj c = true
  · exact Or.inr h
  · push Not at h
    exact Or.inl (fun c hc => by simpa using h c hc)

theorem rep_create : Rep E (CSet.create E) [] :=
  ⟨by simp [CSet.create, seen], by simp, fun _ => rfl⟩

theorem rep_unique {s : CSet M} {U : List M} (h : Rep E s U) {i j : Nat} {c d : M} (hi : U[i]? = some c) (hc : E.isProj c = true)
    (hj : U[j]? = some d) (hd : E.isProj d = true) : i = j :=
  Option.some.inj ((h.one i c hi hc).symm.trans (h.one j d hj hd))

theorem rep_add {s : CSet M} {U : List M} (h : Rep E s U) (c : M) :
    (canAdd E U c → ∃ s', s.add E c = .ok s' ∧ Rep E s' (U ++ [c])) ∧ (¬ canAdd E U c → s.add E c = .error .runtime) := by
  unfold CSet.add
  cases hp : E.isProj c with
  | false =>
    refine ⟨fun _ => ⟨_, rfl, ?_⟩, fun hn => absurd (fun hc => by rw [hp] at hc; cases hc) hn⟩
    rcases dec_proj (E := E) U with hU | ⟨d, hd, hdp⟩
    · have hU' : ∀ x ∈ U ++ [c], E.isProj x = false := by
        intro x hx
        rcases List.mem_append.1 hx with hx | hx
        · exact hU x hx
        · rw [List.mem_singleton.1 hx]; exact hp
      refine ⟨?_, ?_, fun _ => h.no hU⟩
      · show s.mem ++ [c] = _
        rw [h.mem, seen_none hU, seen_none hU']; rfl
      · intro i x hi hx
        rw [hU' x (List.mem_of_getElem? hi)] at hx
        cases hx
    · refine ⟨?_, ?_, fun hn => ?_⟩
      · show s.mem ++ [c] = _
        rw [h.mem, seen_some hd hdp, seen_some (List.mem_append_left _ hd) hdp]
      · intro i x hi hx
        show s.projI = some i
        rcases Nat.lt_or_ge i U.length with hl | hl
        · rw [List.getElem?_append_left hl] at hi
          exact h.one i x hi hx
        · rw [List.getElem?_append_right hl] at hi
          have : x = c := by
            cases hk : i - U.length with
            | zero => rw [hk] at hi; simpa using hi.symm
            | succ k => rw [hk] at hi; simp at hi
          rw [this, hp] at hx
          cases hx
      · have := hn d (List.mem_append_left _ hd)
        rw [hdp] at this
        cases this
  | true =>
    rw [if_pos rfl]
    rcases dec_proj (E := E) U with hU | ⟨d, hd, hdp⟩
    · rw [h.no hU]
      refine ⟨fun _ => ⟨_, rfl, ?_⟩, fun hn => absurd (fun _ => hU) hn⟩
      have ht : s.mem.tail = U := by rw [h.mem, seen_none hU]; rfl
      refine ⟨?_, ?_, fun hn => ?_⟩
      · show s.mem.tail ++ [c] = _
        rw [ht, seen_some (List.mem_append_right U (List.mem_singleton.2 rfl)) hp]
      · intro i x hi hx
        show some s.mem.tail.length = some i
        rw [ht]
        rcases Nat.lt_or_ge i U.length with hl | hl
        · rw [List.getElem?_append_left hl] at hi
          rw [hU x (List.mem_of_getElem? hi)] at hx
          cases hx
        · rw [List.getElem?_append_right hl] at hi
          cases hk : i - U.length with
          | zero => rw [show i = U.length from by omega]
          | succ k => rw [hk] at hi; simp at hi
      · have := hn c (by simp)
        rw [hp] at this
        cases this
    · obtain ⟨i, hi⟩ := List.mem_iff_getElem?.1 hd
      rw [h.one i d hi hdp]
      refine ⟨fun hc => ?_, fun _ => rfl⟩
      have := hc hp d hd
      rw [hdp] at this
      cases this

theorem rep_addList {s : CSet M} {U : List M} (h : Rep E s U) (l : List M) :
    ∃ U' r, Added E U l U' r ∧ Rep E (s.addList E l).1 U' ∧ ((s.addList E l).2 = r.map (fun _ => Err.runtime)) := by
  induction l generalizing s U with
  | nil => exact ⟨U, none, .done U, h, rfl⟩
  | cons c l ih =>
    rw [CSet.addList]
    by_cases hc : canAdd E U c
    · obtain ⟨s', h1, h2⟩ := (rep_add h c).1 hc
      rw [h1]
      obtain ⟨U', r, k1, k2, k3⟩ := ih h2
      exact ⟨U', r, .ok hc k1, k2, k3⟩
    · rw [(rep_add h c).2 hc]
      exact ⟨U, some c, .refused hc, h, rfl⟩

/-- All sets of the store. -/
def RepAll (E : CEnv M Q) (st : List (CSet M)) (us : List (List M)) : Prop :=
  st.length = us.length ∧ ∀ (i : Nat) (s : CSet M) (U : List M), st[i]? = some s → us[i]? = some U → Rep E s U

theorem RepAll.append {st : List (CSet M)} {us : List (List M)} (h : RepAll E st us) {s : CSet M} {U : List M} (hs : Rep E s U) :
    RepAll E (st ++ [s]) (us ++ [U]) := by
  refine ⟨by simp [h.1], fun i s' U' h1 h2 => ?_⟩
  rcases Nat.lt_or_ge i st.length with hl | hl
  · rw [List.getElem?_append_left hl] at h1
    rw [List.getElem?_append_left (by rw [← h.1]; exact hl)] at h2
    exact h.2 i s' U' h1 h2
  · rw [List.getElem?_append_right hl] at h1
    rw [List.getElem?_append_right (by rw [← h.1]; exact hl), ← h.1] at h2
    cases hk : i - st.length with
    | zero => rw [hk] at h1 h2; simp at h1 h2; rw [← h1, ← h2]; exact hs
    | succ k => rw [hk] at h1; simp at h1

theorem RepAll.set {st : List (CSet M)} {us : List (List M)} (h : RepAll E st us) (i : Nat) {s : CSet M} {U : List M} (hs : Rep E s U) :
    RepAll E (st.set i s) (us.set i U) := by
  refine ⟨by simp [h.1], fun k s' U' h1 h2 => ?_⟩
  rw [List.getElem?_set] at h1 h2
  rw [← h.1] at h2
  by_cases hk : i = k
  · rw [if_pos hk] at h1 h2
    by_cases hl : i < st.length
    · rw [if_pos hl] at h1 h2
      cases h1; cases h2; exact hs
    · rw [if_neg hl] at h1; cases h1
  · rw [if_neg hk] at h1 h2
    exact h.2 k s' U' h1 h2

theorem RepAll.get {st : List (CSet M)} {us : List (List M)} (h : RepAll E st us) {i : Nat} {s : CSet M} (hs : st[i]? = some s) :
    ∃ U, us[i]? = some U ∧ Rep E s U := by
  have hl : i < us.length := by
    rw [← h.1]
    exact (List.getElem?_eq_some_iff.1 hs).1
  exact ⟨us[i], List.getElem?_eq_getElem hl, h.2 i s _ hs (List.getElem?_eq_getElem hl)⟩

/-- C45 (refinement): every call behaves on the sets as on the lists of added constraints, with the same exceptions: a constraint is appended,
except that a second projector throws without any change; adding a set appends what is seen in it one after the other, until the exception. -/
theorem C45_step {st : List (CSet M)} {us : List (List M)} (h : RepAll E st us) (op : Op M) (hne : (step E st op).2 ≠ some .noSet)
    (hij : ∀ i, op ≠ .addSet i i) : ∃ us', SpecStep E us op us' (step E st op).2 ∧ RepAll E (step E st op).1 us' := by
  cases op with
  | create => exact ⟨_, .create us, h.append rep_create⟩
  | copy i =>
    simp only [step] at hne ⊢
    cases hs : st[i]? with
    | none => rw [hs] at hne; exact absurd rfl hne
    | some s =>
      obtain ⟨U, hU, hr⟩ := h.get hs
      exact ⟨_, .copy hU, h.append hr⟩
  | add i c =>
    simp only [step] at hne ⊢
    cases hs : st[i]? with
    | none => rw [hs] at hne; exact absurd rfl hne
    | some s =>
      obtain ⟨U, hU, hr⟩ := h.get hs
      dsimp only
      by_cases hc : canAdd E U c
      · obtain ⟨s', h1, h2⟩ := (rep_add hr c).1 hc
        rw [h1]
        exact ⟨_, .add hU hc, h.set i h2⟩
      · rw [(rep_add hr c).2 hc]
        exact ⟨_, .addThrows hU hc, h⟩
  | addSet i j =>
    have hne' : i ≠ j := fun he => hij i (by rw [he])
    simp only [step] at hne ⊢
    cases hs : st[i]? with
    | none => rw [hs] at hne; exact absurd rfl hne
    | some s =>
      cases hs' : st[j]? with
      | none => rw [hs, hs'] at hne; exact absurd rfl hne
      | some s' =>
        obtain ⟨U, hU, hr⟩ := h.get hs
        obtain ⟨V, hV, hr'⟩ := h.get hs'
        dsimp only
        rw [if_neg hne']
        obtain ⟨U', r, k1, k2, k3⟩ := rep_addList hr s'.mem
        rw [hr'.mem] at k1
        rw [k3]
        cases r with
        | none => exact ⟨_, .addSet hU hV hne' k1, h.set i k2⟩
        | some c => exact ⟨_, .addSetThrows hU hV hne' k1, h.set i k2⟩

theorem run_rep {st : List (CSet M)} (h : Run E st) : ∃ us, SpecRun E us ∧ RepAll E st us := by
  induction h with
  | nil => exact ⟨[], .nil, rfl, by simp⟩
  | @step st _ op hne hij ih =>
    obtain ⟨us, h1, h2⟩ := ih
    obtain ⟨us', k1, k2⟩ := C45_step h2 op hne hij
    exact ⟨us', .step h1 k1, k2⟩

theorem satLoop_iff (q : Q) (l : List M) : satLoop E q l = true ↔ ∀ c ∈ l, E.sat c q = true := by
  induction l with
  | nil => simp [satLoop]
  | cons c l ih =>
    rw [satLoop]
    cases h : E.sat c q with
    | false => simp [h]
    | true => simp [ih, h]

theorem satErrLoop_eq (q : Q) (l : List M) (r : Bool) (e : List Int) :
    satErrLoop E q l r e = (r && satLoop E q l, e ++ l.flatMap (fun c => E.err c q)) := by
  induction l generalizing r e with
  | nil => simp [satErrLoop, satLoop]
  | cons c l ih =>
    rw [satErrLoop, ih, satLoop]
    cases h : E.sat c q <;> simp

/-- C45: for every history, each set of the store represents a list of added constraints such that: at most one of them is a projector, which
is what `configProjector` returns; the two versions of `isSatisfied` return the conjunction over the added constraints; the error is the
concatenation of their errors (the trivial projector is satisfied and has an empty error). -/
theorem C45_observations (ht : ∀ q, E.sat E.trivial q = true) (he : ∀ q, E.err E.trivial q = []) {st : List (CSet M)} (h : Run E st) :
    ∃ us, SpecRun E us ∧ st.length = us.length ∧ ∀ (i : Nat) (s : CSet M) (U : List M), st[i]? = some s → us[i]? = some U →
      (∀ (a b : Nat) (c d : M), U[a]? = some c → U[b]? = some d → E.isProj c = true → E.isProj d = true → a = b) ∧
      (∀ c, s.configProjector = some c ↔ c ∈ U ∧ E.isProj c = true) ∧
      (∀ q, s.isSatisfied E q = true ↔ ∀ c ∈ U, E.sat c q = true) ∧
      (∀ q, (s.isSatisfiedErr E q).1 = s.isSatisfied E q) ∧
      (∀ q, (s.isSatisfiedErr E q).2 = U.flatMap (fun c => E.err c q)) := by
  obtain ⟨us, h1, h2⟩ := run_rep h
  refine ⟨us, h1, h2.1, fun i s U hs hU => ?_⟩
  have hr := h2.2 i s U hs hU
  refine ⟨?_, ?_, ?_, ?_, ?_⟩
  · intro a b c d ha hb hc hd
    exact rep_unique hr ha hc hb hd
  · intro c
    unfold CSet.configProjector
    rcases dec_proj (E := E) U with hn | ⟨d, hd, hdp⟩
    · rw [hr.no hn]
      refine ⟨fun hh => by simp at hh, fun ⟨hc, hp⟩ => ?_⟩
      rw [hn c hc] at hp
      cases hp
    · obtain ⟨k, hk⟩ := List.mem_iff_getElem?.1 hd
      rw [hr.one k d hk hdp]
      show s.mem[k]? = some c ↔ _
      rw [hr.mem, seen_some hd hdp, hk]
      refine ⟨fun hh => by cases hh; exact ⟨hd, hdp⟩, fun ⟨hc, hp⟩ => ?_⟩
      obtain ⟨m, hm⟩ := List.mem_iff_getElem?.1 hc
      have := rep_unique hr hk hdp hm hp
      subst this
      rw [← hk, hm]
  · intro q
    unfold CSet.isSatisfied
    rw [satLoop_iff, hr.mem]
    rcases dec_proj (E := E) U with hn | ⟨d, hd, hdp⟩
    · rw [seen_none hn]; simp [ht q]
    · rw [seen_some hd hdp]
  · intro q
    unfold CSet.isSatisfiedErr CSet.isSatisfied
    rw [satErrLoop_eq]; simp
  · intro q
    unfold CSet.isSatisfiedErr
    rw [satErrLoop_eq, hr.mem]
    rcases dec_proj (E := E) U with hn | ⟨d, hd, hdp⟩
    · rw [seen_none hn]; simp [he q]
    · rw [seen_some hd hdp]; simp

/-- Assumptions on `impl_compute` of a projector: success gives a satisfying configuration, a satisfying one is left unchanged
(`C72_projector` proves the latter for the code of `ConfigProjector`). -/
structure ComputeContract (E : CEnv M Q) (c : M) : Prop where
  success : ∀ q q', E.compute c q = (true, q') → E.sat c q' = true
  fixed : ∀ q, E.sat c q = true → E.compute c q = (true, q)

/-- C72: `apply` on a satisfying configuration returns true and leaves it unchanged. -/
theorem C72_apply_fixed {s : CSet M} (hc : ∀ c ∈ s.mem, ComputeContract E c) (q : Q) (h : s.isSatisfied E q = true) :
    s.apply E q = (true, q) := by
  have := (satLoop_iff q s.mem).1 h
  unfold CSet.apply
  generalize s.mem = l at hc this
  induction l with
  | nil => rfl
  | cons c l ih =>
    rw [computeLoop, (hc c (by simp)).fixed q (this c (by simp))]
    exact ih (fun d hd => hc d (by simp [hd])) (fun d hd => this d (by simp [hd]))

/-- C72: when `apply` succeeds, the resulting configuration satisfies every constraint that the following ones do not break; in particular,
all of them when the only constraint is a projector. -/
theorem C72_apply_success {s : CSet M} (hc : ∀ c ∈ s.mem, ComputeContract E c)
    (hk : ∀ (l r : List M) (c : M), s.mem = l ++ c :: r → ∀ d ∈ r, ∀ q q', E.sat c q = true → E.compute d q = (true, q') → E.sat c q' = true)
    (q q' : Q) (h : s.apply E q = (true, q')) : s.isSatisfied E q' = true := by
  unfold CSet.isSatisfied
  rw [satLoop_iff]
  unfold CSet.apply at h
  have keep : ∀ (r : List M) (c : M) (q : Q), (∀ d ∈ r, ∀ q q', E.sat c q = true → E.compute d q = (true, q') → E.sat c q' = true) →
      E.sat c q = true → computeLoop E r q = (true, q') → E.sat c q' = true := by
    intro r
    induction r with
    | nil => intro c q _ hq h; simp only [computeLoop, Prod.mk.injEq, true_and] at h; rw [← h]; exact hq
    | cons d r ih =>
      intro c q hk hq h
      rw [computeLoop] at h
      cases hd : E.compute d q with
      | mk ok q1 =>
        rw [hd] at h
        cases ok with
        | false => simp at h
        | true => exact ih c q1 (fun d' hd' => hk d' (by simp [hd'])) (hk d (by simp) q q1 hq hd) h
  have main : ∀ (r l : List M) (q : Q), s.mem = l ++ r → computeLoop E r q = (true, q') → ∀ c ∈ r, E.sat c q' = true := by
    intro r
    induction r with
    | nil => intro l q _ _ c hc; simp at hc
    | cons d r ih =>
      intro l q hm h c hcm
      rw [computeLoop] at h
      cases hd : E.compute d q with
      | mk ok q1 =>
        rw [hd] at h
        cases ok with
        | false => simp at h
        | true =>
          rcases List.mem_cons.1 hcm with rfl | hcm
          · exact keep r c q1 (hk l r c hm) ((hc c (by rw [hm]; simp)).success q q1 hd) h
          · exact ih (l ++ [d]) q1 (by rw [hm]; simp) h c hcm
  exact main s.mem [] q (by simp) h

/-! ## `ConfigProjector` -/

inductive Status where
  | errorIncreased | maxIterationReached | infeasible | success
deriving DecidableEq

/-- `ConfigProjector::impl_compute`: config-projector.cc:181-205; `solve` is the solver of package hpp-constraints, `sat` its `isSatisfied`. -/
def projCompute (sat : Q → Bool) (solve : Q → Status × Q) (q : Q) : Bool × Q :=
  if sat q = true then (true, q)
  else match solve q with
    | (.success, q') => (true, q')
    | (_, q') => (false, q')

/-- `ConfigProjector::optimize`: config-projector.cc:207-245.  `solveOpt maxIter` is the solver with `optimize` true and the given maximal
number of iterations; the number of iterations of the projector is returned too (it is changed, then restored). -/
def projOptimize (lastIsOptional : Bool) (sat : Q → Bool) (solveOpt : Nat → Q → Status × Q) (maxIterations maxIter : Nat) (q : Q) :
    Bool × Q × Nat :=
  if lastIsOptional = false then (true, q, maxIterations)
  else if sat q = false then (false, q, maxIterations)
  else
    let m := if maxIter ≠ 0 then maxIter else maxIterations
    match solveOpt m q with
    | (.success, q') => (true, q', maxIterations)
    | (.infeasible, q') => (sat q', q', maxIterations)
    | (_, q') => (false, q', maxIterations)

/-- C72: projection leaves a satisfying configuration unchanged, and succeeds only with a satisfying configuration, for a solver that reports
success only then; projecting the result again changes nothing. -/
theorem C72_projector (sat : Q → Bool) (solve : Q → Status × Q) (hs : ∀ q q', solve q = (.success, q') → sat q' = true) :
    (∀ q, sat q = true → projCompute sat solve q = (true, q)) ∧
    (∀ q q', projCompute sat solve q = (true, q') → sat q' = true ∧ projCompute sat solve q' = (true, q')) := by
  have h1 : ∀ q, sat q = true → projCompute sat solve q = (true, q) := fun q h => by unfold projCompute; rw [if_pos h]
  refine ⟨h1, fun q q' h => ?_⟩
  have : sat q' = true := by
    unfold projCompute at h
    by_cases hq : sat q = true
    · rw [if_pos hq] at h; simp only [Prod.mk.injEq, true_and] at h; rw [← h]; exact hq
    · rw [if_neg hq] at h
      cases hr : solve q with
      | mk s q1 =>
        rw [hr] at h
        cases s <;> simp at h
        rw [← h]
        exact hs q q1 hr
  exact ⟨this, h1 q' this⟩

/-- C72: without optional constraint, optimization succeeds and changes nothing; from a configuration that does not satisfy the constraints it fails and changes
nothing; otherwise the configuration returned is the one of the solver run with the maximal number of iterations asked for (that of the projector for 0), it succeeds
when the solver does, and when the solver stops without improvement on a configuration that satisfies the constraints. -/
theorem C72_optimize_outcome (sat : Q → Bool) (solveOpt : Nat → Q → Status × Q) (maxIterations maxIter : Nat) (q : Q) :
    ((projOptimize false sat solveOpt maxIterations maxIter q).1 = true ∧ (projOptimize false sat solveOpt maxIterations maxIter q).2.1 = q) ∧
    (sat q = false → (projOptimize true sat solveOpt maxIterations maxIter q).1 = false ∧ (projOptimize true sat solveOpt maxIterations maxIter q).2.1 = q) ∧
    (sat q = true → ∀ m, (m = maxIter ∧ maxIter ≠ 0) ∨ (m = maxIterations ∧ maxIter = 0) →
      (projOptimize true sat solveOpt maxIterations maxIter q).2.1 = (solveOpt m q).2 ∧
      ((projOptimize true sat solveOpt maxIterations maxIter q).1 = true ↔ (solveOpt m q).1 = .success ∨ ((solveOpt m q).1 = .infeasible ∧ sat (solveOpt m q).2 = true))) := by
  refine ⟨⟨rfl, rfl⟩, fun h => ?_, fun h m hm => ?_⟩
  · simp [projOptimize, h]
  · have : (if maxIter ≠ 0 then maxIter else maxIterations) = m := by
      rcases hm with ⟨h1, h2⟩ | ⟨h1, h2⟩
      · rw [if_pos h2, h1]
      · rw [if_neg (by simp [h2]), h1]
    unfold projOptimize
    rw [if_neg (by simp), if_neg (by simp [h])]
    simp only [this]
    cases hr : solveOpt m q with
    | mk s q1 => cases s <;> simp

/-- C72: `optimize` restores the maximal number of iterations, and when it returns true from a satisfying configuration the result is
satisfying. -/
theorem C72_optimize (lastIsOptional : Bool) (sat : Q → Bool) (solveOpt : Nat → Q → Status × Q)
    (hs : ∀ m q q', solveOpt m q = (.success, q') → sat q' = true) (maxIterations maxIter : Nat) (q : Q) :
    (projOptimize lastIsOptional sat solveOpt maxIterations maxIter q).2.2 = maxIterations ∧
    (sat q = true → (projOptimize lastIsOptional sat solveOpt maxIterations maxIter q).1 = true →
      sat (projOptimize lastIsOptional sat solveOpt maxIterations maxIter q).2.1 = true) := by
  unfold projOptimize
  by_cases h1 : lastIsOptional = false
  · rw [if_pos h1]; exact ⟨rfl, fun h _ => h⟩
  · rw [if_neg h1]
    by_cases h2 : sat q = false
    · rw [if_pos h2]; exact ⟨rfl, fun _ h => by simp at h⟩
    · rw [if_neg h2]
      dsimp only
      generalize (if maxIter ≠ 0 then maxIter else maxIterations) = m
      cases hr : solveOpt m q with
      | mk s q1 =>
        cases s with
        | success => exact ⟨rfl, fun _ _ => hs m q q1 hr⟩
        | infeasible => exact ⟨rfl, fun _ h => h⟩
        | errorIncreased => exact ⟨rfl, fun _ h => by simp at h⟩
        | maxIterationReached => exact ⟨rfl, fun _ h => by simp at h⟩

/-! ## Witnesses -/

/-- Constraints: 0 is the trivial projector, 1 and 2 are projectors, the others are not. Constraint `n ≥ 1` is satisfied by configurations
not smaller than `n`. -/
def natE : CEnv Nat Nat where
  isProj c := decide (c ≤ 2)
  trivial := 0
  sat c q := decide (c ≤ q)
  compute c q := (true, max c q)
  err c q := if c = 0 then [] else [(c : Int) - q]

/-- The state of the sets after some calls, and the exceptions. -/
def runOps : List (CSet Nat) → List (Op Nat) → List (CSet Nat) × List (Option Err)
  | st, [] => (st, [])
  | st, o :: os => let r := step natE st o; let k := runOps r.1 os; (k.1, r.2 :: k.2)

example : runOps [] [.create, .add 0 5, .add 0 1, .add 0 2, .add 0 7] =
    ([⟨[5, 1, 7], some 1⟩], [none, none, none, some .runtime, none]) := by decide

example : Run natE (step natE (step natE [] .create).1 (.add 0 5)).1 :=
  .step (.step .nil .create (by decide) (by simp)) (.add 0 5) (by decide) (by simp)

/-- C45, "adding a set adds all members": the members seen include the trivial projector.  A set without projector cannot be added to a set
with one, and a projector cannot be added after a set without projector has been added. -/
theorem C45_trivial_counterexample :
    runOps [] [.create, .add 0 1, .create, .add 1 5, .addSet 0 1] =
      ([⟨[1], some 0⟩, ⟨[0, 5], none⟩], [none, none, none, none, some .runtime]) ∧
    runOps [] [.create, .create, .add 1 5, .addSet 0 1, .add 0 1] =
      ([⟨[0, 5], some 0⟩, ⟨[0, 5], none⟩], [none, none, none, none, some .runtime]) := by decide

/-- C45, "leaves the set unchanged": when the projector is not the first member of the added set, the previous members have been added when
the exception is thrown. -/
theorem C45_strong_counterexample :
    runOps [] [.create, .add 0 1, .create, .add 1 5, .add 1 2, .addSet 0 1] =
      ([⟨[1, 5], some 0⟩, ⟨[5, 2], some 1⟩], [none, none, none, none, none, some .runtime]) := by decide

/-- C72: the result of `apply` may not satisfy the first constraint when a following one breaks it. -/
theorem C72_order_counterexample : ∃ (E : CEnv Nat Nat) (s : CSet Nat), (∀ c ∈ s.mem, ComputeContract E c) ∧
    s.apply E 0 = (true, 2) ∧ s.isSatisfied E 2 = false := by
  refine ⟨{ natE with sat := fun c q => decide (c = q), compute := fun c _ => (true, c) }, ⟨[1, 2], some 0⟩, ?_, by decide, by decide⟩
  intro c _
  exact ⟨by simp, by simp⟩

end Verif.Cons
