import Mathlib.Order.Defs.LinearOrder
import Mathlib.Data.List.Pairwise
import Mathlib.Data.Nat.Basic
import Mathlib.Order.Nat
import Mathlib.Tactic.Common
set_option linter.unusedSectionVars false

/-!
# `Container`, `Parameter` and the parameters of `Problem` (C46), `Problem::checkProblem` (C73)
-/
namespace Verif.Prob

/-! ## `Container` -/
section
variable {K V : Type} [LinearOrder K]

/-- `Container::map`: container.hh:76-84, a `std::map` as the list of its elements in the order of traversal. -/
abbrev Map (K V : Type) := List (K × V)

/-- `Container::add`: container.hh:92-95: `insert`, and assignment when the key exists. -/
def Map.add (m : Map K V) (k : K) (v : V) : Map K V :=
  match m with
  | [] => [(k, v)]
  | (k', v') :: l => if k < k' then (k, v) :: (k', v') :: l else if k' < k then (k', v') :: Map.add l k v else (k', v) :: l

/-- `Container::erase`: container.hh:87. -/
def Map.erase (m : Map K V) (k : K) : Map K V :=
  match m with
  | [] => []
  | (k', v') :: l => if k = k' then l else (k', v') :: Map.erase l k

/-- `map.find`, the element or `end ()`. -/
def Map.find (m : Map K V) (k : K) : Option V :=
  match m with
  | [] => none
  | (k', v') :: l => if k = k' then some v' else Map.find l k

/-- `Container::has`: container.hh:97. -/
def Map.has (m : Map K V) (k : K) : Bool := (m.find k).isSome

inductive Err where
  /-- std::invalid_argument -/
  | invalid
  /-- std::logic_error -/
  | logic
  /-- std::runtime_error -/
  | runtime
deriving DecidableEq, Repr

/-- `Container::get (name)`: container.hh:100-108. -/
def Map.get (m : Map K V) (k : K) : Except Err V :=
  match m.find k with
  | none => .error .invalid
  | some v => .ok v

/-- `Container::get (name, default)`: container.hh:111-116. -/
def Map.getD (m : Map K V) (k : K) (d : V) : V :=
  match m.find k with
  | none => d
  | some v => v

/-- `Container::getAllAs`, `getKeys`: container.hh:120-134. -/
def Map.values (m : Map K V) : List V := m.map Prod.snd
def Map.keys (m : Map K V) : List K := m.map Prod.fst

/-- Calls. -/
inductive COp (K V : Type) where
  | add (k : K) (v : V)
  | erase (k : K)
  | clear

def Map.exec (m : Map K V) : COp K V → Map K V
  | .add k v => m.add k v
  | .erase k => m.erase k
  | .clear => []

/-- Specification: what has been done last with a key, in the list of calls (the last one first). -/
def lastValue (k : K) : List (COp K V) → Option V
  | [] => none
  | .clear :: _ => none
  | .add k' v :: l => if k' = k then some v else lastValue k l
  | .erase k' :: l => if k' = k then none else lastValue k l

/-- Keys in increasing order. -/
def Sorted (m : Map K V) : Prop := m.Pairwise (fun a b => a.1 < b.1)

theorem find_none_of_lt {m : Map K V} {k : K} (h : ∀ x ∈ m, k < x.1) : m.find k = none := by
  induction m with
  | nil => rfl
  | cons x l ih =>
    obtain ⟨k', v'⟩ := x
    have h1 := h (k', v') (by simp)
    rw [Map.find, if_neg (ne_of_lt h1)]
    exact ih (fun y hy => h y (by simp [hy]))

theorem mem_add {m : Map K V} {k : K} {v : V} {x : K × V} (h : x ∈ m.add k v) : x.1 = k ∨ x ∈ m := by
  induction m with
  | nil => simp [Map.add] at h; left; rw [h]
  | cons y l ih =>
    obtain ⟨k', v'⟩ := y
    rw [Map.add] at h
    by_cases h1 : k < k'
    · rw [if_pos h1] at h
      rcases List.mem_cons.1 h with h | h
      · left; rw [h]
      · exact Or.inr h
    · rw [if_neg h1] at h
      by_cases h2 : k' < k
      · rw [if_pos h2] at h
        rcases List.mem_cons.1 h with h | h
        · right; rw [h]; simp
        · rcases ih h with h | h
          · exact Or.inl h
          · right; simp [h]
      · rw [if_neg h2] at h
        rcases List.mem_cons.1 h with h | h
        · left; rw [h]; exact le_antisymm (not_lt.1 h1) (not_lt.1 h2)
        · right; simp [h]

theorem sorted_add {m : Map K V} (h : Sorted m) (k : K) (v : V) : Sorted (m.add k v) := by
  induction m with
  | nil => exact List.pairwise_singleton _ _
  | cons y l ih =>
    obtain ⟨k', v'⟩ := y
    obtain ⟨h1, h2⟩ := List.pairwise_cons.1 h
    rw [Map.add]
    by_cases c1 : k < k'
    · rw [if_pos c1]
      refine List.pairwise_cons.2 ⟨fun x hx => ?_, h⟩
      rcases List.mem_cons.1 hx with hx | hx
      · rw [hx]; exact c1
      · exact lt_trans c1 (h1 x hx)
    · rw [if_neg c1]
      by_cases c2 : k' < k
      · rw [if_pos c2]
        refine List.pairwise_cons.2 ⟨fun x hx => ?_, ih h2⟩
        rcases mem_add hx with hx | hx
        · rw [hx]; exact c2
        · exact h1 x hx
      · rw [if_neg c2]
        exact List.pairwise_cons.2 ⟨h1, h2⟩

theorem mem_erase {m : Map K V} {k : K} {x : K × V} (h : x ∈ m.erase k) : x ∈ m := by
  induction m with
  | nil => simp [Map.erase] at h
  | cons y l ih =>
    obtain ⟨k', v'⟩ := y
    rw [Map.erase] at h
    split at h
    · simp [h]
    · rcases List.mem_cons.1 h with h | h
      · rw [h]; simp
      · simp [ih h]

theorem sorted_erase {m : Map K V} (h : Sorted m) (k : K) : Sorted (m.erase k) := by
  induction m with
  | nil => exact h
  | cons y l ih =>
    obtain ⟨k', v'⟩ := y
    obtain ⟨h1, h2⟩ := List.pairwise_cons.1 h
    rw [Map.erase]
    split
    · exact h2
    · exact List.pairwise_cons.2 ⟨fun x hx => h1 x (mem_erase hx), ih h2⟩

theorem find_add {m : Map K V} (k : K) (v : V) (j : K) : (m.add k v).find j = if k = j then some v else m.find j := by
  induction m with
  | nil =>
    rw [show Map.add [] k v = [(k, v)] from rfl, show Map.find [(k, v)] j = if j = k then some v else none from rfl,
      show Map.find ([] : Map K V) j = none from rfl]
    by_cases hj : k = j
    · rw [if_pos hj, if_pos hj.symm]
    · rw [if_neg hj, if_neg (fun e => hj e.symm)]
  | cons y l ih =>
    obtain ⟨k', v'⟩ := y
    rw [Map.add]
    by_cases c1 : k < k'
    · rw [if_pos c1, Map.find]
      by_cases hj : k = j
      · rw [if_pos hj, if_pos hj.symm]
      · rw [if_neg hj, if_neg (fun e => hj e.symm)]
    · rw [if_neg c1]
      by_cases c2 : k' < k
      · rw [if_pos c2, Map.find, ih]
        by_cases hj : k = j
        · rw [if_pos hj, if_neg (by rintro rfl; rw [hj] at c2; exact absurd c2 (lt_irrefl _)), if_pos hj]
        · rw [if_neg hj, Map.find, if_neg hj]
      · rw [if_neg c2]
        have : k = k' := le_antisymm (not_lt.1 c2) (not_lt.1 c1)
        subst this
        rw [Map.find, Map.find]
        by_cases hj : k = j
        · rw [if_pos hj, if_pos hj.symm]
        · rw [if_neg hj, if_neg (fun e => hj e.symm), if_neg (fun e => hj e.symm)]

theorem find_erase {m : Map K V} (h : Sorted m) (k j : K) : (m.erase k).find j = if k = j then none else m.find j := by
  induction m with
  | nil => simp [Map.erase, Map.find]
  | cons y l ih =>
    obtain ⟨k', v'⟩ := y
    obtain ⟨h1, h2⟩ := List.pairwise_cons.1 h
    rw [Map.erase]
    by_cases c : k = k'
    · rw [if_pos c]
      by_cases hj : k = j
      · rw [if_pos hj]
        exact find_none_of_lt (fun x hx => by rw [← hj, c]; exact h1 x hx)
      · rw [if_neg hj, Map.find, if_neg (by rw [← c]; exact fun e => hj e.symm)]
    · rw [if_neg c, Map.find, ih h2]
      by_cases hj : k = j
      · rw [if_pos hj, if_neg (by rw [← hj]; exact c), if_pos hj]
      · rw [if_neg hj, Map.find, if_neg hj]

theorem find_iff_mem {m : Map K V} (h : Sorted m) (k : K) (v : V) : m.find k = some v ↔ (k, v) ∈ m := by
  induction m with
  | nil => simp [Map.find]
  | cons y l ih =>
    obtain ⟨k', v'⟩ := y
    obtain ⟨h1, h2⟩ := List.pairwise_cons.1 h
    rw [Map.find]
    by_cases c : k = k'
    · rw [if_pos c]
      refine ⟨fun e => by cases e; rw [c]; simp, fun hm => ?_⟩
      rcases List.mem_cons.1 hm with hm | hm
      · cases hm; rfl
      · have := h1 _ hm
        rw [← c] at this
        exact absurd this (lt_irrefl _)
    · rw [if_neg c, ih h2]
      refine ⟨fun hm => by simp [hm], fun hm => ?_⟩
      rcases List.mem_cons.1 hm with hm | hm
      · cases hm; exact absurd rfl c
      · exact hm

/-- The container after the calls (the last one first). -/
def execAll : List (COp K V) → Map K V
  | [] => []
  | o :: l => (execAll l).exec o

/-- C46 (containers): after every sequence of calls, a container is the finite map of the last values: `has`, the two versions of `get`, and the
lists of keys (increasing, without repetition) and of values in the same order. -/
theorem C46_container (ops : List (COp K V)) :
    (∀ k, (execAll ops).has k = (lastValue k ops).isSome) ∧
    (∀ k, (execAll ops).get k = match lastValue k ops with | some v => .ok v | none => .error .invalid) ∧
    (∀ k d, (execAll ops).getD k d = (lastValue k ops).getD d) ∧
    (execAll ops).keys.Pairwise (· < ·) ∧ (∀ k, k ∈ (execAll ops).keys ↔ lastValue k ops ≠ none) ∧
    (execAll ops).values.map some = (execAll ops).keys.map (fun k => lastValue k ops) := by
  have key : Sorted (execAll ops) ∧ ∀ k, (execAll ops).find k = lastValue k ops := by
    induction ops with
    | nil => exact ⟨List.Pairwise.nil, fun k => rfl⟩
    | cons o l ih =>
      obtain ⟨h1, h2⟩ := ih
      cases o with
      | add k v => exact ⟨sorted_add h1 k v, fun j => by
          show ((execAll l).add k v).find j = _
          rw [find_add, lastValue, h2]⟩
      | erase k => exact ⟨sorted_erase h1 k, fun j => by
          show ((execAll l).erase k).find j = _
          rw [find_erase h1, lastValue, h2]⟩
      | clear => exact ⟨List.Pairwise.nil, fun k => rfl⟩
  obtain ⟨h1, h2⟩ := key
  refine ⟨fun k => by rw [Map.has, h2], fun k => ?_, fun k d => ?_, ?_, fun k => ?_, ?_⟩
  · rw [Map.get, h2]; cases lastValue k ops <;> rfl
  · rw [Map.getD, h2]; cases lastValue k ops <;> rfl
  · exact List.pairwise_map.2 h1
  · rw [← h2 k]
    constructor
    · intro hk
      obtain ⟨⟨k', v⟩, hm, rfl⟩ := List.mem_map.1 hk
      rw [(find_iff_mem h1 k' v).2 hm]
      simp
    · intro hk
      cases hf : (execAll ops).find k with
      | none => exact absurd hf hk
      | some v => exact List.mem_map.2 ⟨(k, v), (find_iff_mem h1 k v).1 hf, rfl⟩
  · unfold Map.values Map.keys
    rw [List.map_map, List.map_map]
    apply List.map_congr_left
    intro x hx
    show some x.2 = lastValue x.1 ops
    rw [← h2, (find_iff_mem h1 x.1 x.2).2 hx]

end

/-! ## Parameters -/

/-- `Parameter::Type`: parameter.hh:62-75. -/
inductive Ty where
  | none | bool | int | float | string | vector | matrix
deriving DecidableEq, Repr

/-- `Parameter`: the type and the value; parameter.cc:109-165 (constructors, copy and assignment keep both).  Floating point numbers, vectors
and matrices are abstract values `X`. -/
inductive Param (X : Type) where
  | none
  | bool (b : Bool)
  | int (i : Int)
  | float (x : X)
  | string (s : String)
  | vector (v : List X)
  | matrix (m : List (List X))
deriving DecidableEq, Repr

variable {X : Type}

/-- `Parameter::type`: parameter.cc:181. -/
def Param.type : Param X → Ty
  | .none => .none
  | .bool _ => .bool
  | .int _ => .int
  | .float _ => .float
  | .string _ => .string
  | .vector _ => .vector
  | .matrix _ => .matrix

/-- `boolValue`, `intValue`, `floatValue`: parameter.cc:183-204 (`stringValue`, `vectorValue` and `matrixValue` are alike). -/
def Param.boolValue : Param X → Except Err Bool
  | .bool b => .ok b
  | _ => .error .invalid
def Param.intValue : Param X → Except Err Int
  | .int b => .ok b
  | _ => .error .invalid
def Param.floatValue : Param X → Except Err X
  | .float b => .ok b
  | _ => .error .invalid

/-- `ParameterDescription`: parameter.hh:119-143 (documentation omitted). -/
structure Desc (X : Type) where
  type : Ty
  default : Param X

/-- `ParameterDescription::defaultValue`: parameter.cc:238-244. -/
def Desc.defaultValue (d : Desc X) : Except Err (Param X) :=
  if d.default.type = d.type then .ok d.default else .error .logic

variable {N : Type} [LinearOrder N]

/-- Names of parameters are of any ordered type `N` (`std::string` in the code).

The static container of descriptions and the parameters of the problems (by rank of creation). -/
structure PState (N X : Type) where
  desc : Map N (Desc X)
  probs : List (Map N (Param X))

/-- Calls. -/
inductive POp (N X : Type) where
  | newProblem
  | declare (name : N) (d : Desc X)
  | set (p : Nat) (name : N) (v : Param X)

/-- `Problem::parameterDescription`: problem.cc:70-74. -/
def description (s : PState N X) (name : N) : Except Err (Desc X) :=
  if s.desc.has name = true then s.desc.get name else .error .invalid

/-- `Problem::declareParameter` (problem.cc:55-60), `setParameter` (problem.cc:321-327) and the creation of a problem. -/
def PState.exec (s : PState N X) : POp N X → PState N X × Option Err
  | .newProblem => ({ s with probs := s.probs ++ [[]] }, none)
  | .declare name d => ({ s with desc := s.desc.add name d }, none)
  | .set p name v => match s.probs[p]? with
    | none => (s, none)
    | some m => match description s name with
      | .error e => (s, some e)
      | .ok d => if d.type ≠ v.type then (s, some .invalid) else ({ s with probs := s.probs.set p (m.add name v) }, none)

/-- `Problem::getParameter`: problem.hh:242-247. -/
def PState.getParameter (s : PState N X) (p : Nat) (name : N) : Except Err (Param X) :=
  match s.probs[p]? with
  | none => .error .runtime
  | some m => if m.has name = true then m.get name else
    match description s name with
    | .error e => .error e
    | .ok d => d.defaultValue

/-! Specification on the calls, the last one first. -/

/-- The declaration in force. -/
def declared (name : N) : List (POp N X) → Option (Desc X)
  | [] => none
  | .declare n d :: l => if n = name then some d else declared name l
  | _ :: l => declared name l

/-- Number of problems created. -/
def created : List (POp N X) → Nat
  | [] => 0
  | .newProblem :: l => created l + 1
  | _ :: l => created l

/-- A call of `setParameter` is accepted when the parameter is declared with the type of the value. -/
def accepted (l : List (POp N X)) (name : N) (v : Param X) : Bool :=
  match declared name l with
  | none => false
  | some d => decide (d.type = v.type)

/-- The last accepted value. -/
def lastSet (p : Nat) (name : N) : List (POp N X) → Option (Param X)
  | [] => none
  | .set p' n v :: l => if p' = p ∧ n = name ∧ p < created l ∧ accepted l name v = true then some v else lastSet p name l
  | _ :: l => lastSet p name l

def execP : List (POp N X) → PState N X
  | [] => ⟨[], []⟩
  | o :: l => ((execP l).exec o).1

/-- Invariant relating the state to the calls. -/
structure PInv (s : PState N X) (l : List (POp N X)) : Prop where
  len : s.probs.length = created l
  desc : ∀ n, s.desc.find n = declared n l
  val : ∀ (p : Nat) (m : Map N (Param X)), s.probs[p]? = some m → ∀ n, m.find n = lastSet p n l

theorem description_eq {s : PState N X} {l : List (POp N X)} (h : PInv s l) (n : N) :
    description s n = match declared n l with | some d => .ok d | none => .error .invalid := by
  unfold description Map.has Map.get
  rw [h.desc]
  cases declared n l <;> rfl

theorem pinv (l : List (POp N X)) : PInv (execP l) l := by
  induction l with
  | nil => exact ⟨rfl, fun _ => rfl, by simp [execP]⟩
  | cons o l ih =>
    have hunch : (execP l).probs.length = created l := ih.len
    cases o with
    | newProblem =>
      refine ⟨?_, ih.desc, ?_⟩
      · show ((execP l).probs ++ [[]]).length = _
        simp [ih.len, created]
      · intro p m hp n
        change ((execP l).probs ++ [[]])[p]? = some m at hp
        show m.find n = lastSet p n l
        rcases Nat.lt_or_ge p (execP l).probs.length with hl | hl
        · rw [List.getElem?_append_left hl] at hp
          exact ih.val p m hp n
        · rw [List.getElem?_append_right hl] at hp
          have : m = [] := by
            cases hk : p - (execP l).probs.length with
            | zero => rw [hk] at hp; simpa using hp.symm
            | succ k => rw [hk] at hp; simp at hp
          subst this
          have : ∀ (l : List (POp N X)), created l ≤ p → lastSet p n l = none := by
            intro l
            induction l with
            | nil => intro _; rfl
            | cons o l ih =>
              intro hc
              cases o with
              | newProblem => exact ih (by simp only [created] at hc; omega)
              | declare _ _ => exact ih hc
              | set p' n' v =>
                have hc' : created l ≤ p := hc
                rw [lastSet, if_neg (by rintro ⟨_, _, h3, _⟩; omega)]
                exact ih hc'
          rw [this l (by rw [← ih.len]; exact hl)]
          rfl
    | declare n d =>
      refine ⟨ih.len, ?_, ih.val⟩
      intro j
      show ((execP l).desc.add n d).find j = _
      rw [find_add, declared, ih.desc]
    | set p n v =>
      have hexec : execP (.set p n v :: l) = ((execP l).exec (.set p n v)).1 := rfl
      have hdesc : ∀ j, declared j (.set p n v :: l) = declared j l := fun _ => rfl
      rw [hexec]
      simp only [PState.exec]
      cases hp : (execP l).probs[p]? with
      | none =>
        have hge : created l ≤ p := by
          rw [← ih.len]; exact List.getElem?_eq_none_iff.1 hp
        refine ⟨ih.len, ih.desc, fun q m hq j => ?_⟩
        rw [ih.val q m hq j, lastSet, if_neg]
        rintro ⟨rfl, _, h3, _⟩
        omega
      | some m =>
        have hlt : p < created l := by
          rw [← ih.len]; exact (List.getElem?_eq_some_iff.1 hp).1
        dsimp only
        rw [description_eq ih]
        have same : accepted l n v = false → PInv (execP l) (.set p n v :: l) := by
          intro ha
          refine ⟨ih.len, ih.desc, fun q m hq j => ?_⟩
          rw [ih.val q m hq j, lastSet, if_neg]
          rintro ⟨_, rfl, _, h4⟩
          rw [ha] at h4
          cases h4
        cases hd : declared n l with
        | none => exact same (by simp [accepted, hd])
        | some d =>
          dsimp only
          by_cases ht : d.type = v.type
          · rw [if_neg (not_not.2 ht)]
            have ha : accepted l n v = true := by simp [accepted, hd, ht]
            refine ⟨by simp [ih.len, created], ih.desc, fun q m' hq j => ?_⟩
            change ((execP l).probs.set p (m.add n v))[q]? = some m' at hq
            rw [List.getElem?_set] at hq
            by_cases hpq : p = q
            · rw [if_pos hpq, if_pos (by rw [ih.len]; exact hlt)] at hq
              cases hq
              subst hpq
              rw [find_add, lastSet, ih.val p m hp j]
              by_cases hn : n = j
              · subst hn
                rw [if_pos rfl, if_pos ⟨rfl, rfl, hlt, ha⟩]
              · rw [if_neg hn, if_neg (by rintro ⟨_, h2, _⟩; exact hn h2)]
            · rw [if_neg hpq] at hq
              rw [ih.val q m' hq j, lastSet, if_neg (by rintro ⟨h1, _⟩; exact hpq h1)]
          · rw [if_pos ht]
            exact same (by simp [accepted, hd, ht])

/-- C46 (`setParameter`): after every sequence of calls, setting a parameter throws exactly when no parameter is declared with this name and
the type of the value, and then changes nothing. -/
theorem C46_setParameter (l : List (POp N X)) (p : Nat) (hp : p < created l) (name : N) (v : Param X) :
    ((execP l).exec (.set p name v)).2 = (if accepted l name v = true then none else some .invalid) ∧
    (accepted l name v = false → ((execP l).exec (.set p name v)).1 = execP l) := by
  have h := pinv l
  have hl : p < (execP l).probs.length := by rw [h.len]; exact hp
  simp only [PState.exec, List.getElem?_eq_getElem hl]
  rw [description_eq h]
  unfold accepted
  cases hd : declared name l with
  | none => simp
  | some d =>
    by_cases ht : d.type = v.type
    · simp [ht]
    · simp [ht]

/-- C46 (`getParameter`): after every sequence of calls, the value is the last accepted one of this problem, else the default value of the
declaration (an exception when this default value has not the declared type, or when there is no declaration). -/
theorem C46_getParameter (l : List (POp N X)) (p : Nat) (hp : p < created l) (name : N) :
    (execP l).getParameter p name =
      match lastSet p name l, declared name l with
      | some v, _ => .ok v
      | none, some d => if d.default.type = d.type then .ok d.default else .error .logic
      | none, none => .error .invalid := by
  have h := pinv l
  have hl : p < (execP l).probs.length := by rw [h.len]; exact hp
  have hv := h.val p _ (List.getElem?_eq_getElem hl) name
  unfold PState.getParameter
  rw [List.getElem?_eq_getElem hl]
  simp only [Map.has, Map.get, hv]
  rw [description_eq h]
  cases lastSet p name l with
  | some v => rfl
  | none => cases declared name l with
    | some d => rfl
    | none => rfl

/-- C46: without a new declaration of the name between, a value that is returned has the declared type: the accessor of this type does not
throw. -/
theorem C46_type (l : List (POp N X)) (p : Nat) (hp : p < created l) (name : N) (v : Param X)
    (h : (execP l).getParameter p name = .ok v) (d : Desc X) (hd : ∀ n d', POp.declare n d' ∈ l → n = name → d' = d) : v.type = d.type := by
  rw [C46_getParameter l p hp name] at h
  have hdecl : ∀ (l : List (POp N X)), (∀ n d', POp.declare n d' ∈ l → n = name → d' = d) → ∀ d', declared name l = some d' → d' = d := by
    intro l
    induction l with
    | nil => intro _ d' hd'; simp [declared] at hd'
    | cons o l ih =>
      intro hd d' hd'
      have hd2 : ∀ n d', POp.declare n d' ∈ l → n = name → d' = d := fun n d' hm => hd n d' (by simp [hm])
      cases o with
      | newProblem => exact ih hd2 d' hd'
      | set _ _ _ => exact ih hd2 d' hd'
      | declare n d1 =>
        rw [declared] at hd'
        by_cases hn : n = name
        · rw [if_pos hn] at hd'; cases hd'; exact hd n _ (by simp) hn
        · rw [if_neg hn] at hd'; exact ih hd2 d' hd'
  have hset : ∀ (l : List (POp N X)), (∀ n d', POp.declare n d' ∈ l → n = name → d' = d) → ∀ v, lastSet p name l = some v → v.type = d.type := by
    intro l
    induction l with
    | nil => intro _ v hv; simp [lastSet] at hv
    | cons o l ih =>
      intro hd v hv
      have hd2 : ∀ n d', POp.declare n d' ∈ l → n = name → d' = d := fun n d' hm => hd n d' (by simp [hm])
      cases o with
      | newProblem => exact ih hd2 v hv
      | declare _ _ => exact ih hd2 v hv
      | set p' n' v' =>
        rw [lastSet] at hv
        by_cases hc : p' = p ∧ n' = name ∧ p < created l ∧ accepted l name v' = true
        · rw [if_pos hc] at hv
          cases hv
          have ha := hc.2.2.2
          unfold accepted at ha
          cases hdd : declared name l with
          | none => rw [hdd] at ha; simp at ha
          | some d' =>
            rw [hdd] at ha
            have h1 := hdecl l hd2 d' hdd
            subst h1
            simpa using (of_decide_eq_true ha).symm
        · rw [if_neg hc] at hv; exact ih hd2 v hv
  cases hs : lastSet p name l with
  | some v' =>
    rw [hs] at h
    cases h
    exact hset l hd v hs
  | none =>
    rw [hs] at h
    cases hdd : declared name l with
    | none => rw [hdd] at h; simp at h
    | some d' =>
      rw [hdd] at h
      dsimp only at h
      have h1 := hdecl l hd d' hdd
      subst h1
      by_cases ht : d'.default.type = d'.type
      · rw [if_pos ht] at h; cases h; exact ht
      · rw [if_neg ht] at h; simp at h

/-- C46: when a name is declared again with another type, the value set before is still returned, with the old type. -/
theorem C46_redeclare_counterexample :
    (execP (N := Nat) (X := Int) [.declare 5 ⟨.int, .int 0⟩, .set 0 5 (.bool true), .declare 5 ⟨.bool, .bool false⟩, .newProblem]).getParameter 0 5
      = .ok (.bool true) := by rfl

example : (execP (N := Nat) (X := Int) [.set 0 5 (.bool true), .set 0 5 (.int 3), .declare 5 ⟨.bool, .bool false⟩, .newProblem]).getParameter 0 5
      = .ok (.bool true) := by rfl

/-! ## `Problem::checkProblem` -/

/-- What is used: configuration validations (problem.cc:283-288), constraints, and the target.  `goals` is `none` when the target is not an
instance of `GoalConfigurations`; `size` is the size of a configuration. -/
structure Setup (Q : Type) where
  robot : Bool
  init : Q
  size : Q → Nat
  valid : Q → Bool
  sat : Q → Bool
  goals : Option (List Q)

/-- The loop over the goal configurations: problem.cc:301-316. -/
def checkGoals {Q : Type} (P : Setup Q) : List Q → Option Err
  | [] => none
  | q :: l => if P.valid q = false then some .runtime else if P.sat q = false then some .logic else checkGoals P l

/-- `checkProblem`: problem.cc:268-318; `none` when no exception is thrown. -/
def checkProblem {Q : Type} (P : Setup Q) : Option Err :=
  if P.robot = false then some .runtime
  else if P.size P.init = 0 then some .runtime
  else if P.valid P.init = false then some .runtime
  else if P.sat P.init = false then some .logic
  else match P.goals with
    | none => none
    | some l => checkGoals P l

/-- C73: `checkProblem` throws nothing iff there is a robot and an initial configuration, and the initial and all goal configurations are valid
and satisfy the constraints. -/
theorem C73_checkProblem {Q : Type} (P : Setup Q) :
    checkProblem P = none ↔ P.robot = true ∧ P.size P.init ≠ 0 ∧
      ∀ q, (q = P.init ∨ ∃ l, P.goals = some l ∧ q ∈ l) → P.valid q = true ∧ P.sat q = true := by
  have hg : ∀ l, checkGoals P l = none ↔ ∀ q ∈ l, P.valid q = true ∧ P.sat q = true := by
    intro l
    induction l with
    | nil => simp [checkGoals]
    | cons q l ih =>
      rw [checkGoals]
      cases hv : P.valid q with
      | false => simp [hv]
      | true =>
        cases hs : P.sat q with
        | false => simp [hs]
        | true => simp [ih, hv, hs]
  unfold checkProblem
  cases hr : P.robot with
  | false => simp
  | true =>
    by_cases hz : P.size P.init = 0
    · simp [hz]
    · rw [if_neg (by simp), if_neg hz]
      cases hv : P.valid P.init with
      | false =>
        rw [if_pos rfl]
        refine ⟨fun h => by simp at h, fun h => ?_⟩
        have := (h.2.2 P.init (Or.inl rfl)).1
        rw [hv] at this; cases this
      | true =>
        rw [if_neg (by simp)]
        cases hs : P.sat P.init with
        | false =>
          rw [if_pos rfl]
          refine ⟨fun h => by simp at h, fun h => ?_⟩
          have := (h.2.2 P.init (Or.inl rfl)).2
          rw [hs] at this; cases this
        | true =>
          rw [if_neg (by simp)]
          cases hgo : P.goals with
          | none =>
            refine ⟨fun _ => ⟨rfl, hz, fun q hq => ?_⟩, fun _ => rfl⟩
            rcases hq with rfl | ⟨l, hl, _⟩
            · exact ⟨hv, hs⟩
            · cases hl
          | some l =>
            dsimp only
            rw [hg]
            refine ⟨fun h => ⟨rfl, hz, fun q hq => ?_⟩, fun h q hq => h.2.2 q (Or.inr ⟨l, rfl, hq⟩)⟩
            rcases hq with rfl | ⟨l', hl, hq⟩
            · exact ⟨hv, hs⟩
            · cases hl; exact h q hq

/-- two goals, the second one in collision -/
example : checkProblem (Q := Int) ⟨true, 0, fun _ => 1, fun q => decide (q < 5), fun q => decide (0 ≤ q), some [1, 7]⟩ = some .runtime := by rfl

example : checkProblem (Q := Int) ⟨true, 0, fun _ => 1, fun q => decide (q < 5), fun q => decide (0 ≤ q), some [1, 3]⟩ = none := by rfl

end Verif.Prob
