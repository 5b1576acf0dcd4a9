import Mathlib.Data.List.Basic
import Mathlib.Data.Nat.Basic
import Mathlib.Tactic.SplitIfs
import Mathlib.Tactic.Basic

/-! # Ownership of the values of parameters

`Parameter` (include/hpp/core/parameter.hh:64-126, src/parameter.cc) owns an untyped pointer to a value allocated on the heap, tagged by its type.  The model has a
heap of typed blocks and objects that hold a tag and a pointer; deleting a block twice or with a wrong type, and reading a block that was deleted or with a wrong
type, are undefined behaviours.  The specification has values instead of pointers. -/

namespace Verif.ParamHeap

/-- `Parameter::Type`: parameter.hh:66-78 (without `NB_TYPES`, which no constructor gives). -/
inductive Ty
  | none | bool | int | float | string | vector | matrix
  deriving DecidableEq

/-- A value of one of the types. -/
inductive Val (F : Type)
  | bool (b : Bool)
  | int (n : Int)
  | float (x : F)
  | string (s : String)
  | vector (v : List F)
  | matrix (m : List (List F))
  deriving DecidableEq

variable {F : Type}

def Val.ty : Val F → Ty
  | .bool _ => .bool
  | .int _ => .int
  | .float _ => .float
  | .string _ => .string
  | .vector _ => .vector
  | .matrix _ => .matrix

/-- Undefined behaviours, and objects that do not exist (fault of the caller). -/
inductive UB
  | badDelete | badRead | noObject
  deriving DecidableEq

/-- What the caller sees. -/
inductive Out (F : Type)
  | done
  | value (v : Val F)
  | type (t : Ty)
  | invalidArgument
  | badAlloc
  deriving DecidableEq

/-- The heap: blocks are numbered in order of allocation. -/
structure Heap (F : Type) where
  cells : Nat → Option (Val F)
  next : Nat

/-- Members `type_`, `value_`: parameter.hh:123-125 (`none`: null pointer). -/
structure Obj where
  ty : Ty
  ptr : Option Nat
  deriving DecidableEq

def upd {A : Type} (f : Nat → A) (i : Nat) (a : A) : Nat → A := fun j => if j = i then a else f j

theorem upd_eq {A : Type} (f : Nat → A) (i : Nat) (a : A) : upd f i a i = a := by simp [upd]
theorem upd_ne {A : Type} (f : Nat → A) {i j : Nat} (a : A) (h : j ≠ i) : upd f i a j = f j := by simp [upd, h]

/-- `new T(v)`. -/
def alloc (h : Heap F) (v : Val F) : Heap F × Nat := (⟨upd h.cells h.next (some v), h.next + 1⟩, h.next)

/-- `delete (const T*)p`: nothing for a null pointer. -/
def free (h : Heap F) (t : Ty) : Option Nat → Except UB (Heap F)
  | none => .ok h
  | some p => match h.cells p with
    | none => .error .badDelete
    | some v => if v.ty = t then .ok ⟨upd h.cells p none, h.next⟩ else .error .badDelete

/-- `deleteValue`: parameter.cc:87-109. -/
def deleteValue (h : Heap F) (o : Obj) : Except UB (Heap F) :=
  if o.ty = .none then .ok h else free h o.ty o.ptr

/-- `*((const T*)value_)`: parameter.cc:191, 196, 201, 206, 211, 216. -/
def deref (h : Heap F) (t : Ty) : Option Nat → Except UB (Val F)
  | none => .error .badRead
  | some p => match h.cells p with
    | none => .error .badRead
    | some v => if v.ty = t then .ok v else .error .badRead

/-- `boolValue`, `intValue`, `floatValue`, `stringValue`, `vectorValue`, `matrixValue`: parameter.cc:183-217. -/
def read (h : Heap F) (o : Obj) (t : Ty) : Except UB (Out F) :=
  if o.ty ≠ t then .ok .invalidArgument
  else match deref h t o.ptr with
    | .error e => .error e
    | .ok v => .ok (.value v)

/-- `copyValue`: parameter.cc:133-162.  `fail`: the allocation throws `std::bad_alloc` (result `none`). -/
def copyValue (h : Heap F) (o : Obj) (fail : Bool) : Except UB (Heap F × Option (Option Nat)) :=
  if o.ty = .none then .ok (h, some none)
  else match deref h o.ty o.ptr with
    | .error e => .error e
    | .ok v => if fail then .ok (h, none) else .ok ((alloc h v).1, some (some (alloc h v).2))

/-- The heap, the objects that exist, the number of the next one. -/
structure State (F : Type) where
  heap : Heap F
  objs : Nat → Option Obj
  nextObj : Nat

def State.empty : State F := ⟨⟨fun _ => none, 0⟩, fun _ => none, 0⟩

/-- Operations.  The Booleans tell whether the allocations of the operation fail. -/
inductive Op (F : Type)
  | make (v : Val F) (fail : Bool)
  | makeNone
  | copy (src : Nat) (fail : Bool)
  | assign (dst src : Nat) (fail failReturn : Bool)
  | destroy (i : Nat)
  | read (i : Nat) (t : Ty)
  | type (i : Nat)

/-- `Parameter (const T&)`: parameter.cc:113-128. -/
def make (s : State F) (v : Val F) (fail : Bool) : Except UB (State F × Out F) :=
  if fail then .ok (s, .badAlloc)
  else .ok (⟨(alloc s.heap v).1, upd s.objs s.nextObj (some ⟨v.ty, some (alloc s.heap v).2⟩), s.nextObj + 1⟩, .done)

/-- Copy constructor: parameter.cc:130-131. -/
def copyCons (s : State F) (o : Obj) (fail : Bool) : Except UB (State F × Out F) :=
  match copyValue s.heap o fail with
  | .error e => .error e
  | .ok (h, none) => .ok (⟨h, s.objs, s.nextObj⟩, .badAlloc)
  | .ok (h, some p) => .ok (⟨h, upd s.objs s.nextObj (some ⟨o.ty, p⟩), s.nextObj + 1⟩, .done)

/-- The value returned by the assignment is a copy of the object, destroyed by the caller: `return *this`, parameter.cc:173, since the operator returns a
`Parameter`, not a reference. -/
def returnCopy (s : State F) (o : Obj) (fail : Bool) : Except UB (State F × Out F) :=
  match copyValue s.heap o fail with
  | .error e => .error e
  | .ok (h, none) => .ok (⟨h, s.objs, s.nextObj⟩, .badAlloc)
  | .ok (h, some p) => match deleteValue h ⟨o.ty, p⟩ with
    | .error e => .error e
    | .ok h' => .ok (⟨h', s.objs, s.nextObj⟩, .done)

/-- Assignment: parameter.cc:166-174.  If the allocation of the copy fails, the type is already changed and the pointer still is the old one. -/
def assign (s : State F) (dst src : Nat) (od os : Obj) (fail failReturn : Bool) : Except UB (State F × Out F) :=
  if src = dst then returnCopy s od failReturn
  else
    match (if od.ptr ≠ none then deleteValue s.heap od else .ok s.heap) with
    | .error e => .error e
    | .ok h => match copyValue h os fail with
      | .error e => .error e
      | .ok (h', none) => .ok (⟨h', upd s.objs dst (some ⟨os.ty, od.ptr⟩), s.nextObj⟩, .badAlloc)
      | .ok (h', some p) => returnCopy ⟨h', upd s.objs dst (some ⟨os.ty, p⟩), s.nextObj⟩ ⟨os.ty, p⟩ failReturn

/-- One operation. -/
def step (s : State F) : Op F → Except UB (State F × Out F)
  | .make v fail => make s v fail
  | .makeNone => .ok (⟨s.heap, upd s.objs s.nextObj (some ⟨.none, none⟩), s.nextObj + 1⟩, .done)
  | .copy src fail => match s.objs src with
    | none => .error .noObject
    | some o => copyCons s o fail
  | .assign dst src fail failReturn => match s.objs dst, s.objs src with
    | some od, some os => assign s dst src od os fail failReturn
    | _, _ => .error .noObject
  | .destroy i => match s.objs i with
    | none => .error .noObject
    | some o => match deleteValue s.heap o with
      | .error e => .error e
      | .ok h => .ok (⟨h, upd s.objs i none, s.nextObj⟩, .done)
  | .read i t => match s.objs i with
    | none => .error .noObject
    | some o => match read s.heap o t with
      | .error e => .error e
      | .ok v => .ok (s, v)
  | .type i => match s.objs i with
    | none => .error .noObject
    | some o => .ok (s, .type o.ty)

/-- A sequence of operations, with what the caller sees. -/
def run (s : State F) : List (Op F) → Except UB (State F × List (Out F))
  | [] => .ok (s, [])
  | o :: l => match step s o with
    | .error e => .error e
    | .ok (s1, out) => match run s1 l with
      | .error e => .error e
      | .ok (s2, outs) => .ok (s2, out :: outs)

/-! ## Specification: parameters are values -/

/-- Objects hold values (`some none`: the empty parameter). -/
structure SState (F : Type) where
  vals : Nat → Option (Option (Val F))
  nextObj : Nat

def SState.empty : SState F := ⟨fun _ => none, 0⟩

def tyOf : Option (Val F) → Ty
  | none => .none
  | some v => v.ty

/-- The specification; `none` when the caller uses an object that does not exist.  When memory is exhausted, nothing changes. -/
def sstep (σ : SState F) : Op F → Option (SState F × Out F)
  | .make v fail => if fail then some (σ, .badAlloc) else some (⟨upd σ.vals σ.nextObj (some (some v)), σ.nextObj + 1⟩, .done)
  | .makeNone => some (⟨upd σ.vals σ.nextObj (some none), σ.nextObj + 1⟩, .done)
  | .copy src fail => match σ.vals src with
    | none => none
    | some x => if fail = true ∧ x ≠ none then some (σ, .badAlloc) else some (⟨upd σ.vals σ.nextObj (some x), σ.nextObj + 1⟩, .done)
  | .assign dst src fail failReturn => match σ.vals dst, σ.vals src with
    | some _, some x =>
      if src ≠ dst ∧ fail = true ∧ x ≠ none then some (σ, .badAlloc)
      else some (⟨upd σ.vals dst (some x), σ.nextObj⟩, if failReturn = true ∧ x ≠ none then .badAlloc else .done)
    | _, _ => none
  | .destroy i => match σ.vals i with
    | none => none
    | some _ => some (⟨upd σ.vals i none, σ.nextObj⟩, .done)
  | .read i t => match σ.vals i with
    | none => none
    | some x => match x with
      | none => if t = .none then none else some (σ, .invalidArgument)
      | some v => if v.ty = t then some (σ, .value v) else some (σ, .invalidArgument)
  | .type i => match σ.vals i with
    | none => none
    | some x => some (σ, .type (tyOf x))

def srun (σ : SState F) : List (Op F) → Option (SState F × List (Out F))
  | [] => some (σ, [])
  | o :: l => match sstep σ o with
    | none => none
    | some (σ1, out) => match srun σ1 l with
      | none => none
      | some (σ2, outs) => some (σ2, out :: outs)

/-! ## Refinement -/

/-- The object holds the value. -/
def Holds (h : Heap F) (o : Obj) : Option (Val F) → Prop
  | none => o = ⟨.none, none⟩
  | some v => o.ty = v.ty ∧ ∃ p, o.ptr = some p ∧ h.cells p = some v

/-- The objects hold the values of the specification, each in its own block, and there is no other block. -/
structure Rep (s : State F) (σ : SState F) : Prop where
  next : s.nextObj = σ.nextObj
  bound : ∀ i, σ.vals i ≠ none → i < σ.nextObj
  dead : ∀ i, σ.vals i = none → s.objs i = none
  holds : ∀ i x, σ.vals i = some x → ∃ o, s.objs i = some o ∧ Holds s.heap o x
  own : ∀ i j oi oj p, s.objs i = some oi → s.objs j = some oj → oi.ptr = some p → oj.ptr = some p → i = j
  used : ∀ p, s.heap.cells p ≠ none → ∃ i o, s.objs i = some o ∧ o.ptr = some p
  fresh : ∀ p, s.heap.next ≤ p → s.heap.cells p = none

theorem ty_ne (v : Val F) : v.ty ≠ .none := by cases v <;> simp [Val.ty]

theorem rep_empty : Rep (State.empty : State F) SState.empty := by
  constructor <;> simp [State.empty, SState.empty]

theorem Holds.ty {h : Heap F} {o : Obj} {x : Option (Val F)} (k : Holds h o x) : o.ty = tyOf x := by
  cases x with
  | none => rw [Holds] at k; subst k; rfl
  | some v => exact k.1

theorem Holds.deref {h : Heap F} {o : Obj} {v : Val F} (k : Holds h o (some v)) : deref h o.ty o.ptr = .ok v := by
  obtain ⟨k1, p, k2, k3⟩ := k
  simp [ParamHeap.deref, k1, k2, k3]

/-- The block of a live object exists. -/
theorem Rep.live {s : State F} {σ : SState F} (h : Rep s σ) {i : Nat} {o : Obj} {p : Nat} (ho : s.objs i = some o) (hp : o.ptr = some p) :
    ∃ v, s.heap.cells p = some v ∧ o.ty = v.ty ∧ σ.vals i = some (some v) := by
  cases hx : σ.vals i with
  | none => rw [h.dead i hx] at ho; simp at ho
  | some x =>
    obtain ⟨o', k1, k2⟩ := h.holds i x hx
    rw [ho] at k1
    cases k1
    cases x with
    | none => rw [Holds] at k2; subst k2; simp at hp
    | some v =>
      obtain ⟨k3, p', k4, k5⟩ := k2
      rw [hp] at k4
      cases k4
      exact ⟨v, k5, k3, rfl⟩

theorem Rep.lt {s : State F} {σ : SState F} (h : Rep s σ) {i : Nat} {o : Obj} {p : Nat} (ho : s.objs i = some o) (hp : o.ptr = some p) : p < s.heap.next := by
  obtain ⟨v, k, -⟩ := h.live ho hp
  by_contra hh
  rw [h.fresh p (not_lt.1 hh)] at k
  simp at k

/-- What `copyValue` does on an object that holds a value. -/
theorem copyValue_some {h : Heap F} {o : Obj} {v : Val F} (k : Holds h o (some v)) (fail : Bool) :
    copyValue h o fail = if fail then .ok (h, none) else .ok (⟨upd h.cells h.next (some v), h.next + 1⟩, some (some h.next)) := by
  unfold copyValue
  rw [if_neg (by rw [k.1]; exact ty_ne v), k.deref]
  rfl

theorem copyValue_none {h : Heap F} {o : Obj} (k : Holds h o none) (fail : Bool) : copyValue h o fail = .ok (h, some none) := by
  rw [Holds] at k; subst k; rfl

/-- A new object with a new block. -/
theorem Rep.add {s : State F} {σ : SState F} (h : Rep s σ) (v : Val F) :
    Rep ⟨⟨upd s.heap.cells s.heap.next (some v), s.heap.next + 1⟩, upd s.objs s.nextObj (some ⟨v.ty, some s.heap.next⟩), s.nextObj + 1⟩
      ⟨upd σ.vals σ.nextObj (some (some v)), σ.nextObj + 1⟩ := by
  have hlt := fun {i o p} => h.lt (i := i) (o := o) (p := p)
  refine ⟨by simp [h.next], ?_, ?_, ?_, ?_, ?_, ?_⟩
  · intro i hi
    by_cases hh : i = σ.nextObj
    · simp [hh]
    · simp only [upd_ne _ _ hh] at hi
      exact Nat.lt_succ_of_lt (h.bound i hi)
  · intro i hi
    rw [h.next]
    by_cases hh : i = σ.nextObj
    · subst hh; simp [upd_eq] at hi
    · simp only [upd_ne _ _ hh] at hi ⊢
      exact h.dead i hi
  · intro i x hi
    simp only [h.next] at *
    by_cases hh : i = σ.nextObj
    · subst hh
      simp only [upd_eq, Option.some.injEq] at hi ⊢
      subst hi
      exact ⟨_, rfl, rfl, _, rfl, upd_eq _ _ _⟩
    · simp only [upd_ne _ _ hh] at hi ⊢
      obtain ⟨o, k1, k2⟩ := h.holds i x hi
      refine ⟨o, k1, ?_⟩
      cases x with
      | none => exact k2
      | some w =>
        obtain ⟨k3, p, k4, k5⟩ := k2
        exact ⟨k3, p, k4, by simp only; rw [upd_ne _ _ (Nat.ne_of_lt (hlt k1 k4))]; exact k5⟩
  · intro i j oi oj p hi hj hpi hpj
    simp only at hi hj
    by_cases h1 : i = s.nextObj
    · by_cases h2 : j = s.nextObj
      · rw [h1, h2]
      · subst h1
        simp only [upd_eq, Option.some.injEq] at hi
        subst hi
        simp only [Option.some.injEq] at hpi
        subst hpi
        rw [upd_ne _ _ h2] at hj
        exact absurd (hlt hj hpj) (lt_irrefl _)
    · rw [upd_ne _ _ h1] at hi
      by_cases h2 : j = s.nextObj
      · subst h2
        simp only [upd_eq, Option.some.injEq] at hj
        subst hj
        simp only [Option.some.injEq] at hpj
        subst hpj
        exact absurd (hlt hi hpi) (lt_irrefl _)
      · rw [upd_ne _ _ h2] at hj
        exact h.own i j oi oj p hi hj hpi hpj
  · intro p hp
    simp only at hp ⊢
    by_cases hh : p = s.heap.next
    · exact ⟨s.nextObj, _, upd_eq _ _ _, by rw [hh]⟩
    · rw [upd_ne _ _ hh] at hp
      obtain ⟨i, o, k1, k2⟩ := h.used p hp
      refine ⟨i, o, ?_, k2⟩
      rw [upd_ne]
      · exact k1
      · rintro rfl
        have : σ.vals s.nextObj ≠ none := fun hn => by rw [h.dead _ hn] at k1; simp at k1
        have := h.bound _ this
        rw [h.next] at this
        exact absurd this (lt_irrefl _)
  · intro p hp
    simp only at hp ⊢
    rw [upd_ne _ _ (by omega)]
    exact h.fresh p (by omega)

/-- A new empty object. -/
theorem Rep.addNone {s : State F} {σ : SState F} (h : Rep s σ) :
    Rep ⟨s.heap, upd s.objs s.nextObj (some ⟨.none, none⟩), s.nextObj + 1⟩ ⟨upd σ.vals σ.nextObj (some none), σ.nextObj + 1⟩ := by
  refine ⟨by simp [h.next], ?_, ?_, ?_, ?_, ?_, h.fresh⟩
  · intro i hi
    by_cases hh : i = σ.nextObj
    · simp [hh]
    · simp only [upd_ne _ _ hh] at hi
      exact Nat.lt_succ_of_lt (h.bound i hi)
  · intro i hi
    rw [h.next]
    by_cases hh : i = σ.nextObj
    · subst hh; simp [upd_eq] at hi
    · simp only [upd_ne _ _ hh] at hi ⊢
      exact h.dead i hi
  · intro i x hi
    simp only [h.next] at *
    by_cases hh : i = σ.nextObj
    · subst hh
      simp only [upd_eq, Option.some.injEq] at hi ⊢
      subst hi
      exact ⟨_, rfl, rfl⟩
    · simp only [upd_ne _ _ hh] at hi ⊢
      exact h.holds i x hi
  · intro i j oi oj p hi hj hpi hpj
    simp only at hi hj
    have key : ∀ i (oi : Obj), upd s.objs s.nextObj (some ⟨.none, none⟩) i = some oi → oi.ptr = some p → s.objs i = some oi := by
      intro i oi hi hpi
      by_cases h1 : i = s.nextObj
      · subst h1
        simp only [upd_eq, Option.some.injEq] at hi
        subst hi
        simp at hpi
      · rwa [upd_ne _ _ h1] at hi
    exact h.own i j oi oj p (key i oi hi hpi) (key j oj hj hpj) hpi hpj
  · intro p hp
    obtain ⟨i, o, k1, k2⟩ := h.used p hp
    refine ⟨i, o, ?_, k2⟩
    simp only
    rw [upd_ne]
    · exact k1
    · rintro rfl
      have : σ.vals s.nextObj ≠ none := fun hn => by rw [h.dead _ hn] at k1; simp at k1
      have := h.bound _ this
      rw [h.next] at this
      exact absurd this (lt_irrefl _)

/-- Deleting the value of a live object. -/
theorem Rep.delete {s : State F} {σ : SState F} (h : Rep s σ) {i : Nat} {o : Obj} (ho : s.objs i = some o) :
    ∃ hp, deleteValue s.heap o = .ok hp ∧ hp.next = s.heap.next ∧ Rep ⟨hp, upd s.objs i none, s.nextObj⟩ ⟨upd σ.vals i none, σ.nextObj⟩ := by
  have common : ∀ hp : Heap F, hp.next = s.heap.next → (∀ j x oj, j ≠ i → s.objs j = some oj → Holds s.heap oj x → Holds hp oj x) →
      (∀ p, hp.cells p ≠ none → s.heap.cells p ≠ none ∧ o.ptr ≠ some p) → Rep ⟨hp, upd s.objs i none, s.nextObj⟩ ⟨upd σ.vals i none, σ.nextObj⟩ := by
    intro hp hn h1 h2
    refine ⟨h.next, ?_, ?_, ?_, ?_, ?_, ?_⟩
    · intro j hj
      by_cases hh : j = i
      · subst hh; simp [upd_eq] at hj
      · simp only [upd_ne _ _ hh] at hj
        exact h.bound j hj
    · intro j hj
      by_cases hh : j = i
      · subst hh; simp [upd_eq]
      · simp only [upd_ne _ _ hh] at hj ⊢
        exact h.dead j hj
    · intro j x hj
      by_cases hh : j = i
      · subst hh; simp [upd_eq] at hj
      · simp only [upd_ne _ _ hh] at hj ⊢
        obtain ⟨oj, k1, k2⟩ := h.holds j x hj
        exact ⟨oj, k1, h1 j x oj hh k1 k2⟩
    · intro a b oa ob p ha hb hpa hpb
      have key : ∀ a (oa : Obj), upd s.objs i none a = some oa → s.objs a = some oa := by
        intro a oa ha
        by_cases hh : a = i
        · subst hh; simp [upd_eq] at ha
        · rwa [upd_ne _ _ hh] at ha
      exact h.own a b oa ob p (key a oa ha) (key b ob hb) hpa hpb
    · intro p hp'
      obtain ⟨k1, k2⟩ := h2 p hp'
      obtain ⟨j, oj, k3, k4⟩ := h.used p k1
      refine ⟨j, oj, ?_, k4⟩
      rw [show (⟨hp, upd s.objs i none, s.nextObj⟩ : State F).objs = upd s.objs i none from rfl, upd_ne]
      · exact k3
      · rintro rfl
        rw [ho] at k3
        cases k3
        exact k2 k4
    · intro p hp'
      by_contra hh
      exact (h2 p hh).1 (h.fresh p (by rw [← hn]; exact hp'))
  cases hx : σ.vals i with
  | none => rw [h.dead i hx] at ho; simp at ho
  | some x =>
    obtain ⟨o', k1, k2⟩ := h.holds i x hx
    rw [ho] at k1
    cases k1
    cases x with
    | none =>
      rw [Holds] at k2
      subst k2
      exact ⟨s.heap, rfl, rfl, common s.heap rfl (fun _ _ _ _ _ hh => hh) (fun p hp => ⟨hp, by simp⟩)⟩
    | some v =>
      obtain ⟨k3, p, k4, k5⟩ := k2
      refine ⟨⟨upd s.heap.cells p none, s.heap.next⟩, ?_, rfl, common _ rfl ?_ ?_⟩
      · unfold deleteValue
        rw [if_neg (by rw [k3]; exact ty_ne v), k4]
        simp [free, k5, k3]
      · intro j x oj hj hoj hh
        cases x with
        | none => exact hh
        | some w =>
          obtain ⟨a1, p', a2, a3⟩ := hh
          refine ⟨a1, p', a2, ?_⟩
          simp only
          rw [upd_ne]
          · exact a3
          · rintro rfl
            exact hj (h.own j i oj o p' hoj ho a2 k4)
      · intro p' hp'
        by_cases hh : p' = p
        · subst hh; simp [upd_eq] at hp'
        · simp only [upd_ne _ _ hh] at hp'
          exact ⟨hp', by rw [k4]; simpa using fun e => hh e.symm⟩

/-- The copy returned by the assignment leaves nothing behind. -/
theorem Rep.returned {s : State F} {σ : SState F} (h : Rep s σ) {i : Nat} {o : Obj} {x : Option (Val F)} (ho : s.objs i = some o) (hx : σ.vals i = some x) (fail : Bool) :
    ∃ s', returnCopy s o fail = .ok (s', if fail = true ∧ x ≠ none then .badAlloc else .done) ∧ Rep s' σ := by
  obtain ⟨o', k1, k2⟩ := h.holds i x hx
  rw [ho] at k1
  cases k1
  unfold returnCopy
  cases x with
  | none =>
    rw [copyValue_none k2]
    rw [Holds] at k2
    subst k2
    exact ⟨s, by simp [deleteValue], h⟩
  | some v =>
    rw [copyValue_some k2]
    cases fail with
    | true => exact ⟨s, by simp, h⟩
    | false =>
      refine ⟨⟨⟨upd (upd s.heap.cells s.heap.next (some v)) s.heap.next none, s.heap.next + 1⟩, s.objs, s.nextObj⟩, ?_, ?_⟩
      · have hty : o.ty = v.ty := k2.1
        simp [deleteValue, free, upd_eq, hty, ty_ne v]
      · have hc : upd (upd s.heap.cells s.heap.next (some v)) s.heap.next none = s.heap.cells := by
          funext p
          by_cases hh : p = s.heap.next
          · subst hh; rw [upd_eq, h.fresh _ le_rfl]
          · rw [upd_ne _ _ hh, upd_ne _ _ hh]
        rw [hc]
        exact ⟨h.next, h.bound, h.dead, h.holds, h.own, h.used, fun p hp => h.fresh p (by simp only at hp; omega)⟩

/-- No allocation fails during an assignment between two objects (the other allocations may fail). -/
def NoFail : Op F → Prop
  | .assign dst src fail _ => dst = src ∨ fail = false
  | _ => True

/-- Putting back an object that was removed. -/
theorem Rep.put {s : State F} {σ : SState F} {i : Nat} (hi : i < σ.nextObj) (h : Rep s ⟨upd σ.vals i none, σ.nextObj⟩) (v : Val F) :
    Rep ⟨⟨upd s.heap.cells s.heap.next (some v), s.heap.next + 1⟩, upd s.objs i (some ⟨v.ty, some s.heap.next⟩), s.nextObj⟩ ⟨upd σ.vals i (some (some v)), σ.nextObj⟩ := by
  have hlt := fun {i o p} => h.lt (i := i) (o := o) (p := p)
  have hdead : s.objs i = none := h.dead i (upd_eq _ _ _)
  refine ⟨h.next, ?_, ?_, ?_, ?_, ?_, ?_⟩
  · intro j hj
    by_cases hh : j = i
    · subst hh; exact hi
    · exact h.bound j (by simp only [upd_ne _ _ hh] at hj ⊢; exact hj)
  · intro j hj
    by_cases hh : j = i
    · subst hh; simp [upd_eq] at hj
    · simp only [upd_ne _ _ hh] at hj ⊢
      exact h.dead j (by simp only [upd_ne _ _ hh]; exact hj)
  · intro j x hj
    by_cases hh : j = i
    · subst hh
      simp only [upd_eq, Option.some.injEq] at hj ⊢
      subst hj
      exact ⟨_, rfl, rfl, _, rfl, upd_eq _ _ _⟩
    · simp only [upd_ne _ _ hh] at hj ⊢
      obtain ⟨o, k1, k2⟩ := h.holds j x (by simp only [upd_ne _ _ hh]; exact hj)
      refine ⟨o, k1, ?_⟩
      cases x with
      | none => exact k2
      | some w =>
        obtain ⟨k3, p, k4, k5⟩ := k2
        exact ⟨k3, p, k4, by simp only; rw [upd_ne _ _ (Nat.ne_of_lt (hlt k1 k4))]; exact k5⟩
  · intro a b oa ob p ha hb hpa hpb
    simp only at ha hb
    by_cases h1 : a = i
    · by_cases h2 : b = i
      · rw [h1, h2]
      · subst h1
        simp only [upd_eq, Option.some.injEq] at ha
        subst ha
        simp only [Option.some.injEq] at hpa
        subst hpa
        rw [upd_ne _ _ h2] at hb
        exact absurd (hlt hb hpb) (lt_irrefl _)
    · rw [upd_ne _ _ h1] at ha
      by_cases h2 : b = i
      · subst h2
        simp only [upd_eq, Option.some.injEq] at hb
        subst hb
        simp only [Option.some.injEq] at hpb
        subst hpb
        exact absurd (hlt ha hpa) (lt_irrefl _)
      · rw [upd_ne _ _ h2] at hb
        exact h.own a b oa ob p ha hb hpa hpb
  · intro p hp
    simp only at hp ⊢
    by_cases hh : p = s.heap.next
    · exact ⟨i, _, upd_eq _ _ _, by rw [hh]⟩
    · rw [upd_ne _ _ hh] at hp
      obtain ⟨j, o, k1, k2⟩ := h.used p hp
      refine ⟨j, o, ?_, k2⟩
      rw [upd_ne]
      · exact k1
      · rintro rfl; rw [hdead] at k1; simp at k1
  · intro p hp
    simp only at hp ⊢
    rw [upd_ne _ _ (by omega)]
    exact h.fresh p (by omega)

/-- The same for an empty object. -/
theorem Rep.putNone {s : State F} {σ : SState F} {i : Nat} (hi : i < σ.nextObj) (h : Rep s ⟨upd σ.vals i none, σ.nextObj⟩) :
    Rep ⟨s.heap, upd s.objs i (some ⟨.none, none⟩), s.nextObj⟩ ⟨upd σ.vals i (some none), σ.nextObj⟩ := by
  have hdead : s.objs i = none := h.dead i (upd_eq _ _ _)
  refine ⟨h.next, ?_, ?_, ?_, ?_, ?_, h.fresh⟩
  · intro j hj
    by_cases hh : j = i
    · subst hh; exact hi
    · exact h.bound j (by simp only [upd_ne _ _ hh] at hj ⊢; exact hj)
  · intro j hj
    by_cases hh : j = i
    · subst hh; simp [upd_eq] at hj
    · simp only [upd_ne _ _ hh] at hj ⊢
      exact h.dead j (by simp only [upd_ne _ _ hh]; exact hj)
  · intro j x hj
    by_cases hh : j = i
    · subst hh
      simp only [upd_eq, Option.some.injEq] at hj ⊢
      subst hj
      exact ⟨_, rfl, rfl⟩
    · simp only [upd_ne _ _ hh] at hj ⊢
      exact h.holds j x (by simp only [upd_ne _ _ hh]; exact hj)
  · intro a b oa ob p ha hb hpa hpb
    have key : ∀ a (oa : Obj), upd s.objs i (some ⟨.none, none⟩) a = some oa → oa.ptr = some p → s.objs a = some oa := by
      intro a oa ha hpa
      by_cases h1 : a = i
      · subst h1
        simp only [upd_eq, Option.some.injEq] at ha
        subst ha
        simp at hpa
      · rwa [upd_ne _ _ h1] at ha
    exact h.own a b oa ob p (key a oa ha hpa) (key b ob hb hpb) hpa hpb
  · intro p hp
    obtain ⟨j, o, k1, k2⟩ := h.used p hp
    refine ⟨j, o, ?_, k2⟩
    rw [show (⟨s.heap, upd s.objs i (some ⟨.none, none⟩), s.nextObj⟩ : State F).objs = upd s.objs i (some ⟨.none, none⟩) from rfl, upd_ne]
    · exact k1
    · rintro rfl; rw [hdead] at k1; simp at k1

/-- C133 (one operation). -/
theorem step_refines {s : State F} {σ σ' : SState F} {out : Out F} (h : Rep s σ) (o : Op F) (hn : NoFail o) (k : sstep σ o = some (σ', out)) :
    ∃ s', step s o = .ok (s', out) ∧ Rep s' σ' := by
  cases o with
  | make v fail =>
    cases fail with
    | true => simp only [sstep, if_true, Option.some.injEq, Prod.mk.injEq] at k; obtain ⟨rfl, rfl⟩ := k; exact ⟨s, by simp [step, make], h⟩
    | false =>
      simp only [sstep, Bool.false_eq_true, if_false, Option.some.injEq, Prod.mk.injEq] at k
      obtain ⟨rfl, rfl⟩ := k
      exact ⟨_, rfl, h.add v⟩
  | makeNone =>
    simp only [sstep, Option.some.injEq, Prod.mk.injEq] at k
    obtain ⟨rfl, rfl⟩ := k
    exact ⟨_, rfl, h.addNone⟩
  | copy src fail =>
    simp only [sstep] at k
    cases hx : σ.vals src with
    | none => rw [hx] at k; simp at k
    | some x =>
      rw [hx] at k
      simp only at k
      obtain ⟨o, k1, k2⟩ := h.holds src x hx
      simp only [step, k1, copyCons]
      cases x with
      | none =>
        rw [copyValue_none k2]
        simp only [ne_eq, not_true_eq_false, and_false, if_false, Option.some.injEq, Prod.mk.injEq] at k
        obtain ⟨rfl, rfl⟩ := k
        rw [Holds] at k2
        subst k2
        exact ⟨_, rfl, h.addNone⟩
      | some v =>
        rw [copyValue_some k2]
        cases fail with
        | true =>
          simp at k
          obtain ⟨rfl, rfl⟩ := k
          exact ⟨s, by simp, h⟩
        | false =>
          simp at k
          obtain ⟨rfl, rfl⟩ := k
          refine ⟨_, by simp; rfl, ?_⟩
          rw [k2.1]
          exact h.add v
  | assign dst src fail failReturn =>
    simp only [sstep] at k
    cases hd : σ.vals dst with
    | none => rw [hd] at k; simp at k
    | some xd =>
      cases hs : σ.vals src with
      | none => rw [hd, hs] at k; simp at k
      | some x =>
        rw [hd, hs] at k
        simp only at k
        obtain ⟨od, d1, d2⟩ := h.holds dst xd hd
        obtain ⟨os, s1, s2⟩ := h.holds src x hs
        simp only [step, d1, s1, assign]
        by_cases heq : src = dst
        · subst heq
          rw [hs] at hd
          cases hd
          simp only [ne_eq, not_true_eq_false, false_and, if_false, Option.some.injEq, Prod.mk.injEq] at k
          obtain ⟨rfl, rfl⟩ := k
          obtain ⟨s', r1, r2⟩ := h.returned d1 hs failReturn
          refine ⟨s', by rw [if_pos rfl]; exact r1, ?_⟩
          have : upd σ.vals src (some xd) = σ.vals := by
            funext j
            by_cases hh : j = src
            · subst hh; rw [upd_eq, hs]
            · rw [upd_ne _ _ hh]
          rw [this]
          exact r2
        · have hf : fail = false := by
            rcases hn with hn | hn
            · exact absurd hn.symm heq
            · exact hn
          subst hf
          simp only [Bool.false_eq_true, false_and, and_false, if_false, Option.some.injEq, Prod.mk.injEq] at k
          obtain ⟨rfl, rfl⟩ := k
          rw [if_neg heq]
          obtain ⟨hp, e1, e2, e3⟩ := h.delete d1
          have hdel : (if od.ptr ≠ none then deleteValue s.heap od else .ok s.heap) = .ok hp := by
            by_cases hnull : od.ptr = none
            · rw [if_neg (not_not.2 hnull)]
              cases xd with
              | none => rw [Holds] at d2; subst d2; exact e1
              | some v => obtain ⟨-, p, hp', -⟩ := d2; rw [hnull] at hp'; simp at hp'
            · rw [if_pos hnull]; exact e1
          rw [hdel]
          simp only
          have hne : src ≠ dst := heq
          have hs' : Holds hp os x := by
            obtain ⟨os', a1, a2⟩ := e3.holds src x (by simp only [upd_ne _ _ hne]; exact hs)
            simp only [upd_ne _ _ hne, s1, Option.some.injEq] at a1
            subst a1
            exact a2
          have hlt : dst < σ.nextObj := h.bound dst (by rw [hd]; simp)
          cases x with
          | none =>
            rw [copyValue_none hs']
            simp only
            rw [Holds] at hs'
            subst hs'
            have hR := Rep.putNone hlt e3
            simp only at hR
            have hobj : upd (upd s.objs dst none) dst (some (⟨.none, none⟩ : Obj)) = upd s.objs dst (some ⟨.none, none⟩) := by
              funext j
              by_cases hh : j = dst
              · subst hh; rw [upd_eq, upd_eq]
              · rw [upd_ne _ _ hh, upd_ne _ _ hh, upd_ne _ _ hh]
            rw [hobj] at hR
            exact hR.returned (i := dst) (upd_eq _ _ _) (upd_eq _ _ _) failReturn
          | some v =>
            rw [copyValue_some hs']
            simp only [Bool.false_eq_true, if_false]
            have hR := Rep.put hlt e3 v
            simp only at hR
            have hobj : upd (upd s.objs dst none) dst (some (⟨v.ty, some hp.next⟩ : Obj)) = upd s.objs dst (some ⟨v.ty, some hp.next⟩) := by
              funext j
              by_cases hh : j = dst
              · subst hh; rw [upd_eq, upd_eq]
              · rw [upd_ne _ _ hh, upd_ne _ _ hh, upd_ne _ _ hh]
            rw [hobj] at hR
            rw [hs'.1]
            exact hR.returned (i := dst) (upd_eq _ _ _) (upd_eq _ _ _) failReturn
  | destroy i =>
    simp only [sstep] at k
    cases hx : σ.vals i with
    | none => rw [hx] at k; simp at k
    | some x =>
      rw [hx] at k
      simp only [Option.some.injEq, Prod.mk.injEq] at k
      obtain ⟨rfl, rfl⟩ := k
      obtain ⟨o, k1, -⟩ := h.holds i x hx
      obtain ⟨hp, e1, -, e3⟩ := h.delete k1
      simp only [step, k1, e1]
      exact ⟨_, rfl, e3⟩
  | read i t =>
    simp only [sstep] at k
    cases hx : σ.vals i with
    | none => rw [hx] at k; simp at k
    | some x =>
      rw [hx] at k
      simp only at k
      obtain ⟨o, k1, k2⟩ := h.holds i x hx
      simp only [step, k1, read]
      cases x with
      | none =>
        simp only at k
        by_cases ht : t = .none
        · rw [if_pos ht] at k; simp at k
        · rw [if_neg ht] at k
          simp only [Option.some.injEq, Prod.mk.injEq] at k
          obtain ⟨rfl, rfl⟩ := k
          rw [Holds] at k2
          subst k2
          rw [if_pos (fun e => ht e.symm)]
          exact ⟨s, rfl, h⟩
      | some v =>
        simp only at k
        by_cases ht : v.ty = t
        · rw [if_pos ht] at k
          simp only [Option.some.injEq, Prod.mk.injEq] at k
          obtain ⟨rfl, rfl⟩ := k
          have hty : o.ty = t := k2.1.trans ht
          rw [if_neg (not_not.2 hty), ← hty, k2.deref]
          exact ⟨s, rfl, h⟩
        · rw [if_neg ht] at k
          simp only [Option.some.injEq, Prod.mk.injEq] at k
          obtain ⟨rfl, rfl⟩ := k
          rw [if_pos (by rw [k2.1]; exact ht)]
          exact ⟨s, rfl, h⟩
  | type i =>
    simp only [sstep] at k
    cases hx : σ.vals i with
    | none => rw [hx] at k; simp at k
    | some x =>
      rw [hx] at k
      simp only [Option.some.injEq, Prod.mk.injEq] at k
      obtain ⟨rfl, rfl⟩ := k
      obtain ⟨o, k1, k2⟩ := h.holds i x hx
      exact ⟨s, by simp [step, k1, k2.ty], h⟩

/-- C133: for every history of constructions, copies, assignments, reads and destructions in which no allocation of an assignment fails, the implementation has no undefined behaviour (no block deleted twice
or read after deletion) and gives the same answers as the specification; the blocks of the heap are those of the objects. -/
theorem C133_refines_partial (ops : List (Op F)) (hn : ∀ o ∈ ops, NoFail o) (σ : SState F) (outs : List (Out F)) (k : srun SState.empty ops = some (σ, outs)) :
    ∃ s, run State.empty ops = .ok (s, outs) ∧ Rep s σ := by
  suffices H : ∀ (ops : List (Op F)) (s : State F) (σ0 : SState F), (∀ o ∈ ops, NoFail o) → Rep s σ0 → ∀ σ outs, srun σ0 ops = some (σ, outs) → ∃ s', run s ops = .ok (s', outs) ∧ Rep s' σ from
    H ops _ _ hn rep_empty σ outs k
  intro ops
  induction ops with
  | nil =>
    intro s σ0 _ h σ outs k
    simp only [srun, Option.some.injEq, Prod.mk.injEq] at k
    obtain ⟨rfl, rfl⟩ := k
    exact ⟨s, rfl, h⟩
  | cons o l ih =>
    intro s σ0 hn h σ outs k
    rw [srun] at k
    cases h1 : sstep σ0 o with
    | none => rw [h1] at k; simp at k
    | some y =>
      obtain ⟨σ1, out⟩ := y
      rw [h1] at k
      simp only at k
      cases h2 : srun σ1 l with
      | none => rw [h2] at k; simp at k
      | some z =>
        obtain ⟨σ2, outs'⟩ := z
        rw [h2] at k
        simp only [Option.some.injEq, Prod.mk.injEq] at k
        obtain ⟨rfl, rfl⟩ := k
        obtain ⟨s1, a1, a2⟩ := step_refines h o (hn o List.mem_cons_self) h1
        obtain ⟨s2, b1, b2⟩ := ih s1 σ1 (fun o ho => hn o (List.mem_cons_of_mem _ ho)) a2 _ _ h2
        exact ⟨s2, by rw [run, a1]; simp only; rw [b1], b2⟩

/-- C133 (no leak): when all objects are destroyed, no block remains. -/
theorem C133_no_leak (ops : List (Op F)) (hn : ∀ o ∈ ops, NoFail o) (σ : SState F) (outs : List (Out F)) (k : srun SState.empty ops = some (σ, outs))
    (hd : ∀ i, σ.vals i = none) : ∃ s, run State.empty ops = .ok (s, outs) ∧ ∀ p, s.heap.cells p = none := by
  obtain ⟨s, h1, h2⟩ := C133_refines_partial ops hn σ outs k
  refine ⟨s, h1, fun p => ?_⟩
  by_contra hp
  obtain ⟨i, o, k1, -⟩ := h2.used p hp
  rw [h2.dead i (hd i)] at k1
  simp at k1

/-! ## Examples -/

/-- A history with copies, assignments between different types, and readings. -/
def sample : List (Op Int) :=
  [.make (.int 3) false, .make (.vector [1, 2]) false, .copy 0 false, .assign 0 1 false true, .read 0 .vector, .read 2 .int, .read 2 .bool, .assign 1 1 true false, .makeNone,
    .assign 2 3 false false, .read 2 .int, .destroy 0, .read 1 .vector, .destroy 1, .destroy 2, .destroy 3]

example : (∀ o ∈ sample, NoFail o) ∧ (srun SState.empty sample).map Prod.snd =
    some [.done, .done, .done, .badAlloc, .value (.vector [1, 2]), .value (.int 3), .invalidArgument, .done, .done, .done, .invalidArgument, .done, .value (.vector [1, 2]), .done, .done, .done] := by
  refine ⟨?_, by decide +kernel⟩
  simp [sample, NoFail]

/-- C133 (finding): when memory is exhausted during an assignment, the pointer to the value that was deleted is kept: the destructor deletes it again. -/
theorem C133_badAlloc_counterexample :
    (srun (F := Int) SState.empty [.make (.int 3) false, .make (.int 4) false, .assign 0 1 true false, .destroy 0]).isSome = true ∧
    (match run (F := Int) State.empty [.make (.int 3) false, .make (.int 4) false, .assign 0 1 true false, .destroy 0] with
      | .error e => some e
      | .ok _ => none) = some .badDelete := by
  constructor <;> decide +kernel

end Verif.ParamHeap
