import Mathlib.Algebra.Order.Field.Basic
import Mathlib.Algebra.Order.Ring.Rat
import Mathlib.Algebra.BigOperators.Group.List.Basic
import Mathlib.Algebra.Order.BigOperators.Group.List
import Mathlib.Tactic.Common
import Mathlib.Tactic.Linarith
import Mathlib.Tactic.Ring

/-!
# Concatenation of paths (`PathVector`): model (C19-C22)

`Ops` is the interface of class `Path` that `PathVector` uses; the pieces of a vector are values of an arbitrary type `P` with such
operations, so that they can be primitive paths, or vectors again (`nestOps`).  Copies of paths are values, copying is the identity.
A constraint set is its action on a configuration at a given parameter (`applyConstraints`, src/path.cc:140-146).
Path vectors carry no time parameterization (asserted in every method of src/path-vector.cc).
-/
namespace Verif.PathV
variable {K C P : Type} [Field K] [LinearOrder K]

inductive Err where
  | emptyVector | outOfRange | projection | bothConstrained | indexOutOfBounds | outOfFuel
  deriving DecidableEq, Repr

abbrev Cst (K C : Type) := K → C → Except Err C

/-- Interface of class `Path`: include/hpp/core/path.hh:71-200. -/
structure Ops (K C P : Type) where
  /-- `timeRange().first` -/
  lo : P → K
  /-- `timeRange().second` -/
  hi : P → K
  /-- `eval(result, time)`, failure is `Err.projection` -/
  eval : P → K → Except Err C
  /-- `extract(tmin, tmax)` -/
  extract : P → K → K → Except Err P
  /-- `reverse()` -/
  reverse : P → Except Err P
  /-- `constraints()` -/
  constraints : P → Option (Cst K C)
  /-- `copy(constraints)` -/
  copyWith : Cst K C → P → P

/-- `length()`: path.hh:193-195. -/
def Ops.len (O : Ops K C P) (p : P) : K := O.hi p - O.lo p

/-- Members of `PathVector`. -/
structure Vec (K C P : Type) where
  cons : Option (Cst K C)
  tr : K × K
  paths : List P

/-- `PathVector::create`: path-vector.hh:46-66, 135-143. -/
def create (c : Option (Cst K C)) : Vec K C P := ⟨c, (0, 0), []⟩

/-- `appendPath`: path-vector.cc:71-77. -/
def appendPath (O : Ops K C P) (v : Vec K C P) (p : P) : Vec K C P :=
  { v with paths := v.paths ++ [p], tr := (v.tr.1, v.tr.2 + O.len p) }

/-- The `while` loop of `rankAtParam`: path-vector.cc:48-55. -/
def rankLoop (O : Ops K C P) : List P → Nat → K → Nat × K
  | p :: q :: rest, res, s => if O.len p < s then rankLoop O (q :: rest) (res + 1) (s - O.len p) else (res, s)
  | _, res, s => (res, s)

/-- `rankAtParam`: path-vector.cc:40-69. -/
def rankAtParam (O : Ops K C P) (v : Vec K C P) (param : K) : Except Err (Nat × K) :=
  if v.paths = [] then .error .emptyVector
  else
    let r := rankLoop O v.paths 0 param
    match v.paths[r.1]? with
    | none => .error .indexOutOfBounds
    | some p =>
      if O.len p < r.2 then
        if r.1 ≠ v.paths.length - 1 then .error .outOfRange else .ok (r.1, O.hi p)
      else .ok (r.1, r.2 + O.lo p)

/-- `paths_[i]`. -/
def at' (v : Vec K C P) (i : Nat) : Except Err P :=
  match v.paths[i]? with
  | none => .error .indexOutOfBounds
  | some p => .ok p

/-- `eval` (path.hh:133-138) with `impl_compute` (path-vector.cc:116-126). -/
def evalV (O : Ops K C P) (v : Vec K C P) (s : K) : Except Err C :=
  match rankAtParam O v s with
  | .error e => .error e
  | .ok (i, l) =>
    match at' v i with
    | .error e => .error e
    | .ok p =>
      match O.eval p l with
      | .error e => .error e
      | .ok q =>
        match v.cons with
        | none => .ok q
        | some c => c s q

/-- `pathAtRank`: path-vector.cc:79-96. -/
def pathAtRank (O : Ops K C P) (v : Vec K C P) (i : Nat) : Except Err P :=
  match at' v i with
  | .error e => .error e
  | .ok p =>
    match v.cons with
    | none => .ok p
    | some c =>
      match O.constraints p with
      | some _ => .error .bothConstrained
      | none => .ok (O.copyWith c p)

/-- `concatenate`: path-vector.cc:98-102, for two distinct objects. -/
def concatenate (O : Ops K C P) (v w : Vec K C P) : Except Err (Vec K C P) :=
  (List.range w.paths.length).foldlM (fun acc i =>
    match pathAtRank O w i with
    | .error e => .error e
    | .ok p => .ok (appendPath O acc p)) v

/-- `Iinit`, `Iend`: path-vector.cc:140-145. -/
def iInit (O : Ops K C P) (p : P) (reversed : Bool) : K := if reversed then O.hi p else O.lo p
def iEnd (O : Ops K C P) (p : P) (reversed : Bool) : K := if reversed then O.lo p else O.hi p

/-- The loop over the middle pieces of `impl_extract`: path-vector.cc:186-190. -/
def midLoop (O : Ops K C P) (v : Vec K C P) (reversed : Bool) (iend : Nat) :
    Nat → Nat → Vec K C P → Except Err (Vec K C P)
  | 0, i, acc => if (reversed = true ∧ iend < i) ∨ i < iend then .error .outOfFuel else .ok acc
  | f + 1, i, acc =>
    if (reversed = true ∧ iend < i) ∨ i < iend then
      match at' v i with
      | .error e => .error e
      | .ok p =>
        match (if reversed then O.reverse p else .ok p) with
        | .error e => .error e
        | .ok p' => midLoop O v reversed iend f (if reversed then i - 1 else i + 1) (appendPath O acc p')
    else .ok acc

/-- `extract` (path.cc:175-221 without time parameterization) with `impl_extract`: path-vector.cc:174-195.  The result has no
constraint set. -/
def extractV (O : Ops K C P) (v : Vec K C P) (a b : K) : Except Err (Vec K C P) :=
  let reversed := decide (b < a)
  match rankAtParam O v a with
  | .error e => .error e
  | .ok (iinit, tinit) =>
    match rankAtParam O v b with
    | .error e => .error e
    | .ok (iend, tend) =>
      match at' v iinit with
      | .error e => .error e
      | .ok p =>
        if iinit = iend then
          match O.extract p tinit tend with
          | .error e => .error e
          | .ok r => .ok (appendPath O (create none) r)
        else
          match O.extract p tinit (iEnd O p reversed) with
          | .error e => .error e
          | .ok r =>
            match midLoop O v reversed iend v.paths.length (if reversed then iinit - 1 else iinit + 1)
                (appendPath O (create none) r) with
            | .error e => .error e
            | .ok acc =>
              match at' v iend with
              | .error e => .error e
              | .ok q =>
                match O.extract q (iInit O q reversed) tend with
                | .error e => .error e
                | .ok r' => .ok (appendPath O acc r')

/-- `reverse`: path-vector.cc:197-204. -/
def reverseV (O : Ops K C P) (v : Vec K C P) : Except Err (Vec K C P) :=
  v.paths.reverse.foldlM (fun acc p =>
    match O.reverse p with
    | .error e => .error e
    | .ok p' => .ok (appendPath O acc p')) (create none)

/-- A vector of paths is a path. -/
def vecOps (O : Ops K C P) : Ops K C (Vec K C P) where
  lo v := v.tr.1
  hi v := v.tr.2
  eval := evalV O
  extract := extractV O
  reverse := reverseV O
  constraints v := v.cons
  copyWith c v := { v with cons := some c }

/-- Dynamic dispatch between two classes of paths. -/
def sumOps {P Q : Type} (O : Ops K C P) (O' : Ops K C Q) : Ops K C (P ⊕ Q) where
  lo := Sum.elim O.lo O'.lo
  hi := Sum.elim O.hi O'.hi
  eval := Sum.elim O.eval O'.eval
  extract p a b := match p with
    | .inl p => (O.extract p a b).map Sum.inl
    | .inr p => (O'.extract p a b).map Sum.inr
  reverse p := match p with
    | .inl p => (O.reverse p).map Sum.inl
    | .inr p => (O'.reverse p).map Sum.inr
  constraints := Sum.elim O.constraints O'.constraints
  copyWith c := Sum.map (O.copyWith c) (O'.copyWith c)

/-- Pieces nested at most `d` times in path vectors. -/
def Nest (K C P : Type) : Nat → Type
  | 0 => P
  | d + 1 => P ⊕ Vec K C (Nest K C P d)

def nestOps (O : Ops K C P) : (d : Nat) → Ops K C (Nest K C P d)
  | 0 => O
  | d + 1 => sumOps O (vecOps (nestOps O d))

/-- `flatten`: path-vector.cc:104-114, pieces appended to the vector `acc`. -/
def flatten (O : Ops K C P) : (d : Nat) → Vec K C (Nest K C P d) → Vec K C P → Except Err (Vec K C P)
  | 0, v, acc => (List.range v.paths.length).foldlM (fun acc i =>
      match pathAtRank O v i with
      | .error e => .error e
      | .ok p => .ok (appendPath O acc p)) acc
  | d + 1, v, acc => (List.range v.paths.length).foldlM (fun acc i =>
      match pathAtRank (nestOps O (d + 1)) v i with
      | .error e => .error e
      | .ok (.inl p) => .ok (appendPath O acc p)
      | .ok (.inr w) => flatten O d w acc) acc

end Verif.PathV
