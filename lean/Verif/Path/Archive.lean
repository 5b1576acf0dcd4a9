import Mathlib.Data.List.Basic
import Mathlib.Data.Rat.Defs
import Mathlib.Tactic.Common
set_option linter.unusedSectionVars false

/-!
# Saving and loading paths (C114)

The methods `serialize` of the classes of paths: one method writes and reads the members in the same order.
Simplifications: the archive is a list of tokens; an object is written each time it is met (Boost writes it once and shares it after reading, which is not observable as long as the
paths are not modified); robots, joints, configuration spaces and constraints, which have methods of their own, are numbers.
-/
namespace Verif.PathArchive
variable {K : Type}

/-- Elements of an archive. -/
inductive Tok (K : Type) where
  | cls (c : ℕ) | num (x : K) | nat (n : ℕ) | vec (v : List K) | bool (b : Bool) | obj (o : ℕ) | null
deriving DecidableEq, Repr

/-- Members of class `Path`: path.hh:236-370. -/
structure Base (K : Type) where
  /-- `timeRange_` -/
  tr : K × K
  /-- `paramRange_` -/
  pr : K × K
  outputSize : ℕ
  outputDerivativeSize : ℕ
  constraints : Option ℕ
  /-- `timeParam_` is set -/
  timed : Bool
deriving DecidableEq, Repr

/-- Members of `ConstantCurvature`: constant-curvature.hh:181-190. -/
structure Curv (K : Type) where
  robot : ℕ
  initial : List K
  fin' : List K
  curveLength : K
  curvature : K
  xyId : ℕ
  rzId : ℕ
  dxyId : ℕ
  drzId : ℕ
  forward : K
  wheels : List (K × ℕ)
deriving DecidableEq, Repr

/-- Members of `DubinsPath`: dubins-path.hh:172-183. -/
structure Dub (K : Type) where
  device : ℕ
  initial : List K
  fin' : List K
  xyId : ℕ
  rzId : ℕ
  dxyId : ℕ
  drzId : ℕ
  wheels : List ℕ
  typeId : ℕ
  lengths : List K
  extraLength : K
  rho : K
  qi : List K
deriving DecidableEq, Repr

/-- Members of `Spline`: spline.hh:311-327. -/
structure Spl (K : Type) where
  parameterSize : ℕ
  robot : ℕ
  base : List K
  parameters : List K
  velocity : List K
  powersOfT : List K
deriving DecidableEq, Repr

/-- Paths, by class.  `other`: classes that are not exported to Boost (`InterpolatedPath`, `KinodynamicPath`, `Hermite`, `SubchainPath`, ...). -/
inductive PathT (K : Type) where
  | straight (b : Base K) (space : ℕ) (initial fin' : List K)
  | vector (b : Base K) (paths : List (PathT K))
  | dubins (b : Base K) (paths : List (PathT K)) (d : Dub K)
  | extracted (b : Base K) (original : PathT K) (reversed : Bool)
  | spline (b : Base K) (degree : ℕ) (s : Spl K)
  | curv (b : Base K) (c : Curv K)
  | other (b : Base K) (cls : ℕ)

/-- The part of class `Path`. -/
def PathT.base : PathT K → Base K
  | .straight b _ _ _ => b
  | .vector b _ => b
  | .dubins b _ _ => b
  | .extracted b _ _ => b
  | .spline b _ _ => b
  | .curv b _ => b
  | .other b _ => b

/-- Exceptions while writing. -/
inductive Err where
  /-- `logic_error`: path.cc:288-291 -/
  | timed
  /-- `archive_exception::unregistered_class` -/
  | unregistered
deriving DecidableEq, Repr

/-! ## Writing -/

/-- A vector of objects. -/
def saveObjs (l : List ℕ) : List (Tok K) := .nat l.length :: l.map .obj

/-- `Path::serialize`, writing: path.cc:281-298. -/
def saveBase (b : Base K) : Except Err (List (Tok K)) :=
  if b.timed then .error .timed
  else .ok [.num b.tr.1, .num b.tr.2, .nat b.outputSize, .nat b.outputDerivativeSize, match b.constraints with
    | none => .null
    | some c => .obj c]

/-- `ConstantCurvature::serialize` (constant-curvature.cc:469-489) and that of `Wheels_t` (497-503). -/
def saveCurv (c : Curv K) : List (Tok K) :=
  [.obj c.robot, .vec c.initial, .vec c.fin', .num c.curveLength, .num c.curvature, .nat c.xyId, .nat c.rzId, .nat c.dxyId, .nat c.drzId, .num c.forward] ++
    .nat c.wheels.length :: c.wheels.flatMap fun w => [.num w.1, .obj w.2]

/-- `DubinsPath::serialize`, after the base: dubins-path.cc:311-325. -/
def saveDub (d : Dub K) : List (Tok K) :=
  [.obj d.device, .vec d.initial, .vec d.fin', .nat d.xyId, .nat d.rzId, .nat d.dxyId, .nat d.drzId] ++ saveObjs d.wheels ++
    [.nat d.typeId, .vec d.lengths, .num d.extraLength, .num d.rho, .vec d.qi]

/-- `Spline::serialize`, after the base: spline.cc:479-484. -/
def saveSpl (s : Spl K) : List (Tok K) := [.nat s.parameterSize, .obj s.robot, .vec s.base, .vec s.parameters, .vec s.velocity, .vec s.powersOfT]

mutual
/-- Writing a path through a pointer: its class, then its method `serialize` (straight-path.cc:167-177, path-vector.cc:215-222, extracted-path.cc:37-45, and above). -/
def save : PathT K → Except Err (List (Tok K))
  | .straight b space initial fin' => match saveBase b with
    | .error e => .error e
    | .ok l => .ok (.cls 0 :: l ++ [.obj space, .vec initial, .vec fin'])
  | .vector b paths => match saveBase b with
    | .error e => .error e
    | .ok l => match saveList paths with
      | .error e => .error e
      | .ok m => .ok (.cls 1 :: l ++ .nat paths.length :: m)
  | .dubins b paths d => match saveBase b with
    | .error e => .error e
    | .ok l => match saveList paths with
      | .error e => .error e
      | .ok m => .ok (.cls 2 :: l ++ .nat paths.length :: m ++ saveDub d)
  | .extracted b original reversed => match saveBase b with
    | .error e => .error e
    | .ok l => match save original with
      | .error e => .error e
      | .ok m => .ok (.cls 3 :: l ++ m ++ [.bool reversed])
  | .spline b degree s => match saveBase b with
    | .error e => .error e
    | .ok l => .ok (.cls 4 :: .nat degree :: l ++ saveSpl s)
  | .curv b c => match saveBase b with
    | .error e => .error e
    | .ok l => .ok (.cls 5 :: l ++ saveCurv c)
  | .other _ _ => .error .unregistered

/-- A vector of paths. -/
def saveList : List (PathT K) → Except Err (List (Tok K))
  | [] => .ok []
  | p :: l => match save p with
    | .error e => .error e
    | .ok a => match saveList l with
      | .error e => .error e
      | .ok b => .ok (a ++ b)
end

/-! ## Reading -/

/-- Readers of an archive. -/
abbrev Rd (K α : Type) := List (Tok K) → Option (α × List (Tok K))

/-- One reader after another. -/
def Rd.bind {α β : Type} (p : Rd K α) (f : α → Rd K β) : Rd K β := fun l => match p l with
  | none => none
  | some (a, l') => f a l'

/-- The end. -/
def Rd.pure {α : Type} (a : α) : Rd K α := fun l => some (a, l)

/-- Read a number. -/
def rnum : Rd K K
  | .num x :: l => some (x, l)
  | _ => none
/-- Read an integer. -/
def rnat : Rd K ℕ
  | .nat x :: l => some (x, l)
  | _ => none
/-- Read a vector. -/
def rvec : Rd K (List K)
  | .vec x :: l => some (x, l)
  | _ => none
/-- Read a Boolean. -/
def rbool : Rd K Bool
  | .bool x :: l => some (x, l)
  | _ => none
/-- Read a reference. -/
def robj : Rd K ℕ
  | .obj x :: l => some (x, l)
  | _ => none
/-- Read a reference that may be null. -/
def ropt : Rd K (Option ℕ)
  | .obj x :: l => some (some x, l)
  | .null :: l => some (none, l)
  | _ => none

/-- Read `n` items. -/
def rmany {α : Type} (p : Rd K α) : ℕ → Rd K (List α)
  | 0 => Rd.pure []
  | n + 1 => Rd.bind p fun a => Rd.bind (rmany p n) fun l => Rd.pure (a :: l)

/-- `Path::serialize`, reading: path.cc:281-298: the interval of parameters is set by `timeRange` (path.hh:283-290), the path being without time parameterization. -/
def loadBase : Rd K (Base K) :=
  Rd.bind rnum fun t0 => Rd.bind rnum fun t1 => Rd.bind rnat fun o => Rd.bind rnat fun d => Rd.bind ropt fun c => Rd.pure ⟨(t0, t1), (t0, t1), o, d, c, false⟩

/-- `ConstantCurvature::serialize` (constant-curvature.cc:469-489), reading. -/
def loadCurv : Rd K (Curv K) :=
  Rd.bind robj fun robot => Rd.bind rvec fun initial => Rd.bind rvec fun fin' => Rd.bind rnum fun curveLength => Rd.bind rnum fun curvature =>
  Rd.bind rnat fun xyId => Rd.bind rnat fun rzId => Rd.bind rnat fun dxyId => Rd.bind rnat fun drzId => Rd.bind rnum fun forward =>
  Rd.bind rnat fun n => Rd.bind (rmany (Rd.bind rnum fun v => Rd.bind robj fun j => Rd.pure (v, j)) n) fun wheels =>
  Rd.pure ⟨robot, initial, fin', curveLength, curvature, xyId, rzId, dxyId, drzId, forward, wheels⟩

/-- `DubinsPath::serialize`, after the base, reading: dubins-path.cc:311-325. -/
def loadDub : Rd K (Dub K) :=
  Rd.bind robj fun device => Rd.bind rvec fun initial => Rd.bind rvec fun fin' => Rd.bind rnat fun xyId => Rd.bind rnat fun rzId =>
  Rd.bind rnat fun dxyId => Rd.bind rnat fun drzId => Rd.bind rnat fun n => Rd.bind (rmany robj n) fun wheels => Rd.bind rnat fun typeId =>
  Rd.bind rvec fun lengths => Rd.bind rnum fun extraLength => Rd.bind rnum fun rho => Rd.bind rvec fun qi =>
  Rd.pure ⟨device, initial, fin', xyId, rzId, dxyId, drzId, wheels, typeId, lengths, extraLength, rho, qi⟩

/-- `Spline::serialize`, after the base, reading: spline.cc:479-484. -/
def loadSpl : Rd K (Spl K) :=
  Rd.bind rnat fun parameterSize => Rd.bind robj fun robot => Rd.bind rvec fun base => Rd.bind rvec fun parameters => Rd.bind rvec fun velocity =>
  Rd.bind rvec fun powersOfT => Rd.pure ⟨parameterSize, robot, base, parameters, velocity, powersOfT⟩

/-- Reading a path through a pointer: an object of the class written is built, then read by its method `serialize`; the fuel bounds the depth. -/
def load : ℕ → Rd K (PathT K)
  | 0, _ => none
  | n + 1, .cls c :: l => match c with
    | 0 => (Rd.bind loadBase fun b => Rd.bind robj fun space => Rd.bind rvec fun initial => Rd.bind rvec fun fin' => Rd.pure (.straight b space initial fin')) l
    | 1 => (Rd.bind loadBase fun b => Rd.bind rnat fun k => Rd.bind (rmany (load n) k) fun paths => Rd.pure (.vector b paths)) l
    | 2 => (Rd.bind loadBase fun b => Rd.bind rnat fun k => Rd.bind (rmany (load n) k) fun paths => Rd.bind loadDub fun d => Rd.pure (.dubins b paths d)) l
    | 3 => (Rd.bind loadBase fun b => Rd.bind (load n) fun original => Rd.bind rbool fun reversed => Rd.pure (.extracted b original reversed)) l
    | 4 => (Rd.bind rnat fun degree => Rd.bind loadBase fun b => Rd.bind loadSpl fun s => Rd.pure (.spline b degree s)) l
    | 5 => (Rd.bind loadBase fun b => Rd.bind loadCurv fun c => Rd.pure (.curv b c)) l
    | _ => none
  | _ + 1, _ => none

/-! ## Specification -/

mutual
/-- A path and all the paths it is made of. -/
def parts : PathT K → List (PathT K)
  | .vector b l => .vector b l :: partsList l
  | .dubins b l d => .dubins b l d :: partsList l
  | .extracted b o r => .extracted b o r :: parts o
  | .straight b s i e => [.straight b s i e]
  | .spline b d s => [.spline b d s]
  | .curv b c => [.curv b c]
  | .other b c => [.other b c]
/-- For a list. -/
def partsList : List (PathT K) → List (PathT K)
  | [] => []
  | p :: l => parts p ++ partsList l
end

mutual
/-- Depth of nesting. -/
def depth : PathT K → ℕ
  | .vector _ l => depthList l + 1
  | .dubins _ l _ => depthList l + 1
  | .extracted _ o _ => depth o + 1
  | .straight _ _ _ _ => 1
  | .spline _ _ _ => 1
  | .curv _ _ => 1
  | .other _ _ => 1
/-- Greatest depth. -/
def depthList : List (PathT K) → ℕ
  | [] => 0
  | p :: l => max (depth p) (depthList l)
end

/-- The interval of parameters of a path without time parameterization is its interval of definition (what `Path::timeRange` maintains, path.hh:283-290). -/
def Ranges (p : PathT K) : Prop := ∀ x ∈ parts p, x.base.timed = false → x.base.pr = x.base.tr

/-- The class of the path is exported (`BOOST_CLASS_EXPORT`). -/
def Exported : PathT K → Prop
  | .other _ _ => False
  | _ => True

theorem base_rt (b : Base K) (l rest : List (Tok K)) (h : saveBase b = .ok l) (hr : b.timed = false → b.pr = b.tr) : loadBase (l ++ rest) = some (b, rest) := by
  unfold saveBase at h
  cases ht : b.timed with
  | true => rw [ht] at h; cases h
  | false =>
    rw [ht] at h
    simp only [Bool.false_eq_true, if_false] at h
    injection h with h
    subst h
    have hp := hr ht
    obtain ⟨tr, pr, o, d, c, t⟩ := b
    simp only at ht hp
    subst ht
    subst hp
    cases c <;> rfl

theorem many_rt {α : Type} (f : α → List (Tok K)) (p : Rd K α) (l : List α) (h : ∀ a ∈ l, ∀ rest, p (f a ++ rest) = some (a, rest)) (rest : List (Tok K)) :
    rmany p l.length (l.flatMap f ++ rest) = some (l, rest) := by
  induction l with
  | nil => rfl
  | cons a l ih =>
    rw [List.flatMap_cons, List.append_assoc]
    simp only [List.length_cons, rmany, Rd.bind]
    rw [h a (by simp)]
    simp only
    rw [ih fun b hb => h b (List.mem_cons_of_mem _ hb)]
    rfl

theorem objs_rt (l : List ℕ) (rest : List (Tok K)) : rmany robj l.length (l.map Tok.obj ++ rest) = some (l, rest) := by
  have := many_rt (fun a => [Tok.obj a]) (robj (K := K)) l (fun a _ r => rfl) rest
  rwa [← List.map_eq_flatMap] at this

theorem curv_rt (c : Curv K) (rest : List (Tok K)) : loadCurv (saveCurv c ++ rest) = some (c, rest) := by
  have := many_rt (fun w : K × ℕ => [Tok.num w.1, Tok.obj w.2]) (Rd.bind rnum fun v => Rd.bind robj fun j => Rd.pure (v, j)) c.wheels (fun a _ r => rfl) rest
  simp only [saveCurv, loadCurv, Rd.bind, List.cons_append, List.nil_append, robj, rvec, rnum, rnat] at this ⊢
  rw [this]
  rfl

theorem dub_rt (d : Dub K) (rest : List (Tok K)) : loadDub (saveDub d ++ rest) = some (d, rest) := by
  have := objs_rt d.wheels ([.nat d.typeId, .vec d.lengths, .num d.extraLength, .num d.rho, .vec d.qi] ++ rest)
  simp only [saveDub, saveObjs, loadDub, Rd.bind, List.cons_append, List.nil_append, List.append_assoc, robj, rvec, rnum, rnat] at this ⊢
  rw [this]
  rfl

theorem spl_rt (s : Spl K) (rest : List (Tok K)) : loadSpl (saveSpl s ++ rest) = some (s, rest) := rfl

theorem partsList_mem (l : List (PathT K)) (x : PathT K) : x ∈ partsList l ↔ ∃ p ∈ l, x ∈ parts p := by
  induction l with
  | nil => simp [partsList]
  | cons p l ih => simp [partsList, ih]

theorem depthList_le (l : List (PathT K)) (n : ℕ) : depthList l ≤ n ↔ ∀ p ∈ l, depth p ≤ n := by
  induction l with
  | nil => simp [depthList]
  | cons p l ih => simp [depthList, ih, Nat.max_le]

theorem list_rt (n : ℕ) (l : List (PathT K)) (h : ∀ p ∈ l, ∀ toks, save p = .ok toks → ∀ rest, load n (toks ++ rest) = some (p, rest)) (toks : List (Tok K)) (hs : saveList l = .ok toks)
    (rest : List (Tok K)) : rmany (load n) l.length (toks ++ rest) = some (l, rest) := by
  induction l generalizing toks with
  | nil => rw [saveList] at hs; injection hs with hs; subst hs; rfl
  | cons p l ih =>
    rw [saveList] at hs
    cases hp : save p with
    | error e => rw [hp] at hs; cases hs
    | ok a =>
      rw [hp] at hs
      simp only at hs
      cases hl : saveList l with
      | error e => rw [hl] at hs; cases hs
      | ok b =>
        rw [hl] at hs
        simp only at hs
        injection hs with hs
        subst hs
        rw [List.append_assoc]
        simp only [List.length_cons, rmany, Rd.bind]
        rw [h p (by simp) a hp]
        simp only
        rw [ih (fun q hq => h q (List.mem_cons_of_mem _ hq)) b hl]
        rfl

/-- C114: what is read is the path that was written, whatever follows in the archive. -/
theorem C114_roundtrip (n : ℕ) (p : PathT K) (hd : depth p ≤ n) (hr : Ranges p) (toks : List (Tok K)) (h : save p = .ok toks) (rest : List (Tok K)) :
    load n (toks ++ rest) = some (p, rest) := by
  induction n generalizing p toks rest with
  | zero => cases p <;> simp [depth] at hd
  | succ n ih =>
    have hb : p.base.timed = false → p.base.pr = p.base.tr := by
      apply hr p
      cases p <;> simp [parts]
    cases p with
    | straight b space initial fin' =>
      rw [save] at h
      cases hs : saveBase b with
      | error e => rw [hs] at h; cases h
      | ok l =>
        rw [hs] at h; simp only at h; injection h with h; subst h
        simp only [List.cons_append, List.append_assoc, load, Rd.bind]
        rw [base_rt b l _ hs hb]
        rfl
    | vector b paths =>
      rw [save] at h
      cases hs : saveBase b with
      | error e => rw [hs] at h; cases h
      | ok l =>
        rw [hs] at h; simp only at h
        cases hm : saveList paths with
        | error e => rw [hm] at h; cases h
        | ok m =>
          rw [hm] at h; simp only at h; injection h with h; subst h
          simp only [List.cons_append, List.append_assoc, load, Rd.bind]
          rw [base_rt b l _ hs hb]
          simp only [rnat]
          rw [list_rt n paths (fun q hq t ht r => ih q ((depthList_le paths n).1 (by rw [depth] at hd; omega) q hq)
            (fun x hx => hr x (by rw [parts]; exact List.mem_cons_of_mem _ ((partsList_mem paths x).2 ⟨q, hq, hx⟩))) t ht r) m hm rest]
          rfl
    | dubins b paths d =>
      rw [save] at h
      cases hs : saveBase b with
      | error e => rw [hs] at h; cases h
      | ok l =>
        rw [hs] at h; simp only at h
        cases hm : saveList paths with
        | error e => rw [hm] at h; cases h
        | ok m =>
          rw [hm] at h; simp only at h; injection h with h; subst h
          simp only [List.cons_append, List.append_assoc, load, Rd.bind]
          rw [base_rt b l _ hs hb]
          simp only [rnat]
          rw [list_rt n paths (fun q hq t ht r => ih q ((depthList_le paths n).1 (by rw [depth] at hd; omega) q hq)
            (fun x hx => hr x (by rw [parts]; exact List.mem_cons_of_mem _ ((partsList_mem paths x).2 ⟨q, hq, hx⟩))) t ht r) m hm _]
          simp only
          rw [dub_rt]
          rfl
    | extracted b original reversed =>
      rw [save] at h
      cases hs : saveBase b with
      | error e => rw [hs] at h; cases h
      | ok l =>
        rw [hs] at h; simp only at h
        cases hm : save original with
        | error e => rw [hm] at h; cases h
        | ok m =>
          rw [hm] at h; simp only at h; injection h with h; subst h
          simp only [List.cons_append, List.append_assoc, load, Rd.bind]
          rw [base_rt b l _ hs hb]
          simp only
          rw [ih original (by rw [depth] at hd; omega) (fun x hx => hr x (by rw [parts]; exact List.mem_cons_of_mem _ hx)) m hm]
          rfl
    | spline b degree s =>
      rw [save] at h
      cases hs : saveBase b with
      | error e => rw [hs] at h; cases h
      | ok l =>
        rw [hs] at h; simp only at h; injection h with h; subst h
        simp only [List.cons_append, List.append_assoc, load, Rd.bind, rnat]
        rw [base_rt b l _ hs hb]
        simp only
        rw [spl_rt]
        rfl
    | curv b c =>
      rw [save] at h
      cases hs : saveBase b with
      | error e => rw [hs] at h; cases h
      | ok l =>
        rw [hs] at h; simp only at h; injection h with h; subst h
        simp only [List.cons_append, List.append_assoc, load, Rd.bind]
        rw [base_rt b l _ hs hb]
        simp only
        rw [curv_rt]
        rfl
    | other b c => rw [save] at h; cases h

theorem saveBase_ok (b : Base K) : (∃ l, saveBase b = .ok l) ↔ b.timed = false := by
  unfold saveBase
  cases b.timed <;> simp

theorem saveList_ok (l : List (PathT K)) : (∃ t, saveList l = .ok t) ↔ ∀ p ∈ l, ∃ t, save p = .ok t := by
  induction l with
  | nil => simp [saveList]
  | cons p l ih =>
    rw [saveList]
    cases hp : save p with
    | error e => simp [hp]
    | ok a =>
      simp only [List.forall_mem_cons, ← ih]
      cases hl : saveList l with
      | error e => simp
      | ok b => simp [hp]

/-- C114: a path is written if and only if neither it nor any of the paths it is made of has a time parameterization or is of a class that is not exported. -/
theorem C114_written (p : PathT K) : (∃ t, save p = .ok t) ↔ ∀ x ∈ parts p, x.base.timed = false ∧ Exported x := by
  suffices H : ∀ n, ∀ p : PathT K, depth p ≤ n → ((∃ t, save p = .ok t) ↔ ∀ x ∈ parts p, x.base.timed = false ∧ Exported x) from H _ p le_rfl
  intro n
  induction n with
  | zero => intro p hd; cases p <;> simp [depth] at hd
  | succ n ih =>
    have lst : ∀ l : List (PathT K), depthList l ≤ n → ((∃ t, saveList l = .ok t) ↔ ∀ x ∈ partsList l, x.base.timed = false ∧ Exported x) := by
      intro l hl
      rw [saveList_ok]
      constructor
      · intro h x hx
        obtain ⟨p, hp, hxp⟩ := (partsList_mem l x).1 hx
        exact (ih p ((depthList_le l n).1 hl p hp)).1 (h p hp) x hxp
      · intro h p hp
        exact (ih p ((depthList_le l n).1 hl p hp)).2 fun x hx => h x ((partsList_mem l x).2 ⟨p, hp, hx⟩)
    intro p hd
    cases p with
    | straight b space initial fin' =>
      have hb := saveBase_ok b
      rw [save, parts]
      simp only [List.forall_mem_singleton, PathT.base, Exported, and_true, ← hb]
      cases saveBase b <;> simp
    | vector b paths =>
      have hb := saveBase_ok b
      have hl := lst paths (by rw [depth] at hd; omega)
      rw [save, parts, List.forall_mem_cons, ← hl]
      simp only [PathT.base, Exported, and_true, ← hb]
      cases saveBase b <;> cases saveList paths <;> simp
    | dubins b paths d =>
      have hb := saveBase_ok b
      have hl := lst paths (by rw [depth] at hd; omega)
      rw [save, parts, List.forall_mem_cons, ← hl]
      simp only [PathT.base, Exported, and_true, ← hb]
      cases saveBase b <;> cases saveList paths <;> simp
    | extracted b original reversed =>
      have hb := saveBase_ok b
      have hl := ih original (by rw [depth] at hd; omega)
      rw [save, parts, List.forall_mem_cons, ← hl]
      simp only [PathT.base, Exported, and_true, ← hb]
      cases saveBase b <;> cases save original <;> simp
    | spline b degree s =>
      have hb := saveBase_ok b
      rw [save, parts]
      simp only [List.forall_mem_singleton, PathT.base, Exported, and_true, ← hb]
      cases saveBase b <;> simp
    | curv b c =>
      have hb := saveBase_ok b
      rw [save, parts]
      simp only [List.forall_mem_singleton, PathT.base, Exported, and_true, ← hb]
      cases saveBase b <;> simp
    | other b c =>
      rw [save, parts]
      simp [Exported]

/-- C114: a path with a time parameterization of an exported class is refused by an exception, whatever it is made of. -/
theorem C114_timed (p : PathT K) (ht : p.base.timed = true) (he : Exported p) : save p = .error .timed := by
  have hb : ∀ b : Base K, b.timed = true → saveBase b = .error .timed := fun b h => by unfold saveBase; rw [if_pos h]
  cases p with
  | straight b _ _ _ => rw [save, hb b ht]
  | vector b _ => rw [save, hb b ht]
  | dubins b _ _ => rw [save, hb b ht]
  | extracted b _ _ => rw [save, hb b ht]
  | spline b _ _ => rw [save, hb b ht]
  | curv b _ => rw [save, hb b ht]
  | other _ _ => exact he.elim

namespace PEx
/-- A base. -/
def b0 : Base ℚ := ⟨(0, 2), (0, 2), 3, 3, some 4, false⟩
/-- A path vector made of a straight path and of part of an arc, backward. -/
def pv : PathT ℚ := .vector b0 [.straight b0 1 [0, 0, 1] [2, 0, 1], .extracted b0 (.curv b0 ⟨1, [0], [1], 2, 1 / 2, 0, 2, 0, 2, 1, [(1 / 3, 5)]⟩) true]

/-- Hypotheses of `C114_roundtrip`. -/
example : depth pv ≤ 3 ∧ Ranges pv ∧ ∃ t, save pv = .ok t := by
  refine ⟨by decide +kernel, ?_, (C114_written pv).2 ?_⟩
  · intro x hx
    simp only [pv, parts, partsList, List.append_nil, List.cons_append, List.nil_append, List.mem_cons, List.not_mem_nil, or_false] at hx
    rcases hx with rfl | rfl | rfl | rfl <;> intro _ <;> rfl
  · intro x hx
    simp only [pv, parts, partsList, List.append_nil, List.cons_append, List.nil_append, List.mem_cons, List.not_mem_nil, or_false] at hx
    rcases hx with rfl | rfl | rfl | rfl <;> exact ⟨rfl, trivial⟩
end PEx
end Verif.PathArchive
