import Mathlib.Tactic.Common
import Mathlib.Data.List.Basic
import Mathlib.Data.List.Zip
set_option linter.unusedSectionVars false

/-!
# Bookkeeping of collision pairs: `ObstacleUser` (C38)

An object is identified with its geometry (`Obj`, compared as `CollisionPairComparision` does, by identity); `jidx` and `name` are
`jointIndex ()` and `name ()`.  A collision request is any value of type `Q`, with a security margin set by `setM`.
-/
namespace Verif.Obst

/-- A joint: objects of its body (none without body), child joints. -/
inductive Joint (Obj : Type) where
  | mk (inner : List Obj) (children : List (Joint Obj))

def Joint.inner {Obj : Type} : Joint Obj → List Obj
  | .mk i _ => i

/-- Members of `ObstacleUser`: include/hpp/core/obstacle-user.hh:269-277. -/
structure St (Obj Q : Type) where
  cP : List (Obj × Obj)
  cR : List Q
  pP : List (Obj × Obj)
  pR : List Q
  dP : List (Obj × Obj)
  dR : List Q
  dflt : Q

/-- Outcome of a call: normal, exception (with the state left), undefined behaviour. -/
inductive Out (S : Type) where
  | ok (s : S)
  | thrown (s : S)
  | ub

/-- `RelativeMotion::RelativeMotionType`. -/
inductive Motion where
  | constrained | parameterized | unconstrained | other
  deriving DecidableEq

section
variable {Obj Q M : Type} [DecidableEq Obj]

/-- The body part of `addObstacleToJoint`: src/obstacle-user.cc:65-71. -/
def addInner (o : Obj) (inner : List Obj) (s : St Obj Q) : St Obj Q :=
  inner.foldl (fun s a => { s with cP := s.cP ++ [(a, o)], cR := s.cR ++ [s.dflt] }) s

mutual
/-- `addObstacleToJoint`: obstacle-user.cc:61-77. -/
def addObstacleToJoint (o : Obj) (includeChildren : Bool) : Joint Obj → St Obj Q → St Obj Q
  | .mk inner children, s =>
    let s := addInner o inner s
    if includeChildren then addObstacleToChildren o includeChildren children s else s
def addObstacleToChildren (o : Obj) (includeChildren : Bool) : List (Joint Obj) → St Obj Q → St Obj Q
  | [], s => s
  | j :: js, s => addObstacleToChildren o includeChildren js (addObstacleToJoint o includeChildren j s)
end

/-- `addObstacle`: obstacle-user.cc:54-59; `joints` are all the joints of the robot. -/
def addObstacle (joints : List (Joint Obj)) (o : Obj) (s : St Obj Q) : St Obj Q :=
  joints.foldl (fun s j => addObstacleToJoint o false j s) s

/-- Loop on the pairs in `removeObstacleFromJoint`: obstacle-user.cc:95-102; the number of deleted pairs is returned. -/
def removeLoop (a o : Obj) : Nat → Nat → Nat → List (Obj × Obj) → List Q → List (Obj × Obj) × List Q × Nat
  | 0, _, n, ps, rs => (ps, rs, n)
  | f + 1, i, n, ps, rs => match ps[i]? with
    | none => (ps, rs, n)
    | some p => if p = (a, o) then removeLoop a o f i (n + 1) (ps.eraseIdx i) (rs.eraseIdx i) else removeLoop a o f (i + 1) n ps rs

/-- Loop on the inner objects: obstacle-user.cc:91-116. -/
def removeInner (o : Obj) : List Obj → St Obj Q → Out (St Obj Q)
  | [], s => .ok s
  | a :: as, s =>
    let r := removeLoop a o s.cP.length 0 0 s.cP s.cR
    let s' := { s with cP := r.1, cR := r.2.1 }
    if r.2.2 = 0 then .thrown s' else removeInner o as s'

/-- `removeObstacleFromJoint`: obstacle-user.cc:87-118. -/
def removeObstacleFromJoint (j : Joint Obj) (o : Obj) (s : St Obj Q) : Out (St Obj Q) := removeInner o j.inner s

/-- `filterCollisionPairs`: obstacle-user.cc:120-164; `rel` is the matrix read at the indices of the joints. Reading a request that does
not exist is undefined behaviour. -/
def filterLoop (rel : Obj × Obj → Motion) : Nat → Nat → St Obj Q → Out (St Obj Q)
  | 0, _, s => .ok s
  | f + 1, i, s => match s.cP[i]? with
    | none => .ok s
    | some p => match rel p with
      | .parameterized => match s.cR[i]? with
        | none => .ub
        | some r => filterLoop rel f i
            { s with pP := s.pP ++ [p], pR := s.pR ++ [r], cP := s.cP.eraseIdx i, cR := s.cR.eraseIdx i }
      | .constrained => match s.cR[i]? with
        | none => .ub
        | some r => filterLoop rel f i
            { s with dP := s.dP ++ [p], dR := s.dR ++ [r], cP := s.cP.eraseIdx i, cR := s.cR.eraseIdx i }
      | _ => filterLoop rel f (i + 1) s

def filterCollisionPairs (rel : Obj × Obj → Motion) (s : St Obj Q) : Out (St Obj Q) := filterLoop rel s.cP.length 0 s

/-- One of the three loops of `setSecurityMargins`: obstacle-user.cc:178-195. -/
def marginLoop (setM : M → Q → Q) (mat : Obj × Obj → M) (ps : List (Obj × Obj)) : Nat → List Q → List Q
  | 0, rs => rs
  | n + 1, rs =>
    let i := ps.length - (n + 1)
    match ps[i]? with
    | none => marginLoop setM mat ps n rs
    | some p => marginLoop setM mat ps n (rs.modify i (setM (mat p)))

/-- `setSecurityMargins`: obstacle-user.cc:166-196; `rows`, `cols`, the size of the matrix, `n` the number of joints. -/
def setSecurityMargins (setM : M → Q → Q) (n rows cols : Nat) (mat : Obj × Obj → M) (s : St Obj Q) : Out (St Obj Q) :=
  if rows ≠ n + 1 ∨ cols ≠ n + 1 then .thrown s
  else .ok { s with
    cR := marginLoop setM mat s.cP s.cP.length s.cR
    pR := marginLoop setM mat s.pP s.pP.length s.pR
    dR := marginLoop setM mat s.dP s.dP.length s.dR }

/-- `pair` is between bodies of names `a` and `b`: obstacle-user.cc:205-206. -/
def matches' (name : Obj → String) (a b : String) (p : Obj × Obj) : Bool :=
  (name p.1 = a && name p.2 = b) || (name p.1 = b && name p.2 = a)

/-- `setMargin`: obstacle-user.cc:201-212. -/
def setMargin (f : Q → Q) (m : Obj × Obj → Bool) (ps : List (Obj × Obj)) (rs : List Q) : Option (List Q) :=
  match ps.findIdx? m with
  | none => none
  | some i => some (rs.modify i f)

/-- `setSecurityMarginBetweenBodies`: obstacle-user.cc:198-220. -/
def setSecurityMarginBetweenBodies (setM : M → Q → Q) (name : Obj → String) (a b : String) (margin : M) (s : St Obj Q) : Out (St Obj Q) :=
  match setMargin (setM margin) (matches' name a b) s.cP s.cR with
  | some r => .ok { s with cR := r }
  | none => match setMargin (setM margin) (matches' name a b) s.pP s.pR with
    | some r => .ok { s with pR := r }
    | none => match setMargin (setM margin) (matches' name a b) s.dP s.dR with
      | some r => .ok { s with dR := r }
      | none => .thrown s

/-- `setRequests`: obstacle-user.cc:237-241. -/
def setRequests (r : Q) (s : St Obj Q) : St Obj Q :=
  { s with cR := s.cR.map (fun _ => r), pR := s.pR.map (fun _ => r), dR := s.dR.map (fun _ => r) }

/-- `addRobotCollisionPairs` (obstacle-user.cc:222-235) from the constructor of `CollisionValidation`
(src/collision-validation.cc:95-104): `ps` are the active pairs of the robot. -/
def initial (dflt : Q) (ps : List (Obj × Obj)) : St Obj Q := ⟨ps, ps.map (fun _ => dflt), [], [], [], [], dflt⟩

/-! ## Specification -/

/-- As many requests as pairs. -/
structure Aligned (s : St Obj Q) : Prop where
  c : s.cP.length = s.cR.length
  p : s.pP.length = s.pR.length
  d : s.dP.length = s.dR.length

/-- The pairs with their requests. -/
def St.c (s : St Obj Q) : List ((Obj × Obj) × Q) := s.cP.zip s.cR
def St.p (s : St Obj Q) : List ((Obj × Obj) × Q) := s.pP.zip s.pR
def St.d (s : St Obj Q) : List ((Obj × Obj) × Q) := s.dP.zip s.dR

/-! ## Proofs -/

theorem addInner_eq (o : Obj) (inner : List Obj) (s : St Obj Q) :
    addInner o inner s = { s with cP := s.cP ++ inner.map (fun a => (a, o)), cR := s.cR ++ inner.map (fun _ => s.dflt) } := by
  induction inner generalizing s with
  | nil => simp [addInner]
  | cons a as ih =>
    have := ih { s with cP := s.cP ++ [(a, o)], cR := s.cR ++ [s.dflt] }
    simp only [addInner, List.foldl_cons] at this ⊢
    rw [this]
    simp

mutual
/-- Objects of a joint, or of all the joints below. -/
def Joint.objs (includeChildren : Bool) : Joint Obj → List Obj
  | .mk inner children => inner ++ if includeChildren then Joint.objsL includeChildren children else []
def Joint.objsL (includeChildren : Bool) : List (Joint Obj) → List Obj
  | [] => []
  | j :: js => j.objs includeChildren ++ Joint.objsL includeChildren js
end

/-- New pairs appended to the active ones. -/
def St.addC (s : St Obj Q) (o : Obj) (as : List Obj) : St Obj Q :=
  { s with cP := s.cP ++ as.map (fun a => (a, o)), cR := s.cR ++ as.map (fun _ => s.dflt) }

theorem addC_append (s : St Obj Q) (o : Obj) (as bs : List Obj) : (s.addC o as).addC o bs = s.addC o (as ++ bs) := by
  simp [St.addC]

mutual
theorem addToJoint_eq (o : Obj) (b : Bool) : (j : Joint Obj) → (s : St Obj Q) → addObstacleToJoint o b j s = s.addC o (j.objs b)
  | .mk inner children, s => by
    unfold addObstacleToJoint
    simp only [addInner_eq, Joint.objs]
    cases b with
    | false => simp [St.addC]
    | true =>
      simp only [if_true]
      rw [addToChildren_eq o true children]
      exact addC_append s o inner _
theorem addToChildren_eq (o : Obj) (b : Bool) :
    (js : List (Joint Obj)) → (s : St Obj Q) → addObstacleToChildren o b js s = s.addC o (Joint.objsL b js)
  | [], s => by simp [addObstacleToChildren, St.addC, Joint.objsL]
  | j :: js, s => by
    unfold addObstacleToChildren
    rw [addToJoint_eq o b j s, addToChildren_eq o b js, addC_append]
    simp [Joint.objsL]
end

theorem addObstacle_eq (joints : List (Joint Obj)) (o : Obj) (s : St Obj Q) :
    addObstacle joints o s = s.addC o (joints.map Joint.inner).flatten := by
  induction joints generalizing s with
  | nil => simp [addObstacle, St.addC]
  | cons j js ih =>
    have := ih (addObstacleToJoint o false j s)
    simp only [addObstacle, List.foldl_cons] at this ⊢
    rw [this, addToJoint_eq, addC_append]
    cases j with
    | mk inner cs => simp [Joint.objs, Joint.inner]

theorem removeLoop_spec (a o : Obj) (B : List ((Obj × Obj) × Q)) (A : List ((Obj × Obj) × Q)) (f n : Nat) (hf : B.length ≤ f) :
    removeLoop a o f A.length n ((A ++ B).map Prod.fst) ((A ++ B).map Prod.snd) =
      ((A ++ B.filter (fun x => x.1 ≠ (a, o))).map Prod.fst, (A ++ B.filter (fun x => x.1 ≠ (a, o))).map Prod.snd,
        n + (B.filter (fun x => x.1 = (a, o))).length) := by
  induction B generalizing A f n with
  | nil =>
    cases f with
    | zero => simp [removeLoop]
    | succ f =>
      unfold removeLoop
      simp
  | cons x B ih =>
    cases f with
    | zero => simp at hf
    | succ f =>
      unfold removeLoop
      have hget : ((A ++ x :: B).map Prod.fst)[A.length]? = some x.1 := by simp
      rw [hget]
      simp only
      by_cases hx : x.1 = (a, o)
      · rw [if_pos hx]
        have e1 : ((A ++ x :: B).map Prod.fst).eraseIdx A.length = (A ++ B).map Prod.fst := by
          simp [List.eraseIdx_append_of_length_le]
        have e2 : ((A ++ x :: B).map Prod.snd).eraseIdx A.length = (A ++ B).map Prod.snd := by
          simp [List.eraseIdx_append_of_length_le]
        rw [e1, e2, ih A f (n + 1) (by simpa using hf)]
        simp [hx]
        omega
      · rw [if_neg hx]
        have := ih (A ++ [x]) f n (by simpa using hf)
        simp only [List.length_append, List.length_singleton, List.append_assoc, List.singleton_append] at this
        rw [this]
        simp [hx]

theorem zip_fst_snd {α β : Type} (l : List α) (r : List β) (h : l.length = r.length) :
    (l.zip r).map Prod.fst = l ∧ (l.zip r).map Prod.snd = r :=
  ⟨List.map_fst_zip (by omega), List.map_snd_zip (by omega)⟩

theorem zip_map_map {α β : Type} (L : List (α × β)) : (L.map Prod.fst).zip (L.map Prod.snd) = L := by
  induction L with
  | nil => rfl
  | cons x L ih => simp [ih]

theorem removeLoop_top (a o : Obj) (s : St Obj Q) (h : Aligned s) :
    removeLoop a o s.cP.length 0 0 s.cP s.cR =
      ((s.c.filter (fun x => x.1 ≠ (a, o))).map Prod.fst, (s.c.filter (fun x => x.1 ≠ (a, o))).map Prod.snd,
        (s.c.filter (fun x => x.1 = (a, o))).length) := by
  have hz := zip_fst_snd s.cP s.cR h.c
  have := removeLoop_spec a o s.c [] s.cP.length 0 (by simp [St.c, h.c])
  simp only [List.nil_append, List.length_nil, Nat.zero_add] at this
  rw [← this]
  simp only [St.c, hz.1, hz.2]

/-- Removal of the pairs of an inner object with the obstacle. -/
def St.rm (s : St Obj Q) (o a : Obj) : St Obj Q :=
  { s with cP := (s.c.filter (fun x => x.1 ≠ (a, o))).map Prod.fst, cR := (s.c.filter (fun x => x.1 ≠ (a, o))).map Prod.snd }

theorem rm_aligned (s : St Obj Q) (h : Aligned s) (o a : Obj) : Aligned (s.rm o a) := ⟨by simp [St.rm], h.p, h.d⟩

theorem rm_c (s : St Obj Q) (o a : Obj) : (s.rm o a).c = s.c.filter (fun x => x.1 ≠ (a, o)) := by
  unfold St.rm
  simp only [St.c]
  exact zip_map_map _

open Classical in
theorem removeInner_cons (o a : Obj) (as : List Obj) (s : St Obj Q) (h : Aligned s) :
    removeInner o (a :: as) s = if ∃ q, ((a, o), q) ∈ s.c then removeInner o as (s.rm o a) else .thrown (s.rm o a) := by
  conv_lhs => unfold removeInner
  rw [removeLoop_top a o s h]
  simp only
  by_cases hex : ∃ q, ((a, o), q) ∈ s.c
  · rw [if_pos hex, if_neg]
    · rfl
    · obtain ⟨q, hq⟩ := hex
      have : ((a, o), q) ∈ s.c.filter (fun x => x.1 = (a, o)) := by simp [hq]
      have := List.length_pos_of_mem this
      omega
  · rw [if_neg hex, if_pos]
    · rfl
    · rw [List.length_eq_zero_iff, List.filter_eq_nil_iff]
      intro x hx he
      simp at he
      exact hex ⟨x.2, by rw [← he]; exact hx⟩

/-- `filterCollisionPairs` from index `A.length`. -/
theorem filterLoop_spec (rel : Obj × Obj → Motion) (B A P D : List ((Obj × Obj) × Q)) (dflt : Q) (f : Nat) (hf : B.length ≤ f) :
    filterLoop rel f A.length
      ⟨(A ++ B).map Prod.fst, (A ++ B).map Prod.snd, P.map Prod.fst, P.map Prod.snd, D.map Prod.fst, D.map Prod.snd, dflt⟩ =
    .ok ⟨(A ++ B.filter (fun x => rel x.1 ≠ .parameterized ∧ rel x.1 ≠ .constrained)).map Prod.fst,
      (A ++ B.filter (fun x => rel x.1 ≠ .parameterized ∧ rel x.1 ≠ .constrained)).map Prod.snd,
      (P ++ B.filter (fun x => rel x.1 = .parameterized)).map Prod.fst, (P ++ B.filter (fun x => rel x.1 = .parameterized)).map Prod.snd,
      (D ++ B.filter (fun x => rel x.1 = .constrained)).map Prod.fst, (D ++ B.filter (fun x => rel x.1 = .constrained)).map Prod.snd,
      dflt⟩ := by
  induction B generalizing A P D f with
  | nil =>
    cases f with
    | zero => simp [filterLoop]
    | succ f =>
      unfold filterLoop
      simp
  | cons x B ih =>
    cases f with
    | zero => simp at hf
    | succ f =>
      unfold filterLoop
      have hget : ((A ++ x :: B).map Prod.fst)[A.length]? = some x.1 := by simp
      have hget2 : ((A ++ x :: B).map Prod.snd)[A.length]? = some x.2 := by simp
      have e1 : ((A ++ x :: B).map Prod.fst).eraseIdx A.length = (A ++ B).map Prod.fst := by
        simp [List.eraseIdx_append_of_length_le]
      have e2 : ((A ++ x :: B).map Prod.snd).eraseIdx A.length = (A ++ B).map Prod.snd := by
        simp [List.eraseIdx_append_of_length_le]
      simp only [hget, hget2]
      have hf' : B.length ≤ f := by simpa using hf
      cases hr : rel x.1 with
      | parameterized =>
        simp only [e1, e2]
        have := ih A (P ++ [x]) D f hf'
        simp only [List.map_append, List.map_cons, List.map_nil] at this ⊢
        rw [this]
        simp [hr]
      | constrained =>
        simp only [e1, e2]
        have := ih A P (D ++ [x]) f hf'
        simp only [List.map_append, List.map_cons, List.map_nil] at this ⊢
        rw [this]
        simp [hr]
      | unconstrained =>
        simp only
        have := ih (A ++ [x]) P D f hf'
        simp only [List.length_append, List.length_singleton, List.append_assoc, List.singleton_append] at this
        rw [this]
        simp [hr]
      | other =>
        simp only
        have := ih (A ++ [x]) P D f hf'
        simp only [List.length_append, List.length_singleton, List.append_assoc, List.singleton_append] at this
        rw [this]
        simp [hr]

/-- C38: `filterCollisionPairs` moves exactly the active pairs that are constrained (parameterized) to the disabled (parameterized)
list, with their requests and in order, and leaves the others. -/
theorem C38_filter (rel : Obj × Obj → Motion) (s : St Obj Q) (h : Aligned s) :
    ∃ s', filterCollisionPairs rel s = .ok s' ∧ Aligned s' ∧ s'.dflt = s.dflt ∧
      s'.c = s.c.filter (fun x => rel x.1 ≠ .parameterized ∧ rel x.1 ≠ .constrained) ∧
      s'.p = s.p ++ s.c.filter (fun x => rel x.1 = .parameterized) ∧
      s'.d = s.d ++ s.c.filter (fun x => rel x.1 = .constrained) := by
  have hc := zip_fst_snd s.cP s.cR h.c
  have hp := zip_fst_snd s.pP s.pR h.p
  have hd := zip_fst_snd s.dP s.dR h.d
  have := filterLoop_spec rel s.c [] s.p s.d s.dflt s.cP.length (by simp [St.c, h.c])
  have he : (⟨([] ++ s.c).map Prod.fst, ([] ++ s.c).map Prod.snd, s.p.map Prod.fst, s.p.map Prod.snd, s.d.map Prod.fst,
      s.d.map Prod.snd, s.dflt⟩ : St Obj Q) = s := by
    simp only [List.nil_append, St.c, St.p, St.d, hc.1, hc.2, hp.1, hp.2, hd.1, hd.2]
  rw [he] at this
  refine ⟨_, this, ⟨by simp, by simp, by simp⟩, rfl, ?_, ?_, ?_⟩
  · exact zip_map_map _
  · exact zip_map_map _
  · exact zip_map_map _

/-- C38: no pair is lost or duplicated by `filterCollisionPairs`. -/
theorem C38_filter_perm (rel : Obj × Obj → Motion) (s s' : St Obj Q) (h : Aligned s) (h' : filterCollisionPairs rel s = .ok s') :
    (s'.c ++ s'.p ++ s'.d).Perm (s.c ++ s.p ++ s.d) := by
  obtain ⟨s1, h1, -, -, hc, hp, hd⟩ := C38_filter rel s h
  rw [h1] at h'
  cases h'
  rw [hc, hp, hd]
  have key : ∀ L : List ((Obj × Obj) × Q), (L.filter (fun x => rel x.1 ≠ .parameterized ∧ rel x.1 ≠ .constrained) ++
      (L.filter (fun x => rel x.1 = .parameterized) ++ L.filter (fun x => rel x.1 = .constrained))).Perm L := by
    intro L
    have h1 := List.filter_append_perm (fun x : (Obj × Obj) × Q => decide (rel x.1 ≠ .parameterized ∧ rel x.1 ≠ .constrained)) L
    refine (List.Perm.append_left _ ?_).trans h1
    have h2 := List.filter_append_perm (fun x : (Obj × Obj) × Q => decide (rel x.1 = .parameterized))
      (L.filter (fun x => !decide (rel x.1 ≠ .parameterized ∧ rel x.1 ≠ .constrained)))
    refine List.Perm.trans ?_ h2
    rw [List.filter_filter, List.filter_filter]
    refine List.Perm.of_eq (congrArg₂ _ ?_ ?_)
    · refine List.filter_congr (fun x _ => ?_)
      cases rel x.1 <;> simp
    · refine List.filter_congr (fun x _ => ?_)
      cases rel x.1 <;> simp
  generalize s.c = L at key ⊢
  have hk := key L
  classical
  rw [List.perm_iff_count] at hk ⊢
  intro x
  have := hk x
  simp only [List.count_append] at this ⊢
  omega

/-- C38: removal. If each object of the body has an active pair with the obstacle, exactly these pairs are removed; otherwise an
exception is thrown. -/
theorem C38_remove (o : Obj) (as : List Obj) (s : St Obj Q) (h : Aligned s) (hnd : as.Nodup) :
    ((∀ a ∈ as, ∃ q, ((a, o), q) ∈ s.c) → ∃ s', removeInner o as s = .ok s' ∧ Aligned s' ∧ s'.p = s.p ∧ s'.d = s.d ∧
      s'.c = s.c.filter (fun x => ¬ (x.1.2 = o ∧ x.1.1 ∈ as))) ∧
    ((∃ a ∈ as, ∀ q, ((a, o), q) ∉ s.c) → ∃ s', removeInner o as s = .thrown s' ∧ Aligned s' ∧ s'.p = s.p ∧ s'.d = s.d ∧
      s'.c.Sublist s.c ∧ ∀ x ∈ s.c, x ∉ s'.c → x.1.2 = o ∧ x.1.1 ∈ as) := by
  induction as generalizing s with
  | nil =>
    refine ⟨fun _ => ⟨s, rfl, h, rfl, rfl, by simp⟩, by simp⟩
  | cons a as ih =>
    obtain ⟨i1, i2⟩ := ih (s.rm o a) (rm_aligned s h o a) (List.nodup_cons.1 hnd).2
    have hna := (List.nodup_cons.1 hnd).1
    have hmem : ∀ b ∈ as, ∀ q, ((b, o), q) ∈ (s.rm o a).c ↔ ((b, o), q) ∈ s.c := by
      intro b hb q
      rw [rm_c]
      simp only [List.mem_filter, ne_eq, decide_not, Bool.not_eq_true', decide_eq_false_iff_not, Prod.mk.injEq, and_true,
        and_iff_left_iff_imp]
      rintro - rfl
      exact hna hb
    constructor
    · intro hall
      obtain ⟨s', e1, e2, e3, e4, e5⟩ := i1 (fun b hb => by
        obtain ⟨q, hq⟩ := hall b (by simp [hb])
        exact ⟨q, (hmem b hb q).2 hq⟩)
      refine ⟨s', ?_, e2, e3, e4, ?_⟩
      · rw [removeInner_cons o a as s h, if_pos (hall a (by simp))]
        exact e1
      · rw [e5, rm_c, List.filter_filter]
        refine List.filter_congr (fun x _ => ?_)
        obtain ⟨⟨b, o'⟩, q⟩ := x
        simp only [ne_eq, Prod.mk.injEq, List.mem_cons, decide_not]
        by_cases ho : o' = o <;> by_cases hb : b = a <;> by_cases hm : b ∈ as <;> simp [ho, hb, hm]
    · rintro ⟨b, hb, hbq⟩
      rw [removeInner_cons o a as s h]
      by_cases hex : ∃ q, ((a, o), q) ∈ s.c
      · rw [if_pos hex]
        have hba : b ∈ as := by
          rcases List.mem_cons.1 hb with rfl | hb
          · obtain ⟨q, hq⟩ := hex; exact absurd hq (hbq q)
          · exact hb
        obtain ⟨s', e1, e2, e3, e4, e5, e6⟩ := i2 ⟨b, hba, fun q hq => hbq q ((hmem b hba q).1 hq)⟩
        refine ⟨s', e1, e2, e3, e4, e5.trans (by rw [rm_c]; exact List.filter_sublist), ?_⟩
        intro x hx hx'
        by_cases hx1 : x ∈ (s.rm o a).c
        · obtain ⟨g1, g2⟩ := e6 x hx1 hx'
          exact ⟨g1, by simp [g2]⟩
        · rw [rm_c] at hx1
          simp [hx] at hx1
          rw [hx1]
          simp
      · rw [if_neg hex]
        refine ⟨_, rfl, rm_aligned s h o a, rfl, rfl, by rw [rm_c]; exact List.filter_sublist, ?_⟩
        intro x hx hx'
        rw [rm_c] at hx'
        simp [hx] at hx'
        rw [hx']
        simp

/-- C38: adding an obstacle appends one active pair with the default request for each object of the bodies, and nothing else. -/
theorem C38_add (joints : List (Joint Obj)) (o : Obj) (s : St Obj Q) (h : Aligned s) :
    Aligned (addObstacle joints o s) ∧ (addObstacle joints o s).p = s.p ∧ (addObstacle joints o s).d = s.d ∧
    (addObstacle joints o s).c = s.c ++ (joints.map Joint.inner).flatten.map (fun a => ((a, o), s.dflt)) := by
  rw [addObstacle_eq]
  generalize (joints.map Joint.inner).flatten = as
  refine ⟨⟨by simp [St.addC, h.c], h.p, h.d⟩, rfl, rfl, ?_⟩
  simp only [St.addC, St.c]
  rw [List.zip_append h.c]
  congr 1
  exact List.zip_map'

theorem C38_addToJoint (b : Bool) (j : Joint Obj) (o : Obj) (s : St Obj Q) (h : Aligned s) :
    Aligned (addObstacleToJoint o b j s) ∧ (addObstacleToJoint o b j s).p = s.p ∧ (addObstacleToJoint o b j s).d = s.d ∧
    (addObstacleToJoint o b j s).c = s.c ++ (j.objs b).map (fun a => ((a, o), s.dflt)) := by
  rw [addToJoint_eq]
  generalize j.objs b = as
  refine ⟨⟨by simp [St.addC, h.c], h.p, h.d⟩, rfl, rfl, ?_⟩
  simp only [St.addC, St.c]
  rw [List.zip_append h.c]
  congr 1
  exact List.zip_map'

/-! ## Margins -/

theorem marginLoop_get (setM : M → Q → Q) (mat : Obj × Obj → M) (ps : List (Obj × Obj)) (n : Nat) (hn : n ≤ ps.length) (rs : List Q)
    (hl : ps.length = rs.length) :
    (marginLoop setM mat ps n rs).length = rs.length ∧ ∀ (j : Nat) (hj : j < ps.length) (hj' : j < rs.length),
      (marginLoop setM mat ps n rs)[j]? = some (if ps.length - n ≤ j then setM (mat ps[j]) rs[j] else rs[j]) := by
  induction n generalizing rs with
  | zero =>
    refine ⟨rfl, fun j hj hj' => ?_⟩
    simp only [marginLoop]
    rw [if_neg (by omega), List.getElem?_eq_getElem hj']
  | succ n ih =>
    unfold marginLoop
    have hi : ps.length - (n + 1) < ps.length := by omega
    simp only [List.getElem?_eq_getElem hi]
    have hlen : (rs.modify (ps.length - (n + 1)) (setM (mat ps[ps.length - (n + 1)]))).length = rs.length := by simp
    obtain ⟨h1, h2⟩ := ih (by omega) (rs.modify (ps.length - (n + 1)) (setM (mat ps[ps.length - (n + 1)]))) (by rw [hlen]; exact hl)
    refine ⟨by rw [h1, hlen], fun j hj hj' => ?_⟩
    rw [h2 j hj (by rw [hlen]; exact hj')]
    congr 1
    rw [List.getElem_modify]
    by_cases hc : ps.length - (n + 1) = j
    · subst hc
      rw [if_pos rfl, if_neg (by omega), if_pos (by omega)]
    · rw [if_neg hc]
      by_cases hc' : ps.length - n ≤ j
      · rw [if_pos hc', if_pos (by omega)]
      · rw [if_neg hc', if_neg (by omega)]

theorem marginLoop_zip (setM : M → Q → Q) (mat : Obj × Obj → M) (ps : List (Obj × Obj)) (rs : List Q) (hl : ps.length = rs.length) :
    (marginLoop setM mat ps ps.length rs).length = rs.length ∧
    ps.zip (marginLoop setM mat ps ps.length rs) = (ps.zip rs).map (fun x => (x.1, setM (mat x.1) x.2)) := by
  obtain ⟨h1, h2⟩ := marginLoop_get setM mat ps ps.length (le_refl _) rs hl
  refine ⟨h1, List.ext_getElem? (fun j => ?_)⟩
  by_cases hj : j < ps.length
  · have := h2 j hj (by omega)
    rw [if_pos (by omega)] at this
    simp only [List.zip_eq_zipWith, List.getElem?_zipWith, List.getElem?_map, this, List.getElem?_eq_getElem hj,
      List.getElem?_eq_getElem (show j < rs.length by omega)]
    rfl
  · rw [List.getElem?_eq_none, List.getElem?_eq_none] <;> simp <;> omega

/-- C38: `setRequests` sets the request of each pair, active or not, and changes no pair. -/
theorem C38_requests (r : Q) (s : St Obj Q) (h : Aligned s) :
    Aligned (setRequests r s) ∧ (setRequests r s).dflt = s.dflt ∧ (setRequests r s).c = s.c.map (fun x => (x.1, r)) ∧
      (setRequests r s).p = s.p.map (fun x => (x.1, r)) ∧ (setRequests r s).d = s.d.map (fun x => (x.1, r)) := by
  have z : ∀ (ps : List (Obj × Obj)) (rs : List Q), ps.zip (rs.map fun _ => r) = (ps.zip rs).map fun x => (x.1, r) := by
    intro ps
    induction ps with
    | nil => intro rs; rfl
    | cons a ps ih =>
      intro rs
      cases rs with
      | nil => rfl
      | cons b rs => simp only [List.map_cons, List.zip_cons_cons, ih]
  exact ⟨⟨by simp [setRequests, h.c], by simp [setRequests, h.p], by simp [setRequests, h.d]⟩, rfl, z _ _, z _ _, z _ _⟩

/-- C38: `setSecurityMargins` sets the margin of each pair, active or not, from the matrix, and throws without effect for a matrix
of wrong size. -/
theorem C38_margins (setM : M → Q → Q) (n rows cols : Nat) (mat : Obj × Obj → M) (s : St Obj Q) (h : Aligned s) :
    (rows ≠ n + 1 ∨ cols ≠ n + 1 → setSecurityMargins setM n rows cols mat s = .thrown s) ∧
    (rows = n + 1 → cols = n + 1 → ∃ s', setSecurityMargins setM n rows cols mat s = .ok s' ∧ Aligned s' ∧ s'.dflt = s.dflt ∧
      s'.c = s.c.map (fun x => (x.1, setM (mat x.1) x.2)) ∧ s'.p = s.p.map (fun x => (x.1, setM (mat x.1) x.2)) ∧
      s'.d = s.d.map (fun x => (x.1, setM (mat x.1) x.2))) := by
  refine ⟨fun hs => by unfold setSecurityMargins; rw [if_pos hs], fun h1 h2 => ?_⟩
  unfold setSecurityMargins
  rw [if_neg (by simp [h1, h2])]
  obtain ⟨c1, c2⟩ := marginLoop_zip setM mat s.cP s.cR h.c
  obtain ⟨p1, p2⟩ := marginLoop_zip setM mat s.pP s.pR h.p
  obtain ⟨d1, d2⟩ := marginLoop_zip setM mat s.dP s.dR h.d
  exact ⟨_, rfl, ⟨by rw [c1]; exact h.c, by rw [p1]; exact h.p, by rw [d1]; exact h.d⟩, rfl, c2, p2, d2⟩

theorem setMargin_none (f : Q → Q) (m : Obj × Obj → Bool) (ps : List (Obj × Obj)) (rs : List Q) :
    setMargin f m ps rs = none ↔ ∀ p ∈ ps, m p = false := by
  unfold setMargin
  cases h : ps.findIdx? m with
  | none => simpa using List.findIdx?_eq_none_iff.1 h
  | some i =>
    obtain ⟨hi, h1, -⟩ := List.findIdx?_eq_some_iff_getElem.1 h
    simp only [reduceCtorEq, false_iff, not_forall]
    exact ⟨ps[i], List.getElem_mem hi, by simp [h1]⟩

/-- The first matching pair, and only it, is updated. -/
theorem setMargin_some (f : Q → Q) (m : Obj × Obj → Bool) (L : List ((Obj × Obj) × Q)) (rs' : List Q)
    (h : setMargin f m (L.map Prod.fst) (L.map Prod.snd) = some rs') :
    ∃ A x B, L = A ++ x :: B ∧ (∀ y ∈ A, m y.1 = false) ∧ m x.1 = true ∧ rs' = (A ++ (x.1, f x.2) :: B).map Prod.snd ∧
      L.map Prod.fst = (A ++ (x.1, f x.2) :: B).map Prod.fst := by
  unfold setMargin at h
  cases hi : (L.map Prod.fst).findIdx? m with
  | none => rw [hi] at h; simp at h
  | some i =>
    rw [hi] at h
    simp at h
    obtain ⟨hlt, h1, h2⟩ := List.findIdx?_eq_some_iff_getElem.1 hi
    have hlt' : i < L.length := by simpa using hlt
    have e : L = L.take i ++ L[i] :: L.drop (i + 1) := by simp
    refine ⟨L.take i, L[i], L.drop (i + 1), e, ?_, by simpa using h1, ?_, ?_⟩
    · intro y hy
      obtain ⟨k, hk, rfl⟩ := List.mem_iff_getElem.1 hy
      simp at hk
      have := h2 k (by omega)
      simpa using this
    · rw [← h]
      rw [List.modify_eq_take_cons_drop (by simpa using hlt')]
      simp [List.map_take, List.map_drop]
    · have := congrArg (List.map Prod.fst) e
      rw [List.map_append, List.map_cons] at this
      rw [List.map_append, List.map_cons]
      exact this

/-- C38: `setSecurityMarginBetweenBodies` throws without effect iff no pair matches; otherwise it updates only the first matching pair, active ones
first, then parameterized, then disabled ones. -/
theorem C38_marginBetween (setM : M → Q → Q) (name : Obj → String) (a b : String) (margin : M) (s : St Obj Q) (h : Aligned s) :
    ((∀ x ∈ s.c ++ s.p ++ s.d, matches' name a b x.1 = false) → setSecurityMarginBetweenBodies setM name a b margin s = .thrown s) ∧
    ((∃ x ∈ s.c ++ s.p ++ s.d, matches' name a b x.1 = true) →
      ∃ s' A x B, setSecurityMarginBetweenBodies setM name a b margin s = .ok s' ∧ Aligned s' ∧ s'.dflt = s.dflt ∧
        s'.cP = s.cP ∧ s'.pP = s.pP ∧ s'.dP = s.dP ∧
        s.c ++ s.p ++ s.d = A ++ x :: B ∧ (∀ y ∈ A, matches' name a b y.1 = false) ∧ matches' name a b x.1 = true ∧
        s'.c ++ s'.p ++ s'.d = A ++ (x.1, setM margin x.2) :: B) := by
  have hc := zip_fst_snd s.cP s.cR h.c
  have hp := zip_fst_snd s.pP s.pR h.p
  have hd := zip_fst_snd s.dP s.dR h.d
  have nn : ∀ (ps : List (Obj × Obj)) (rs : List Q), ps.length = rs.length →
      ((∀ p ∈ ps, matches' name a b p = false) ↔ ∀ x ∈ ps.zip rs, matches' name a b x.1 = false) := by
    intro ps rs hl
    have := (zip_fst_snd ps rs hl).1
    conv_lhs => rw [← this]
    simp
  constructor
  · intro hall
    unfold setSecurityMarginBetweenBodies
    rw [(setMargin_none _ _ _ _).2 ((nn _ _ h.c).2 (fun x hx => hall x (by simp [St.c, hx]))),
      (setMargin_none _ _ _ _).2 ((nn _ _ h.p).2 (fun x hx => hall x (by simp [St.p, hx]))),
      (setMargin_none _ _ _ _).2 ((nn _ _ h.d).2 (fun x hx => hall x (by simp [St.d, hx])))]
  · rintro ⟨x0, hx0, hm0⟩
    unfold setSecurityMarginBetweenBodies
    cases h1 : setMargin (setM margin) (matches' name a b) s.cP s.cR with
    | some r =>
      obtain ⟨A, x, B, e1, e2, e3, e4, e5⟩ := setMargin_some (setM margin) (matches' name a b) s.c r
        (by simp only [St.c, hc.1, hc.2]; exact h1)
      rw [show s.c.map Prod.fst = s.cP from hc.1] at e5
      refine ⟨_, A, x, B ++ s.p ++ s.d, rfl, ⟨?_, h.p, h.d⟩, rfl, rfl, rfl, rfl, by rw [e1]; simp, e2, e3, ?_⟩
      · simp only; rw [e5, e4]; simp
      · have : (({ s with cR := r } : St Obj Q)).c = A ++ (x.1, setM margin x.2) :: B := by
          simp only [St.c]; rw [e5, e4]; exact zip_map_map _
        rw [this]
        simp [St.p, St.d]
    | none =>
      have n1 := (nn _ _ h.c).1 ((setMargin_none _ _ _ _).1 h1)
      simp only
      cases h2 : setMargin (setM margin) (matches' name a b) s.pP s.pR with
      | some r =>
        obtain ⟨A, x, B, e1, e2, e3, e4, e5⟩ := setMargin_some (setM margin) (matches' name a b) s.p r
          (by simp only [St.p, hp.1, hp.2]; exact h2)
        rw [show s.p.map Prod.fst = s.pP from hp.1] at e5
        refine ⟨_, s.c ++ A, x, B ++ s.d, rfl, ⟨h.c, ?_, h.d⟩, rfl, rfl, rfl, rfl, by rw [e1]; simp, ?_, e3, ?_⟩
        · simp only; rw [e5, e4]; simp
        · intro y hy
          rcases List.mem_append.1 hy with hy | hy
          · exact n1 y hy
          · exact e2 y hy
        · have : (({ s with pR := r } : St Obj Q)).p = A ++ (x.1, setM margin x.2) :: B := by
            simp only [St.p]; rw [e5, e4]; exact zip_map_map _
          rw [this]
          simp [St.c, St.d]
      | none =>
        have n2 := (nn _ _ h.p).1 ((setMargin_none _ _ _ _).1 h2)
        simp only
        cases h3 : setMargin (setM margin) (matches' name a b) s.dP s.dR with
        | some r =>
          obtain ⟨A, x, B, e1, e2, e3, e4, e5⟩ := setMargin_some (setM margin) (matches' name a b) s.d r
            (by simp only [St.d, hd.1, hd.2]; exact h3)
          rw [show s.d.map Prod.fst = s.dP from hd.1] at e5
          refine ⟨_, s.c ++ s.p ++ A, x, B, rfl, ⟨h.c, h.p, ?_⟩, rfl, rfl, rfl, rfl, by rw [e1]; simp, ?_, e3, ?_⟩
          · simp only; rw [e5, e4]; simp
          · intro y hy
            rcases List.mem_append.1 hy with hy | hy
            · rcases List.mem_append.1 hy with hy | hy
              · exact n1 y hy
              · exact n2 y hy
            · exact e2 y hy
          · have : (({ s with dR := r } : St Obj Q)).d = A ++ (x.1, setM margin x.2) :: B := by
              simp only [St.d]; rw [e5, e4]; exact zip_map_map _
            rw [this]
            simp [St.c, St.p]
        | none =>
          have n3 := (nn _ _ h.d).1 ((setMargin_none _ _ _ _).1 h3)
          exfalso
          simp only [List.mem_append] at hx0
          rcases hx0 with (hx0 | hx0) | hx0
          · rw [n1 x0 hx0] at hm0; simp at hm0
          · rw [n2 x0 hx0] at hm0; simp at hm0
          · rw [n3 x0 hx0] at hm0; simp at hm0

/-! ## Histories -/

/-- Public calls. -/
inductive Op (Obj Q M : Type) where
  | addObstacle (joints : List (Joint Obj)) (o : Obj)
  | addToJoint (b : Bool) (j : Joint Obj) (o : Obj)
  | remove (j : Joint Obj) (o : Obj)
  | filter (rel : Obj × Obj → Motion)
  | margins (rows cols : Nat) (mat : Obj × Obj → M)
  | marginBetween (a b : String) (m : M)
  | requests (r : Q)
  | dflt (r : Q)

def step (setM : M → Q → Q) (name : Obj → String) (n : Nat) (s : St Obj Q) : Op Obj Q M → Out (St Obj Q)
  | .addObstacle joints o => .ok (addObstacle joints o s)
  | .addToJoint b j o => .ok (addObstacleToJoint o b j s)
  | .remove j o => removeObstacleFromJoint j o s
  | .filter rel => filterCollisionPairs rel s
  | .margins rows cols mat => setSecurityMargins setM n rows cols mat s
  | .marginBetween a b m => setSecurityMarginBetweenBodies setM name a b m s
  | .requests r => .ok (setRequests r s)
  | .dflt r => .ok { s with dflt := r }

/-- States reachable by calls, an exception being caught by the caller. -/
inductive Reach (setM : M → Q → Q) (name : Obj → String) (n : Nat) : St Obj Q → St Obj Q → Prop
  | refl (s : St Obj Q) : Reach setM name n s s
  | call {s s' s'' : St Obj Q} (op : Op Obj Q M) : Reach setM name n s s' →
      (step setM name n s' op = .ok s'' ∨ step setM name n s' op = .thrown s'') → Reach setM name n s s''

theorem removeInner_total (o : Obj) (as : List Obj) (s : St Obj Q) (h : Aligned s) :
    ∃ s', (removeInner o as s = .ok s' ∨ removeInner o as s = .thrown s') ∧ Aligned s' ∧ s'.pP = s.pP ∧ s'.dP = s.dP := by
  induction as generalizing s with
  | nil => exact ⟨s, Or.inl rfl, h, rfl, rfl⟩
  | cons a as ih =>
    rw [removeInner_cons o a as s h]
    split
    · obtain ⟨s', h1, h2, h3, h4⟩ := ih (s.rm o a) (rm_aligned s h o a)
      exact ⟨s', h1, h2, h3, h4⟩
    · exact ⟨_, Or.inr rfl, rm_aligned s h o a, rfl, rfl⟩

theorem step_total (setM : M → Q → Q) (name : Obj → String) (n : Nat) (s : St Obj Q) (h : Aligned s) (op : Op Obj Q M) :
    ∃ s', (step setM name n s op = .ok s' ∨ step setM name n s op = .thrown s') ∧ Aligned s' ∧ s.pP <+: s'.pP ∧ s.dP <+: s'.dP := by
  cases op with
  | addObstacle joints o =>
    refine ⟨_, Or.inl rfl, (C38_add joints o s h).1, ?_, ?_⟩ <;> rw [addObstacle_eq] <;> exact List.prefix_refl _
  | addToJoint b j o =>
    refine ⟨_, Or.inl rfl, (C38_addToJoint b j o s h).1, ?_, ?_⟩ <;> rw [addToJoint_eq] <;> exact List.prefix_refl _
  | remove j o =>
    obtain ⟨s', h1, h2, h3, h4⟩ := removeInner_total o j.inner s h
    exact ⟨s', h1, h2, by rw [h3]; exact List.prefix_refl _, by rw [h4]; exact List.prefix_refl _⟩
  | filter rel =>
    obtain ⟨s', h1, h2, -, -, h4, h5⟩ := C38_filter rel s h
    refine ⟨s', Or.inl h1, h2, ?_, ?_⟩
    · have e := congrArg (List.map Prod.fst) h4
      rw [List.map_append, St.p, St.p, (zip_fst_snd _ _ h2.p).1, (zip_fst_snd _ _ h.p).1] at e
      exact ⟨_, e.symm⟩
    · have e := congrArg (List.map Prod.fst) h5
      rw [List.map_append, St.d, St.d, (zip_fst_snd _ _ h2.d).1, (zip_fst_snd _ _ h.d).1] at e
      exact ⟨_, e.symm⟩
  | margins rows cols mat =>
    by_cases hs : rows ≠ n + 1 ∨ cols ≠ n + 1
    · exact ⟨s, Or.inr ((C38_margins setM n rows cols mat s h).1 hs), h, List.prefix_refl _, List.prefix_refl _⟩
    · have hs' : rows = n + 1 ∧ cols = n + 1 := by
        constructor
        · by_contra k; exact hs (Or.inl k)
        · by_contra k; exact hs (Or.inr k)
      obtain ⟨s', h1, h2, -⟩ := (C38_margins setM n rows cols mat s h).2 hs'.1 hs'.2
      refine ⟨s', Or.inl h1, h2, ?_, ?_⟩ <;>
      · unfold setSecurityMargins at h1
        rw [if_neg hs] at h1
        cases h1
        exact List.prefix_refl _
  | marginBetween a b m =>
    obtain ⟨h1, h2⟩ := C38_marginBetween setM name a b m s h
    by_cases hex : ∃ x ∈ s.c ++ s.p ++ s.d, matches' name a b x.1 = true
    · obtain ⟨s', A, x, B, e1, e2, -, -, e4, e5, -⟩ := h2 hex
      exact ⟨s', Or.inl e1, e2, by rw [e4]; exact List.prefix_refl _, by rw [e5]; exact List.prefix_refl _⟩
    · refine ⟨s, Or.inr (h1 (fun x hx => ?_)), h, List.prefix_refl _, List.prefix_refl _⟩
      by_contra hk
      exact hex ⟨x, hx, by simpa using hk⟩
  | requests r => exact ⟨_, Or.inl rfl, ⟨by simp [setRequests, h.c], by simp [setRequests, h.p], by simp [setRequests, h.d]⟩,
      List.prefix_refl _, List.prefix_refl _⟩
  | dflt r => exact ⟨_, Or.inl rfl, ⟨h.c, h.p, h.d⟩, List.prefix_refl _, List.prefix_refl _⟩

/-- C38, histories: after any sequence of public calls, including calls that throw, each list of pairs has as many requests, no call
has undefined behaviour, and pairs once parameterized or disabled never leave their list. -/
theorem C38_history (setM : M → Q → Q) (name : Obj → String) (n : Nat) (dflt : Q) (ps : List (Obj × Obj)) (s : St Obj Q)
    (h : Reach setM name n (initial dflt ps) s) :
    Aligned s ∧ (∀ op, step setM name n s op ≠ .ub) ∧
    ∀ op s', (step setM name n s op = .ok s' ∨ step setM name n s op = .thrown s') → s.pP <+: s'.pP ∧ s.dP <+: s'.dP := by
  have hal : Aligned s := by
    induction h with
    | refl => exact ⟨by simp [initial], rfl, rfl⟩
    | call op _ hstep ih =>
      obtain ⟨s1, h1, h2, -⟩ := step_total setM name n _ ih op
      rcases h1 with h1 | h1 <;> rcases hstep with h3 | h3 <;> rw [h1] at h3 <;> cases h3 <;> exact h2
  refine ⟨hal, ?_, ?_⟩
  · intro op hub
    obtain ⟨s1, h1, -⟩ := step_total setM name n s hal op
    rcases h1 with h1 | h1 <;> rw [h1] at hub <;> cases hub
  · intro op s' hs
    obtain ⟨s1, h1, -, h2⟩ := step_total setM name n s hal op
    rcases h1 with h1 | h1 <;> rcases hs with h3 | h3 <;> rw [h1] at h3 <;> cases h3 <;> exact h2

end

/-! ## Examples and counterexamples -/

/-- Two bodies 1 and 2 (objects), an obstacle 10 on the fixed frame. -/
def exSt : St Nat Nat := addObstacle [.mk [1] [], .mk [2, 3] []] 10 (initial 0 [(1, 2)])

example : exSt.c = [((1, 2), 0), ((1, 10), 0), ((2, 10), 0), ((3, 10), 0)] := by decide
example : Aligned exSt := ⟨by decide, by decide, by decide⟩

/-- Outcome as data, for the examples. -/
def Out.view {S : Type} : Out S → Option (Bool × S)
  | .ok s => some (true, s)
  | .thrown s => some (false, s)
  | .ub => none

example : ((filterCollisionPairs (fun p => if p = (1, 10) then .constrained else if p.1 = 2 then .parameterized else .unconstrained) exSt).view.map
    (fun r => (r.2.c, r.2.p, r.2.d))) = some ([((1, 2), 0), ((3, 10), 0)], [((2, 10), 0)], [((1, 10), 0)]) := by rfl

/-- An obstacle whose pair was disabled cannot be removed: the call throws and the pair stays. -/
theorem C38_remove_filtered_counterexample :
    (match filterCollisionPairs (fun p => if p = (1, 10) then .constrained else .unconstrained) exSt with
      | .ok s => (removeObstacleFromJoint (.mk [1] []) 10 s).view.map (fun r => (r.1, r.2.dP))
      | _ => none) = some (false, [(1, 10)]) := by decide

/-- A removal that throws is not atomic: the pairs of the objects met before are gone. -/
theorem C38_remove_atomic_counterexample :
    (match filterCollisionPairs (fun p => if p = (3, 10) then .constrained else .unconstrained) exSt with
      | .ok s => (removeObstacleFromJoint (.mk [2, 3] []) 10 s).view.map (fun r => (r.1, r.2.cP))
      | _ => none) = some (false, [(1, 2), (1, 10)]) := by decide

/-- Only the first of two pairs between the same bodies gets the margin. -/
theorem C38_marginBetween_counterexample :
    (setSecurityMarginBetweenBodies (fun m _ => m) (fun o => if o ≤ 3 then "robot" else "obstacle") "obstacle" "robot" 7 exSt).view.map
      (fun r => (r.1, r.2.c)) = some (true, [((1, 2), 0), ((1, 10), 7), ((2, 10), 0), ((3, 10), 0)]) := by decide

end Verif.Obst
