import Verif.Obstacles.Basic
set_option linter.unusedSectionVars false

/-!
# Obstacles in continuous validation (C65)

`intervalValidations_` is a vector of pointers; an element is a `BodyPairCollision` (`pair`) or another kind of `IntervalValidation`
(`other`).  Elements are values here: no two elements share their pairs.
-/
namespace Verif.Obst.Cont

/-- `BodyPairCollision` with what the bookkeeping reads and writes: indices of the joints, pairs of objects, requests. -/
structure BPair (Obj Q : Type) where
  ia : Int
  ib : Int
  prs : List (Obj × Obj)
  rqs : List Q

/-- `IntervalValidation`, cast or not to `BodyPairCollision` by `HPP_DYNAMIC_PTR_CAST`. -/
inductive IV (Obj Q : Type) where
  | pair (b : BPair Obj Q)
  | other (id : Nat)

/-- `intervalValidations_`, `disabledBodyPairCollisions_`: include/hpp/core/continuous-validation.hh. -/
structure St (Obj Q : Type) where
  ivs : List (IV Obj Q)
  disabled : List (BPair Obj Q)

section
variable {Obj Q M : Type} [DecidableEq Obj]

/-- Loop of `SolidSolidCollision::removeObjectTo_b`: src/continuous-validation/solid-solid-collision.cc:108-116.  A moved-from element
keeps its value (it is erased or overwritten before being read again). -/
def compactLoop (o : Obj) (s : Nat) : Nat → Nat → List (Obj × Obj) → List Q → Nat × List (Obj × Obj) × List Q
  | 0, last, prs, rqs => (last, prs, rqs)
  | f + 1, last, prs, rqs =>
    let i := s - (f + 1)
    match prs[i]?, rqs[i]? with
    | some p, some r =>
      if o ≠ p.2 then
        if last ≠ i then compactLoop o s f (last + 1) (prs.set last p) (rqs.set last r)
        else compactLoop o s f (last + 1) prs rqs
      else compactLoop o s f last prs rqs
    | _, _ => compactLoop o s f last prs rqs

/-- `SolidSolidCollision::removeObjectTo_b`: solid-solid-collision.cc:101-121. -/
def removeObjectTo_b (o : Obj) (b : BPair Obj Q) : Bool × BPair Obj Q :=
  let r := compactLoop o b.prs.length b.prs.length 0 b.prs b.rqs
  (r.1 ≠ b.prs.length, { b with prs := r.2.1.take r.1, rqs := r.2.2.take r.1 })

/-- Loop of `ContinuousValidation::removeObstacleFromJoint`: src/continuous-validation.cc:228-243.  `erase (itPair)` invalidates `itPair`, which
the `for` then increments: undefined behaviour.  `done` holds the elements already visited, in reverse order. -/
def removeLoop (j : Int) (o : Obj) : List (IV Obj Q) → List (IV Obj Q) → Bool → Option (List (IV Obj Q) × Bool)
  | [], done, removed => some (done.reverse, removed)
  | .other id :: l, done, removed => removeLoop j o l (.other id :: done) removed
  | .pair b :: l, done, removed =>
    if b.ia = j ∧ b.ib = 0 then
      let r := removeObjectTo_b o b
      if r.1 then
        if r.2.prs = [] then none else removeLoop j o l (.pair r.2 :: done) true
      else removeLoop j o l (.pair r.2 :: done) removed
    else removeLoop j o l (.pair b :: done) removed

/-- `ContinuousValidation::removeObstacleFromJoint`: continuous-validation.cc:224-251. -/
def removeObstacleFromJoint (j : Int) (o : Obj) (s : St Obj Q) : Out (St Obj Q) :=
  match removeLoop j o s.ivs [] false with
  | none => .ub
  | some (l, true) => .ok { s with ivs := l }
  | some (l, false) => .thrown { s with ivs := l }

/-- Loop of `filterCollisionPairs`: continuous-validation.cc:270-297; `rel` is the matrix. `none`: not finished within `f` iterations.  An
element that is not a body pair is visited again for ever (line 274: `continue` without increment). -/
def filterLoop (rel : Int → Int → Motion) : Nat → Nat → St Obj Q → Option (St Obj Q)
  | 0, i, s => if i < s.ivs.length then none else some s
  | f + 1, i, s => match s.ivs[i]? with
    | none => some s
    | some (.other _) => filterLoop rel f i s
    | some (.pair b) =>
      if b.ia < 0 ∨ b.ib < 0 then filterLoop rel f (i + 1) s
      else match rel b.ia b.ib with
        | .parameterized => filterLoop rel f i { ivs := s.ivs.eraseIdx i, disabled := s.disabled ++ [b] }
        | .constrained => filterLoop rel f i { ivs := s.ivs.eraseIdx i, disabled := s.disabled ++ [b] }
        | .unconstrained => filterLoop rel f (i + 1) s
        | .other => filterLoop rel f (i + 1) s

/-- `ContinuousValidation::setSecurityMargins`: continuous-validation.cc:301-330; `BodyPairCollision::securityMargin` sets the margin of every
request. -/
def setSecurityMargins (setM : M → Q → Q) (n rows cols : Nat) (mat : Int → Int → M) (s : St Obj Q) : Out (St Obj Q) :=
  if rows ≠ n + 1 ∨ cols ≠ n + 1 then .thrown s
  else .ok { s with ivs := s.ivs.map (fun
    | .pair b => .pair { b with rqs := b.rqs.map (setM (mat b.ia b.ib)) }
    | .other id => .other id) }

/-- Inner loop of `setSecurityMarginBetweenBodies`: continuous-validation.cc:344-351. -/
def marginLoop (f : Q → Q) (m : Obj × Obj → Bool) (prs : List (Obj × Obj)) : Nat → List Q → Bool → List Q × Bool
  | 0, rqs, found => (rqs, found)
  | n + 1, rqs, found =>
    let i := prs.length - (n + 1)
    match prs[i]? with
    | none => marginLoop f m prs n rqs found
    | some p => if m p then marginLoop f m prs n (rqs.modify i f) true else marginLoop f m prs n rqs found

/-- Outer loop: continuous-validation.cc:337-352. -/
def betweenLoop (f : Q → Q) (m : Obj × Obj → Bool) : List (IV Obj Q) → Bool → List (IV Obj Q) × Bool
  | [], found => ([], found)
  | .other id :: l, found => let r := betweenLoop f m l found; (.other id :: r.1, r.2)
  | .pair b :: l, found =>
    let q := marginLoop f m b.prs b.prs.length b.rqs found
    let r := betweenLoop f m l q.2
    (.pair { b with rqs := q.1 } :: r.1, r.2)

/-- `setSecurityMarginBetweenBodies`: continuous-validation.cc:332-364; `found` starts at `true` (line 336). -/
def setSecurityMarginBetweenBodies (setM : M → Q → Q) (name : Obj → String) (a b : String) (margin : M) (s : St Obj Q) : Out (St Obj Q) :=
  let r := betweenLoop (setM margin) (matches' name a b) s.ivs true
  if r.2 then .ok { s with ivs := r.1 } else .thrown { s with ivs := r.1 }

/-- `AddObstacle::doExecute` and `SolidSolidCollision::create (joint, objects, tolerance)`: continuous-validation.cc:103-118; a joint is its index and the
objects of its body if it has one; the new pair is between this body and the (fixed, index 0) obstacle. -/
def addObstacle (dflt : Q) (joints : List (Int × Option (List Obj))) (o : Obj) (s : St Obj Q) : St Obj Q :=
  joints.foldl (fun s j => match j.2 with
    | none => s
    | some inner => { s with ivs := s.ivs ++
        [.pair { ia := j.1, ib := 0, prs := inner.map (fun a => (a, o)), rqs := inner.map (fun _ => dflt) }] }) s

/-! ## Specification -/

def BPair.zip (b : BPair Obj Q) : List ((Obj × Obj) × Q) := b.prs.zip b.rqs

/-- Lists of pairs and requests of the same length. -/
def BPair.Aligned (b : BPair Obj Q) : Prop := b.prs.length = b.rqs.length

def Aligned (s : St Obj Q) : Prop := (∀ b, IV.pair b ∈ s.ivs → b.Aligned) ∧ ∀ b ∈ s.disabled, b.Aligned

/-! ## Removing an object from a body pair -/

theorem compactLoop_spec (o : Obj) (s f : Nat) (last : Nat) (prs : List (Obj × Obj)) (rqs : List Q) (hp : prs.length = s) (hr : rqs.length = s)
    (hf : f ≤ s) (hl : last ≤ s - f) :
    let r := compactLoop o s f last prs rqs
    r.1 ≤ s ∧ r.2.1.length = s ∧ r.2.2.length = s ∧
    (r.2.1.take r.1).zip (r.2.2.take r.1) =
      (prs.take last).zip (rqs.take last) ++ ((prs.drop (s - f)).zip (rqs.drop (s - f))).filter (fun x => x.1.2 ≠ o) := by
  induction f generalizing last prs rqs with
  | zero =>
    simp only [compactLoop, Nat.sub_zero] at *
    refine ⟨hl, hp, hr, ?_⟩
    rw [List.drop_eq_nil_of_le (by omega)]
    simp
  | succ f ih =>
    have hi : s - (f + 1) < s := by omega
    have e1 : prs[s - (f + 1)]? = some (prs[s - (f + 1)]'(by omega)) := List.getElem?_eq_getElem _
    have e2 : rqs[s - (f + 1)]? = some (rqs[s - (f + 1)]'(by omega)) := List.getElem?_eq_getElem _
    have hs : s - (f + 1) + 1 = s - f := by omega
    have d1 : prs.drop (s - (f + 1)) = (prs[s - (f + 1)]'(by omega)) :: prs.drop (s - f) := by
      rw [List.drop_eq_getElem_cons (by omega), hs]
    have d2 : rqs.drop (s - (f + 1)) = (rqs[s - (f + 1)]'(by omega)) :: rqs.drop (s - f) := by
      rw [List.drop_eq_getElem_cons (by omega), hs]
    generalize hpv : prs[s - (f + 1)]'(by omega) = pv at *
    generalize hrv : rqs[s - (f + 1)]'(by omega) = rv at *
    unfold compactLoop
    simp only [e1, e2]
    rw [d1, d2]
    by_cases ho : o = pv.2
    · rw [if_neg (by simpa using ho)]
      obtain ⟨h1, h2, h3, h4⟩ := ih last prs rqs hp hr (by omega) (by omega)
      refine ⟨h1, h2, h3, ?_⟩
      rw [h4]
      simp [ho]
    · rw [if_pos ho]
      by_cases hli : last = s - (f + 1)
      · rw [if_neg (by simpa using hli)]
        obtain ⟨h1, h2, h3, h4⟩ := ih (last + 1) prs rqs hp hr (by omega) (by omega)
        refine ⟨h1, h2, h3, ?_⟩
        rw [h4, hli, hs, ← hs, List.take_add_one, List.take_add_one, e1, e2, List.zip_append (by simp; omega)]
        simp [Ne.symm ho]
      · rw [if_pos hli]
        obtain ⟨h1, h2, h3, h4⟩ := ih (last + 1) (prs.set last pv) (rqs.set last rv) (by simpa using hp) (by simpa using hr)
          (by omega) (by omega)
        refine ⟨h1, h2, h3, ?_⟩
        rw [h4, List.drop_set_of_lt (by omega), List.drop_set_of_lt (by omega), List.take_add_one, List.take_add_one,
          List.take_set_of_le (le_refl _), List.take_set_of_le (le_refl _),
          List.getElem?_set_self (by omega), List.getElem?_set_self (by omega), List.zip_append (by simp; omega)]
        simp [Ne.symm ho]

theorem zip_fst_snd' {A B : Type} (l : List A) (r : List B) (h : l.length = r.length) : (l.zip r).map Prod.fst = l ∧ (l.zip r).map Prod.snd = r :=
  ⟨List.map_fst_zip (le_of_eq h), List.map_snd_zip (le_of_eq h.symm)⟩

/-- C65: `removeObjectTo_b` removes all the pairs with this object and only them, keeps the order and the requests, and tells whether it
removed any. -/
theorem C65_removeObject (o : Obj) (b : BPair Obj Q) (h : b.Aligned) :
    (removeObjectTo_b o b).2.Aligned ∧ (removeObjectTo_b o b).2.zip = b.zip.filter (fun x => x.1.2 ≠ o) ∧
    ((removeObjectTo_b o b).1 = true ↔ ∃ p ∈ b.prs, p.2 = o) ∧
    (removeObjectTo_b o b).2.ia = b.ia ∧ (removeObjectTo_b o b).2.ib = b.ib ∧
    ((removeObjectTo_b o b).2.prs = [] ↔ ∀ p ∈ b.prs, p.2 = o) := by
  obtain ⟨h1, h2, h3, h4⟩ := compactLoop_spec o b.prs.length b.prs.length 0 b.prs b.rqs rfl h.symm (le_refl _) (by omega)
  simp only [Nat.sub_self, List.take_zero, List.zip_nil_left, List.nil_append, List.drop_zero] at h4
  generalize hr : compactLoop o b.prs.length b.prs.length 0 b.prs b.rqs = r at *
  have hal : (removeObjectTo_b o b).2.Aligned := by
    simp only [removeObjectTo_b, hr, BPair.Aligned, List.length_take]; omega
  have hz : (removeObjectTo_b o b).2.zip = b.zip.filter (fun x => x.1.2 ≠ o) := by
    simp only [removeObjectTo_b, hr, BPair.zip]; exact h4
  have hlen : r.1 = (b.zip.filter (fun x => x.1.2 ≠ o)).length := by
    rw [← hz]
    simp only [removeObjectTo_b, hr, BPair.zip, List.length_zip, List.length_take]; omega
  have hbz : b.zip.length = b.prs.length := by
    unfold BPair.Aligned at h
    simp only [BPair.zip, List.length_zip]; omega
  have hmem : ∀ P : Obj × Obj → Prop, (∀ p ∈ b.prs, P p) ↔ ∀ x ∈ b.zip, P x.1 := by
    intro P
    conv_lhs => rw [← (zip_fst_snd' b.prs b.rqs h).1]
    simp [BPair.zip]
  refine ⟨hal, hz, ?_, rfl, rfl, ?_⟩
  · have : (removeObjectTo_b o b).1 = true ↔ r.1 ≠ b.prs.length := by simp [removeObjectTo_b, hr]
    rw [this, hlen, ← hbz, Ne, List.length_filter_eq_length_iff]
    rw [← not_iff_not, not_not]
    push Not
    rw [hmem (fun p => p.2 ≠ o)]
    simp
  · have : (removeObjectTo_b o b).2.prs = [] ↔ (removeObjectTo_b o b).2.zip = [] := by
      constructor
      · intro he; simp [BPair.zip, he]
      · intro he
        have := (zip_fst_snd' _ _ hal).1
        rw [← this]
        unfold BPair.zip at he
        rw [he]; rfl
    rw [this, hz, List.filter_eq_nil_iff, hmem (fun p => p.2 = o)]
    simp

/-! ## Removing an obstacle from a joint -/

/-- Elements concerned by the removal. -/
def Concerned (j : Int) (b : BPair Obj Q) : Prop := b.ia = j ∧ b.ib = 0

instance (j : Int) (b : BPair Obj Q) : Decidable (Concerned j b) := by unfold Concerned; infer_instance

/-- Removal of the obstacle as specified. -/
def strip (j : Int) (o : Obj) : IV Obj Q → IV Obj Q
  | .pair b =>
    let z := b.zip.filter (fun x => x.1.2 ≠ o)
    if Concerned j b then .pair { b with prs := z.map Prod.fst, rqs := z.map Prod.snd } else .pair b
  | .other id => .other id

theorem remove_eq_strip (j : Int) (o : Obj) (b : BPair Obj Q) (h : b.Aligned) (hc : Concerned j b) :
    IV.pair (removeObjectTo_b o b).2 = strip j o (.pair b) := by
  obtain ⟨h1, h2, -, h4, h5, -⟩ := C65_removeObject o b h
  unfold strip
  simp only
  rw [if_pos hc, ← h2]
  have := zip_fst_snd' _ _ h1
  unfold BPair.zip
  rw [this.1, this.2]
  rfl

theorem removeLoop_spec (j : Int) (o : Obj) (l done : List (IV Obj Q)) (removed : Bool) (h : ∀ b, IV.pair b ∈ l → b.Aligned) :
    ((∃ b, IV.pair b ∈ l ∧ Concerned j b ∧ b.prs ≠ [] ∧ ∀ p ∈ b.prs, p.2 = o) → removeLoop j o l done removed = none) ∧
    ((¬ ∃ b, IV.pair b ∈ l ∧ Concerned j b ∧ b.prs ≠ [] ∧ ∀ p ∈ b.prs, p.2 = o) →
      ∃ r, removeLoop j o l done removed = some (done.reverse ++ l.map (strip j o), r) ∧
        (r = true ↔ removed = true ∨ ∃ b, IV.pair b ∈ l ∧ Concerned j b ∧ ∃ p ∈ b.prs, p.2 = o)) := by
  induction l generalizing done removed with
  | nil => simp [removeLoop]
  | cons x l ih =>
    have hl : ∀ b, IV.pair b ∈ l → b.Aligned := fun b hb => h b (List.mem_cons_of_mem _ hb)
    cases x with
    | other id =>
      obtain ⟨i1, i2⟩ := ih (.other id :: done) removed hl
      simp only [removeLoop]
      constructor
      · rintro ⟨b, hb, h'⟩
        exact i1 ⟨b, by simpa using hb, h'⟩
      · intro hn
        obtain ⟨r, r1, r2⟩ := i2 (fun ⟨b, hb, h'⟩ => hn ⟨b, by simp [hb], h'⟩)
        refine ⟨r, by rw [r1]; simp [strip], ?_⟩
        rw [r2]; simp
    | pair b =>
      have hb : b.Aligned := h b (by simp)
      simp only [removeLoop]
      by_cases hc : Concerned j b
      · rw [if_pos (show b.ia = j ∧ b.ib = 0 from hc)]
        obtain ⟨s1, s2, s3, s4, s5, s6⟩ := C65_removeObject o b hb
        by_cases hr : (removeObjectTo_b o b).1 = true
        · rw [if_pos hr]
          by_cases he : (removeObjectTo_b o b).2.prs = []
          · rw [if_pos he]
            obtain ⟨p, hp, -⟩ := s3.1 hr
            refine ⟨fun _ => rfl, fun hn => absurd ?_ hn⟩
            exact ⟨b, by simp, hc, List.ne_nil_of_mem hp, s6.1 he⟩
          · rw [if_neg he]
            obtain ⟨i1, i2⟩ := ih (.pair (removeObjectTo_b o b).2 :: done) true hl
            constructor
            · rintro ⟨b', hb', h'⟩
              rcases List.mem_cons.1 hb' with hb' | hb'
              · cases hb'
                exact absurd (s6.2 h'.2.2) he
              · exact i1 ⟨b', hb', h'⟩
            · intro hn
              obtain ⟨r, r1, r2⟩ := i2 (fun ⟨b', hb', h'⟩ => hn ⟨b', by simp [hb'], h'⟩)
              refine ⟨r, by rw [r1, remove_eq_strip j o b hb hc]; simp, ?_⟩
              rw [r2]
              simp only [true_or, true_iff]
              exact Or.inr ⟨b, by simp, hc, s3.1 hr⟩
        · rw [if_neg hr]
          obtain ⟨i1, i2⟩ := ih (.pair (removeObjectTo_b o b).2 :: done) removed hl
          constructor
          · rintro ⟨b', hb', h'⟩
            rcases List.mem_cons.1 hb' with hb' | hb'
            · cases hb'
              obtain ⟨p, hp⟩ := List.exists_mem_of_ne_nil _ h'.2.1
              exact absurd (s3.2 ⟨p, hp, h'.2.2 p hp⟩) hr
            · exact i1 ⟨b', hb', h'⟩
          · intro hn
            obtain ⟨r, r1, r2⟩ := i2 (fun ⟨b', hb', h'⟩ => hn ⟨b', by simp [hb'], h'⟩)
            refine ⟨r, by rw [r1, remove_eq_strip j o b hb hc]; simp, ?_⟩
            rw [r2]
            constructor
            · rintro (h' | ⟨b', hb', h'⟩)
              · exact Or.inl h'
              · exact Or.inr ⟨b', by simp [hb'], h'⟩
            · rintro (h' | ⟨b', hb', h'⟩)
              · exact Or.inl h'
              · rcases List.mem_cons.1 hb' with hb' | hb'
                · cases hb'
                  exact absurd (s3.2 h'.2) hr
                · exact Or.inr ⟨b', hb', h'⟩
      · have hc' : ¬ (b.ia = j ∧ b.ib = 0) := hc
        rw [if_neg hc']
        obtain ⟨i1, i2⟩ := ih (.pair b :: done) removed hl
        constructor
        · rintro ⟨b', hb', h'⟩
          rcases List.mem_cons.1 hb' with hb' | hb'
          · cases hb'
            exact absurd h'.1 hc
          · exact i1 ⟨b', hb', h'⟩
        · intro hn
          obtain ⟨r, r1, r2⟩ := i2 (fun ⟨b', hb', h'⟩ => hn ⟨b', by simp [hb'], h'⟩)
          refine ⟨r, by rw [r1]; simp [strip, hc], ?_⟩
          rw [r2]
          constructor
          · rintro (h' | ⟨b', hb', h'⟩)
            · exact Or.inl h'
            · exact Or.inr ⟨b', by simp [hb'], h'⟩
          · rintro (h' | ⟨b', hb', h'⟩)
            · exact Or.inl h'
            · rcases List.mem_cons.1 hb' with hb' | hb'
              · cases hb'
                exact absurd h'.1 hc
              · exact Or.inr ⟨b', hb', h'⟩

/-- C65, partial: provided the obstacle is not alone in a body pair of the joint, `removeObstacleFromJoint` removes the obstacle from all
the body pairs between the joint and the fixed frame and nothing else, and throws, without effect, iff it was not there. -/
theorem C65_remove_partial (j : Int) (o : Obj) (s : St Obj Q) (h : Aligned s)
    (hn : ¬ ∃ b, IV.pair b ∈ s.ivs ∧ Concerned j b ∧ b.prs ≠ [] ∧ ∀ p ∈ b.prs, p.2 = o) :
    ((∃ b, IV.pair b ∈ s.ivs ∧ Concerned j b ∧ ∃ p ∈ b.prs, p.2 = o) →
      removeObstacleFromJoint j o s = .ok { s with ivs := s.ivs.map (strip j o) }) ∧
    ((¬ ∃ b, IV.pair b ∈ s.ivs ∧ Concerned j b ∧ ∃ p ∈ b.prs, p.2 = o) → removeObstacleFromJoint j o s = .thrown s) := by
  obtain ⟨r, r1, r2⟩ := (removeLoop_spec j o s.ivs [] false h.1).2 hn
  simp only [List.reverse_nil, List.nil_append] at r1
  constructor
  · intro he
    have : r = true := r2.2 (Or.inr he)
    unfold removeObstacleFromJoint
    rw [r1, this]
  · intro he
    have hr : r = false := by
      cases r with
      | false => rfl
      | true =>
        rcases r2.1 rfl with h' | h'
        · cases h'
        · exact absurd h' he
    unfold removeObstacleFromJoint
    rw [r1, hr]
    have : s.ivs.map (strip j o) = s.ivs := by
      conv_rhs => rw [← List.map_id s.ivs]
      apply List.map_congr_left
      intro x hx
      cases x with
      | other id => rfl
      | pair b =>
        unfold strip
        simp only
        by_cases hc : Concerned j b
        · rw [if_pos hc]
          have hf : b.zip.filter (fun x => x.1.2 ≠ o) = b.zip := by
            rw [List.filter_eq_self]
            intro x hxz
            have : x.1 ∈ b.prs := by
              rw [← (zip_fst_snd' b.prs b.rqs (h.1 b hx)).1]
              exact List.mem_map_of_mem hxz
            simp only [decide_eq_true_eq]
            exact fun he' => he ⟨b, hx, hc, x.1, this, he'⟩
          rw [hf]
          have := zip_fst_snd' b.prs b.rqs (h.1 b hx)
          unfold BPair.zip
          rw [this.1, this.2]; rfl
        · rw [if_neg hc]; rfl
    rw [this]

/-- The code violates C65 otherwise: as soon as a body pair becomes empty, the iterator of the loop is used after having been
invalidated. -/
theorem C65_remove_ub (j : Int) (o : Obj) (s : St Obj Q) (h : Aligned s) (b : BPair Obj Q) (hb : IV.pair b ∈ s.ivs) (hc : Concerned j b)
    (hne : b.prs ≠ []) (hall : ∀ p ∈ b.prs, p.2 = o) : removeObstacleFromJoint j o s = .ub := by
  unfold removeObstacleFromJoint
  rw [(removeLoop_spec j o s.ivs [] false h.1).1 ⟨b, hb, hc, hne, hall⟩]

theorem addObstacle_ivs (dflt : Q) (joints : List (Int × Option (List Obj))) (o : Obj) (s : St Obj Q) :
    addObstacle dflt joints o s = { s with ivs := s.ivs ++ joints.filterMap (fun j => j.2.map (fun inner =>
      IV.pair { ia := j.1, ib := 0, prs := inner.map (fun a => (a, o)), rqs := inner.map (fun _ => dflt) })) } := by
  induction joints generalizing s with
  | nil => simp [addObstacle]
  | cons j js ih =>
    unfold addObstacle
    rw [List.foldl_cons]
    change addObstacle dflt js o _ = _
    rw [ih]
    cases h : j.2 <;> simp [h]

/-- C65: `addObstacle` adds one body pair, with the default request, for each joint with a body, and changes nothing else. -/
theorem C65_add (dflt : Q) (joints : List (Int × Option (List Obj))) (o : Obj) (s : St Obj Q) (h : Aligned s) :
    Aligned (addObstacle dflt joints o s) ∧ (addObstacle dflt joints o s).disabled = s.disabled ∧
    (addObstacle dflt joints o s).ivs = s.ivs ++ joints.filterMap (fun j => j.2.map (fun inner =>
      IV.pair { ia := j.1, ib := 0, prs := inner.map (fun a => (a, o)), rqs := inner.map (fun _ => dflt) })) := by
  rw [addObstacle_ivs]
  refine ⟨⟨?_, h.2⟩, rfl, rfl⟩
  intro b hb
  rcases List.mem_append.1 hb with hb | hb
  · exact h.1 b hb
  · obtain ⟨j, -, hj⟩ := List.mem_filterMap.1 hb
    cases hj2 : j.2 with
    | none => rw [hj2] at hj; simp at hj
    | some inner =>
      rw [hj2] at hj
      simp only [Option.map_some, Option.some.injEq, IV.pair.injEq] at hj
      subst hj
      simp [BPair.Aligned]

/-- C65: consequently an obstacle just added with `addObstacle` can be removed from no joint with a non-empty body. -/
theorem C65_add_remove_counterexample (dflt : Q) (joints : List (Int × Option (List Obj))) (o : Obj) (s : St Obj Q) (h : Aligned s)
    (j : Int) (a : Obj) (as : List Obj) (hj : (j, some (a :: as)) ∈ joints) :
    removeObstacleFromJoint j o (addObstacle dflt joints o s) = .ub := by
  obtain ⟨h1, -, h2⟩ := C65_add dflt joints o s h
  refine C65_remove_ub j o _ h1
    { ia := j, ib := 0, prs := (a :: as).map (fun a => (a, o)), rqs := (a :: as).map (fun _ => dflt) } ?_ ⟨rfl, rfl⟩ (by simp) (by simp)
  rw [h2]
  refine List.mem_append_right _ (List.mem_filterMap.2 ⟨_, hj, rfl⟩)

/-! ## Filtering -/

/-- Body pairs disabled by the filter. -/
def Dropped (rel : Int → Int → Motion) (b : BPair Obj Q) : Bool :=
  0 ≤ b.ia && 0 ≤ b.ib && (rel b.ia b.ib = .parameterized || rel b.ia b.ib = .constrained)

def keepIV (rel : Int → Int → Motion) : IV Obj Q → Bool
  | .pair b => !Dropped rel b
  | .other _ => true

def droppedOf (rel : Int → Int → Motion) : IV Obj Q → Option (BPair Obj Q)
  | .pair b => if Dropped rel b then some b else none
  | .other _ => none

theorem filterLoop_spec (rel : Int → Int → Motion) (f : Nat) (done : List (IV Obj Q)) (l : List (IV Obj Q)) (dis : List (BPair Obj Q))
    (hl : ∀ x ∈ l, ∃ b, x = IV.pair b) (hf : l.length ≤ f) :
    filterLoop rel f done.length { ivs := done ++ l, disabled := dis } =
      some { ivs := done ++ l.filter (keepIV rel), disabled := dis ++ l.filterMap (droppedOf rel) } := by
  induction l generalizing f done dis with
  | nil =>
    cases f with
    | zero => simp [filterLoop]
    | succ f => simp [filterLoop]
  | cons x l ih =>
    cases f with
    | zero => simp at hf
    | succ f =>
      obtain ⟨b, rfl⟩ := hl x (by simp)
      have hl' : ∀ x ∈ l, ∃ b, x = IV.pair b := fun x hx => hl x (List.mem_cons_of_mem _ hx)
      have hf' : l.length ≤ f := by simpa using hf
      have keep : Dropped rel b = false → filterLoop rel f (done.length + 1) { ivs := done ++ IV.pair b :: l, disabled := dis } =
          some { ivs := done ++ (IV.pair b :: l).filter (keepIV rel), disabled := dis ++ (IV.pair b :: l).filterMap (droppedOf rel) } := by
        intro hd
        have := ih f (done ++ [IV.pair b]) dis hl' hf'
        rw [List.length_append] at this
        simp only [List.length_cons, List.length_nil, Nat.zero_add, List.append_assoc, List.cons_append, List.nil_append] at this
        rw [this]
        simp [keepIV, droppedOf, hd]
      have drop : Dropped rel b = true → filterLoop rel f done.length
            { ivs := (done ++ IV.pair b :: l).eraseIdx done.length, disabled := dis ++ [b] } =
          some { ivs := done ++ (IV.pair b :: l).filter (keepIV rel), disabled := dis ++ (IV.pair b :: l).filterMap (droppedOf rel) } := by
        intro hd
        have e : (done ++ IV.pair b :: l).eraseIdx done.length = done ++ l := by
          simp [List.eraseIdx_append_of_length_le]
        rw [e, ih f done (dis ++ [b]) hl' hf']
        simp [keepIV, droppedOf, hd]
      unfold filterLoop
      simp only [List.getElem?_append_right (le_refl _), Nat.sub_self, List.getElem?_cons_zero]
      by_cases hneg : b.ia < 0 ∨ b.ib < 0
      · rw [if_pos hneg]
        refine keep ?_
        rcases hneg with hneg | hneg <;> simp [Dropped] <;> omega
      · rw [if_neg hneg]
        have hneg : 0 ≤ b.ia ∧ 0 ≤ b.ib := by omega
        cases hrel : rel b.ia b.ib with
        | parameterized => exact drop (by simp [Dropped, hneg.1, hneg.2, hrel])
        | constrained => exact drop (by simp [Dropped, hneg.1, hneg.2, hrel])
        | unconstrained => exact keep (by simp [Dropped, hrel])
        | other => exact keep (by simp [Dropped, hrel])

/-- C65, partial: when all validations are body pairs, `filterCollisionPairs` ends after one iteration per element and moves exactly the pairs whose joints
are rigidly linked (up to a parameter or not) to the disabled list, in order, with their requests. -/
theorem C65_filter_partial (rel : Int → Int → Motion) (s : St Obj Q) (hl : ∀ x ∈ s.ivs, ∃ b, x = IV.pair b) (f : Nat) (hf : s.ivs.length ≤ f) :
    filterLoop rel f 0 s = some { ivs := s.ivs.filter (keepIV rel), disabled := s.disabled ++ s.ivs.filterMap (droppedOf rel) } := by
  have := filterLoop_spec rel f [] s.ivs s.disabled hl hf
  simpa using this

theorem filterLoop_stuck (rel : Int → Int → Motion) (f : Nat) (i : Nat) (s : St Obj Q) (id : Nat) (h : s.ivs[i]? = some (.other id)) :
    filterLoop rel f i s = none := by
  induction f with
  | zero =>
    unfold filterLoop
    rw [if_pos (List.getElem?_eq_some_iff.1 h).1]
  | succ f ih =>
    unfold filterLoop
    rw [h]
    exact ih

theorem filterLoop_stuck' (rel : Int → Int → Motion) (f : Nat) (done l : List (IV Obj Q)) (dis : List (BPair Obj Q)) (id : Nat)
    (h : IV.other id ∈ l) : filterLoop rel f done.length { ivs := done ++ l, disabled := dis } = none := by
  induction l generalizing f done dis with
  | nil => simp at h
  | cons x l ih =>
    cases x with
    | other id' => exact filterLoop_stuck rel f _ _ id' (by simp)
    | pair b =>
      have hm : IV.other id ∈ l := by simpa using h
      cases f with
      | zero => simp [filterLoop]
      | succ f =>
        have keep : filterLoop rel f (done.length + 1) { ivs := done ++ IV.pair b :: l, disabled := dis } = none := by
          have := ih f (done ++ [IV.pair b]) dis hm
          simpa using this
        have drop : filterLoop rel f done.length
            { ivs := (done ++ IV.pair b :: l).eraseIdx done.length, disabled := dis ++ [b] } = none := by
          have e : (done ++ IV.pair b :: l).eraseIdx done.length = done ++ l := by
            simp [List.eraseIdx_append_of_length_le]
          rw [e]; exact ih f done _ hm
        unfold filterLoop
        simp only [List.getElem?_append_right (le_refl _), Nat.sub_self, List.getElem?_cons_zero]
        split
        · exact keep
        · cases rel b.ia b.ib <;> assumption

/-- The code violates C65 otherwise: with any validation that is not a body pair the loop never ends. -/
theorem C65_filter_diverges_counterexample (rel : Int → Int → Motion) (s : St Obj Q) (id : Nat) (h : IV.other id ∈ s.ivs) (f : Nat) :
    filterLoop rel f 0 s = none := by
  have := filterLoop_stuck' rel f [] s.ivs s.disabled id h
  simpa using this

/-! ## Margins -/

theorem marginLoop_get (f : Q → Q) (m : Obj × Obj → Bool) (ps : List (Obj × Obj)) (n : Nat) (hn : n ≤ ps.length) (rs : List Q) (found : Bool)
    (hl : ps.length = rs.length) :
    (marginLoop f m ps n rs found).1.length = rs.length ∧ ∀ (j : Nat) (hj : j < ps.length) (hj' : j < rs.length),
      (marginLoop f m ps n rs found).1[j]? = some (if ps.length - n ≤ j ∧ m ps[j] = true then f rs[j] else rs[j]) := by
  induction n generalizing rs found with
  | zero =>
    refine ⟨rfl, fun j hj hj' => ?_⟩
    simp only [marginLoop]
    rw [if_neg (by omega), List.getElem?_eq_getElem hj']
  | succ n ih =>
    unfold marginLoop
    have hi : ps.length - (n + 1) < ps.length := by omega
    simp only [List.getElem?_eq_getElem hi]
    by_cases hm : m (ps[ps.length - (n + 1)]) = true
    · rw [if_pos hm]
      have hlen : (rs.modify (ps.length - (n + 1)) f).length = rs.length := by simp
      obtain ⟨h1, h2⟩ := ih (by omega) (rs.modify (ps.length - (n + 1)) f) true (by rw [hlen]; exact hl)
      refine ⟨by rw [h1, hlen], fun j hj hj' => ?_⟩
      rw [h2 j hj (by rw [hlen]; exact hj')]
      congr 1
      rw [List.getElem_modify]
      by_cases hc : ps.length - (n + 1) = j
      · subst hc
        rw [if_pos rfl, if_neg (by omega), if_pos ⟨le_refl _, hm⟩]
      · rw [if_neg hc]
        by_cases hc' : ps.length - n ≤ j ∧ m ps[j] = true
        · rw [if_pos hc', if_pos ⟨by omega, hc'.2⟩]
        · rw [if_neg hc', if_neg (fun h => hc' ⟨by omega, h.2⟩)]
    · rw [if_neg hm]
      obtain ⟨h1, h2⟩ := ih (by omega) rs found hl
      refine ⟨h1, fun j hj hj' => ?_⟩
      rw [h2 j hj hj']
      congr 1
      by_cases hc : ps.length - (n + 1) = j
      · subst hc
        rw [if_neg (by omega), if_neg (fun h => hm h.2)]
      · by_cases hc' : ps.length - n ≤ j ∧ m ps[j] = true
        · rw [if_pos hc', if_pos ⟨by omega, hc'.2⟩]
        · rw [if_neg hc', if_neg (fun h => hc' ⟨by omega, h.2⟩)]

theorem marginLoop_found (f : Q → Q) (m : Obj × Obj → Bool) (ps : List (Obj × Obj)) (n : Nat) (rs : List Q) :
    (marginLoop f m ps n rs true).2 = true := by
  induction n generalizing rs with
  | zero => rfl
  | succ n ih =>
    unfold marginLoop
    simp only
    split
    · exact ih _
    · split
      · exact ih _
      · exact ih _

/-- Margin of every matching pair, as specified. -/
def setAll (f : Q → Q) (m : Obj × Obj → Bool) : IV Obj Q → IV Obj Q
  | .pair b => .pair { b with rqs := b.zip.map (fun x => if m x.1 then f x.2 else x.2) }
  | .other id => .other id

theorem betweenLoop_spec (f : Q → Q) (m : Obj × Obj → Bool) (l : List (IV Obj Q)) (h : ∀ b, IV.pair b ∈ l → b.Aligned) :
    betweenLoop f m l true = (l.map (setAll f m), true) := by
  induction l with
  | nil => rfl
  | cons x l ih =>
    have ih := ih (fun b hb => h b (List.mem_cons_of_mem _ hb))
    cases x with
    | other id => simp only [betweenLoop, ih]; rfl
    | pair b =>
      have hb : b.prs.length = b.rqs.length := h b (by simp)
      simp only [betweenLoop, marginLoop_found, ih]
      simp only [List.map_cons, setAll, Prod.mk.injEq, and_true]
      congr 3
      obtain ⟨h1, h2⟩ := marginLoop_get f m b.prs b.prs.length (le_refl _) b.rqs true hb
      refine List.ext_getElem? (fun j => ?_)
      by_cases hj : j < b.prs.length
      · rw [h2 j hj (by omega)]
        simp [BPair.zip, List.zip_eq_zipWith, List.getElem?_zipWith, List.getElem?_eq_getElem hj,
          List.getElem?_eq_getElem (show j < b.rqs.length by omega)]
      · rw [List.getElem?_eq_none (by omega), List.getElem?_eq_none (by simp [BPair.zip]; omega)]

/-- C65, partial: `setSecurityMarginBetweenBodies` sets the margin of every active pair between the two bodies, in all the body pairs, and no
other.  (Missing: it never reports that there is none.) -/
theorem C65_marginBetween_partial (setM : M → Q → Q) (name : Obj → String) (a b : String) (margin : M) (s : St Obj Q) (h : Aligned s) :
    setSecurityMarginBetweenBodies setM name a b margin s = .ok { s with ivs := s.ivs.map (setAll (setM margin) (matches' name a b)) } := by
  unfold setSecurityMarginBetweenBodies
  rw [betweenLoop_spec _ _ _ h.1]
  rfl

/-- The code violates C65: without any pair between these bodies the call succeeds silently. -/
theorem C65_marginBetween_counterexample :
    setSecurityMarginBetweenBodies (fun m _ => m) (fun _ : Nat => "robot") "x" "y" 7 ({ ivs := [], disabled := [] } : St Nat Nat) =
      .ok { ivs := [], disabled := [] } := by rfl

/-- C65: `setSecurityMargins`. -/
theorem C65_margins (setM : M → Q → Q) (n rows cols : Nat) (mat : Int → Int → M) (s : St Obj Q) (h : Aligned s) :
    (rows ≠ n + 1 ∨ cols ≠ n + 1 → setSecurityMargins setM n rows cols mat s = .thrown s) ∧
    (rows = n + 1 → cols = n + 1 → ∃ s', setSecurityMargins setM n rows cols mat s = .ok s' ∧ Aligned s' ∧ s'.disabled = s.disabled ∧
      s'.ivs.length = s.ivs.length ∧ ∀ (i : Nat) (b : BPair Obj Q), s.ivs[i]? = some (.pair b) →
        ∃ b' : BPair Obj Q, s'.ivs[i]? = some (.pair b') ∧ b'.ia = b.ia ∧ b'.ib = b.ib ∧
        b'.zip = b.zip.map (fun x => (x.1, setM (mat b.ia b.ib) x.2))) := by
  refine ⟨fun hs => by unfold setSecurityMargins; rw [if_pos hs], fun h1 h2 => ?_⟩
  unfold setSecurityMargins
  rw [if_neg (by simp [h1, h2])]
  refine ⟨_, rfl, ⟨?_, h.2⟩, rfl, by simp, ?_⟩
  · intro b hb
    obtain ⟨x, hx, hx'⟩ := List.mem_map.1 hb
    cases x with
    | other id => cases hx'
    | pair b0 =>
      cases hx'
      have := h.1 b0 hx
      simpa [BPair.Aligned] using this
  · intro i b hi
    refine ⟨{ b with rqs := b.rqs.map (setM (mat b.ia b.ib)) }, by simp only [List.getElem?_map, hi, Option.map_some], rfl, rfl, ?_⟩
    simp [BPair.zip, List.zip_map_right, Prod.map]

end

/-! ## Examples -/

def exS : St Nat Nat :=
  addObstacle 0 [(1, some [1]), (2, none), (3, some [2, 4])] 10
    { ivs := [.pair { ia := 1, ib := 0, prs := [(1, 10), (1, 11), (1, 10)], rqs := [5, 6, 7] }], disabled := [] }

example : Aligned exS := by
  constructor
  · intro b hb
    simp [exS, addObstacle] at hb
    rcases hb with rfl | rfl | rfl <;> rfl
  · intro b hb; simp [exS, addObstacle] at hb

example : removeObstacleFromJoint 1 10
    ({ ivs := [.pair { ia := 1, ib := 0, prs := [(1, 10), (1, 11), (1, 10)], rqs := [5, 6, 7] }], disabled := [] } : St Nat Nat) =
    .ok { ivs := [.pair { ia := 1, ib := 0, prs := [(1, 11)], rqs := [6] }], disabled := [] } := by rfl

example : removeObstacleFromJoint 3 10 exS = .ub := by rfl

example : filterLoop (fun i _ => if i = 3 then .parameterized else .unconstrained) 3 0 exS =
    some { ivs := [.pair { ia := 1, ib := 0, prs := [(1, 10), (1, 11), (1, 10)], rqs := [5, 6, 7] }, .pair { ia := 1, ib := 0, prs := [(1, 10)], rqs := [0] }],
           disabled := [{ ia := 3, ib := 0, prs := [(2, 10), (4, 10)], rqs := [0, 0] }] } := by rfl

end Verif.Obst.Cont
