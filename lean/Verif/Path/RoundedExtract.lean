import Verif.Path.Rounding
set_option linter.unusedSectionVars false

/-!
# Extraction of path vectors in finite precision (C145)

Vectors of straight paths, with the rounding of `Verif.Path.Rounding`.  The interpolation between two configurations is any function.
-/
namespace Verif.Rounding

variable {K Q : Type} [Field K] [LinearOrder K] [IsStrictOrderedRing K]

/-- A straight path: end configurations and time range.  Simplified: no constraints and no time parameterization. -/
structure Seg (K Q : Type) where
  q0 : Q
  q1 : Q
  tr : K × K

/-- `StraightPath::impl_compute`: src/straight-path.cc:92-111. -/
def conf (F : Fl K) (interp : Q → Q → K → Q) (s : Seg K Q) (t : K) : Q :=
  if t = s.tr.1 ∨ len F s.tr = 0 then s.q0
  else if t = s.tr.2 then s.q1
  else interp s.q0 s.q1 (F.rnd (F.rnd (t - s.tr.1) / len F s.tr))

/-- `StraightPath::impl_extract`: src/straight-path.cc:142-158. -/
def extractSeg (F : Fl K) (interp : Q → Q → K → Q) (s : Seg K Q) (a b : K) : Seg K Q := ⟨conf F interp s a, conf F interp s b, (0, |F.rnd (b - a)|)⟩

/-- `Path::reverse`: src/path.cc:228-233. -/
def reverseSeg (F : Fl K) (interp : Q → Q → K → Q) (s : Seg K Q) : Seg K Q := extractSeg F interp s s.tr.2 s.tr.1

/-- `Iinit`, `Iend`: src/path-vector.cc:145-150. -/
def Iinit (I : K × K) (rev : Bool) : K := if rev then I.2 else I.1
def Iend (I : K × K) (rev : Bool) : K := if rev then I.1 else I.2

/-- `PathVector::impl_compute`: src/path-vector.cc:115-126; `none`: exception. -/
def evalV (F : Fl K) (interp : Q → Q → K → Q) (v : List (Seg K Q)) (t : K) : Option Q :=
  match rankAtParam F (v.map Seg.tr) t with
  | .at k s => (v[k]?).map (conf F interp · s)
  | _ => none

/-- `PathVector::impl_extract`: src/path-vector.cc:179-201.  The loop over the paths between both ranks is written as a slice. -/
def extract (F : Fl K) (interp : Q → Q → K → Q) (v : List (Seg K Q)) (t0 t1 : K) : Option (List (Seg K Q)) :=
  let rev := decide (t1 < t0)
  match rankAtParam F (v.map Seg.tr) t0, rankAtParam F (v.map Seg.tr) t1 with
  | .at i li, .at e le =>
    match v[i]?, v[e]? with
    | some si, some se =>
      if i = e then some [extractSeg F interp si li le]
      else some (extractSeg F interp si li (Iend si.tr rev) :: (if rev then ((v.take i).drop (e + 1)).reverse.map (reverseSeg F interp) else (v.take e).drop (i + 1)) ++
        [extractSeg F interp se (Iinit se.tr rev) le])
    | _, _ => none
  | _, _ => none

/-! ## Specification -/

/-- The paths lead from `a` to `b`, each one beginning where the former one ends. -/
def Joins : Q → List (Seg K Q) → Q → Prop
  | a, [], b => a = b
  | a, s :: l, b => s.q0 = a ∧ Joins s.q1 l b

/-- Vectors without defect: increasing time ranges between floating point numbers, a path of length 0 does not move. -/
def Proper (F : Fl K) (v : List (Seg K Q)) : Prop := ∀ s ∈ v, s.tr.1 ≤ s.tr.2 ∧ F.rnd s.tr.1 = s.tr.1 ∧ F.rnd s.tr.2 = s.tr.2 ∧ (s.tr.1 = s.tr.2 → s.q0 = s.q1)

/-! ## Proofs -/

theorem joins_append {l m : List (Seg K Q)} : ∀ {a c : Q}, Joins a (l ++ m) c ↔ ∃ b, Joins a l b ∧ Joins b m c := by
  induction l with
  | nil => intro a c; simp [Joins]
  | cons s l ih =>
    intro a c
    simp only [List.cons_append, Joins, ih]
    constructor
    · rintro ⟨h, b, h1, h2⟩; exact ⟨b, ⟨h, h1⟩, h2⟩
    · rintro ⟨b, ⟨h, h1⟩, h2⟩; exact ⟨h, b, h1, h2⟩

theorem joins_det (w : List (Seg K Q)) : ∀ (a b c : Q), Joins a w b → Joins a w c → b = c := by
  induction w with
  | nil => intro a b c h1 h2; exact h1.symm.trans h2
  | cons s l ih => intro a b c h1 h2; exact ih _ _ _ h1.2 h2.2

variable {F : Fl K} {interp : Q → Q → K → Q}

theorem len_eq_zero (hu : F.u < 1) {p : K × K} (h : len F p = 0) : p.1 = p.2 := by
  have e := F.err (p.2 - p.1)
  unfold len at h
  rw [h, zero_sub, abs_neg] at e
  have : |p.2 - p.1| = 0 := by
    have := abs_nonneg (p.2 - p.1)
    nlinarith
  have := abs_eq_zero.1 this
  linarith

theorem conf_first (s : Seg K Q) : conf F interp s s.tr.1 = s.q0 := by simp [conf]

theorem conf_second (hu : F.u < 1) {s : Seg K Q} (h : s.tr.1 = s.tr.2 → s.q0 = s.q1) : conf F interp s s.tr.2 = s.q1 := by
  unfold conf
  split
  · next hc =>
    rcases hc with hc | hc
    · exact h hc.symm
    · exact h (len_eq_zero hu hc)
  · simp

theorem joins_reverse (hu : F.u < 1) : ∀ {l : List (Seg K Q)}, (∀ s ∈ l, s.tr.1 = s.tr.2 → s.q0 = s.q1) → ∀ {a b : Q}, Joins a l b → Joins b (l.reverse.map (reverseSeg F interp)) a
  | [], _, a, b, h => by simpa [Joins] using h.symm
  | s :: l, hp, a, b, h => by
      rw [List.reverse_cons, List.map_append, joins_append]
      refine ⟨s.q1, joins_reverse hu (fun x hx => hp x (by simp [hx])) h.2, ?_⟩
      refine ⟨conf_second hu (hp s (by simp)), ?_⟩
      show conf F interp s s.tr.1 = a
      rw [conf_first]; exact h.1

/-- Vectors cut at two ranks. -/
theorem split_at {α : Type} {v : List α} {i e : Nat} (h : i < e) {a b : α} (ha : v[i]? = some a) (hb : v[e]? = some b) :
    v = v.take i ++ a :: ((v.take e).drop (i + 1) ++ b :: v.drop (e + 1)) := by
  obtain ⟨hi, ha⟩ := List.getElem?_eq_some_iff.1 ha
  obtain ⟨he, hb⟩ := List.getElem?_eq_some_iff.1 hb
  have h1 : v = v.take e ++ v.drop e := (List.take_append_drop e v).symm
  have h2 : v.drop e = b :: v.drop (e + 1) := by rw [← hb]; exact List.drop_eq_getElem_cons he
  have hi' : i < (v.take e).length := by simp; omega
  have h3 : v.take e = (v.take e).take i ++ (v.take e).drop i := (List.take_append_drop i _).symm
  have h4 : (v.take e).drop i = a :: (v.take e).drop (i + 1) := by
    rw [List.drop_eq_getElem_cons hi']
    congr 1
    rw [List.getElem_take, ha]
  have h5 : (v.take e).take i = v.take i := by rw [List.take_take, min_eq_left h.le]
  rw [h5, h4] at h3
  conv_lhs => rw [h1, h2, h3]
  simp

theorem proper_ranges {v : List (Seg K Q)} (h : Proper F v) : Ranges F (v.map Seg.tr) := by
  intro p hp
  obtain ⟨s, hs, rfl⟩ := List.mem_map.1 hp
  obtain ⟨a, b, c, _⟩ := h s hs
  exact ⟨a, b, c⟩

/-- Evaluation never fails. -/
theorem found {v : List (Seg K Q)} (hne : v ≠ []) (hv : Proper F v) {t : K} (h0 : 0 ≤ t) (ht : F.rnd t = t) :
    ∃ k l s, rankAtParam F (v.map Seg.tr) t = .at k l ∧ v[k]? = some s ∧ s ∈ v ∧ evalV F interp v t = some (conf F interp s l) := by
  obtain ⟨k, l, p, h1, h2, _⟩ := C144_rank (by simpa using hne) (proper_ranges hv) h0 ht
  rw [List.getElem?_map] at h2
  obtain ⟨s, hs, rfl⟩ := Option.map_eq_some_iff.1 h2
  exact ⟨k, l, s, h1, hs, List.mem_of_getElem? hs, by simp [evalV, h1, hs]⟩

/-- **C145 (extraction under rounding).**  Whatever the rounding and whatever the interpolation, the part of a vector extracted between two parameters, in either order, exists and leads from the configuration of the vector at the first one to its configuration at the second one, each path beginning exactly where the former one ends. -/
theorem C145_extract (hu : F.u < 1) {v : List (Seg K Q)} (hne : v ≠ []) (hv : Proper F v) {a b : Q} (hj : Joins a v b) {t0 t1 : K} (h0 : 0 ≤ t0) (h1 : 0 ≤ t1) (ht0 : F.rnd t0 = t0) (ht1 : F.rnd t1 = t1) :
    ∃ w p q, extract F interp v t0 t1 = some w ∧ w ≠ [] ∧ evalV F interp v t0 = some p ∧ evalV F interp v t1 = some q ∧ Joins p w q := by
  obtain ⟨i, li, si, ri, gi, mi, ei⟩ := found (interp := interp) hne hv h0 ht0
  obtain ⟨e, le, se, re, ge, me, ee⟩ := found (interp := interp) hne hv h1 ht1
  simp only [extract, ri, re, gi, ge]
  by_cases hie : i = e
  · subst hie
    rw [gi] at ge
    cases ge
    rw [if_pos rfl]
    exact ⟨_, _, _, rfl, by simp, ei, ee, rfl, rfl⟩
  · rw [if_neg hie]
    have piece : ∀ {i e : Nat} {si se : Seg K Q}, i < e → v[i]? = some si → v[e]? = some se → Joins si.q1 ((v.take e).drop (i + 1)) se.q0 := by
      intro i e si se h gi ge
      have := split_at h gi ge
      rw [this, joins_append] at hj
      obtain ⟨_, _, hj⟩ := hj
      obtain ⟨_, hj⟩ := hj
      rw [joins_append] at hj
      obtain ⟨c, hj1, hj2⟩ := hj
      rw [hj2.1]; exact hj1
    have sub : ∀ {i e : Nat} {s : Seg K Q}, s ∈ (v.take e).drop (i + 1) → s ∈ v := fun h => List.mem_of_mem_take (List.mem_of_mem_drop h)
    by_cases hr : t1 < t0
    · have hlt : e < i := by
        rcases C144_order (by simpa using hne) (proper_ranges hv) h1 hr.le ht1 ht0 re ri with h | ⟨h, _⟩
        · exact h
        · exact absurd h.symm hie
      simp only [hr, decide_true, if_true]
      refine ⟨_, _, _, rfl, by simp, ei, ee, rfl, ?_⟩
      refine joins_append.2 ⟨se.q1, ?_, ?_, rfl⟩
      · show Joins (conf F interp si (Iend si.tr true)) _ _
        rw [Iend, if_pos rfl, conf_first]
        exact joins_reverse hu (fun s hs => (hv s (sub hs)).2.2.2) (piece hlt ge gi)
      · show conf F interp se (Iinit se.tr true) = _
        rw [Iinit, if_pos rfl]; exact conf_second hu (hv se me).2.2.2
    · have hlt : i < e := by
        rcases C144_order (by simpa using hne) (proper_ranges hv) h0 (not_lt.1 hr) ht0 ht1 ri re with h | ⟨h, _⟩
        · exact h
        · exact absurd h hie
      simp only [hr, decide_false, Bool.false_eq_true, if_false]
      refine ⟨_, _, _, rfl, by simp, ei, ee, rfl, ?_⟩
      refine joins_append.2 ⟨se.q0, ?_, ?_, rfl⟩
      · show Joins (conf F interp si (Iend si.tr false)) _ _
        rw [Iend, if_neg (by simp), conf_second hu (hv si mi).2.2.2]
        exact piece hlt gi ge
      · show conf F interp se (Iinit se.tr false) = _
        rw [Iinit, if_neg (by simp), conf_first]

/-- **C145 (beginning of a vector).**  A vector is exactly at its first configuration at parameter 0. -/
theorem C145_begin {v : List (Seg K Q)} (hv : Proper F v) {a b : Q} (hne : v ≠ []) (hj : Joins a v b) : evalV F interp v 0 = some a := by
  cases v with
  | nil => exact absurd rfl hne
  | cons s l =>
    obtain ⟨h1, h2, _⟩ := hv s (by simp)
    have hl := len_nonneg (F := F) h1
    have hr : rankLoop F (s.tr :: l.map Seg.tr) 0 0 = (0, 0) := by
      cases l with
      | nil => rfl
      | cons s' l => rw [List.map_cons, rankLoop, if_neg (not_lt.2 hl)]
    have : rankAtParam F ((s :: l).map Seg.tr) 0 = .at 0 s.tr.1 := by
      rw [List.map_cons, rankAtParam, if_neg (by simp)]
      simp only [hr, List.getElem?_cons_zero]
      rw [if_neg (not_lt.2 hl), zero_add, h2]
    rw [evalV, this]
    simp only [List.getElem?_cons_zero, Option.map_some, conf_first]
    rw [hj.1]

/-! ## Shortcuts -/

/-- One iteration of `RandomShortcut::optimize`: parameters drawn, paths between the configurations at these parameters that are valid, whether the result is kept (it is shorter). -/
structure Choice (K Q : Type) where
  t1 : K
  t2 : K
  new : Fin 3 → Option (Seg K Q)
  keep : Bool

/-- A part of the result: the new path if it is valid, the part of the vector otherwise. -/
def part (F : Fl K) (interp : Q → Q → K → Q) (v : List (Seg K Q)) (new : Option (Seg K Q)) (a b : K) : Option (List (Seg K Q)) :=
  match new with
  | some s => some [s]
  | none => extract F interp v a b

/-- One iteration of `RandomShortcut::optimize`: src/path-optimization/random-shortcut.cc:97-165. `none`: exception. -/
def iteration (F : Fl K) (interp : Q → Q → K → Q) (v : List (Seg K Q)) (c : Choice K Q) : Option (List (Seg K Q)) :=
  match part F interp v (c.new 0) 0 c.t1, part F interp v (c.new 1) c.t1 c.t2, part F interp v (c.new 2) c.t2 (total F (v.map Seg.tr)) with
  | some w0, some w1, some w2 => some (if c.keep then w0 ++ w1 ++ w2 else v)
  | _, _, _ => none

/-- All iterations. -/
def shortcuts (F : Fl K) (interp : Q → Q → K → Q) : List (Choice K Q) → List (Seg K Q) → Option (List (Seg K Q))
  | [], v => some v
  | c :: cs, v => match iteration F interp v c with
    | some w => shortcuts F interp cs w
    | none => none

/-- `P` holds at each iteration. -/
def Along (F : Fl K) (interp : Q → Q → K → Q) (P : List (Seg K Q) → Choice K Q → Prop) : List (Choice K Q) → List (Seg K Q) → Prop
  | [], _ => True
  | c :: cs, v => P v c ∧ ∀ w, iteration F interp v c = some w → Along F interp P cs w

/-- What is asked of an iteration: parameters drawn between floating point numbers, new paths without defect between the configurations found: the first one from the initial configuration `a`, the last one to the final configuration `b` of the path given to the optimizer (random-shortcut.cc:81-84). -/
structure Drawn (F : Fl K) (interp : Q → Q → K → Q) (a b : Q) (v : List (Seg K Q)) (c : Choice K Q) : Prop where
  t1 : 0 ≤ c.t1 ∧ F.rnd c.t1 = c.t1
  t2 : 0 ≤ c.t2 ∧ F.rnd c.t2 = c.t2
  new : ∀ i s, c.new i = some s → Proper F [s]
  n0 : ∀ s, c.new 0 = some s → s.q0 = a ∧ some s.q1 = evalV F interp v c.t1
  n1 : ∀ s, c.new 1 = some s → some s.q0 = evalV F interp v c.t1 ∧ some s.q1 = evalV F interp v c.t2
  n2 : ∀ s, c.new 2 = some s → some s.q0 = evalV F interp v c.t2 ∧ s.q1 = b

/-- At the end of its time range the vector is at its final configuration. -/
def EndReached (F : Fl K) (interp : Q → Q → K → Q) (v : List (Seg K Q)) : Prop := evalV F interp v (total F (v.map Seg.tr)) = v.getLast?.map Seg.q1

theorem joins_last {b : Q} {v : List (Seg K Q)} (hne : v ≠ []) : ∀ {a : Q}, Joins a v b → v.getLast?.map Seg.q1 = some b := by
  induction v with
  | nil => exact absurd rfl hne
  | cons s l ih =>
    intro a h
    cases l with
    | nil => have := h.2; simp only [Joins] at this; simp [this]
    | cons s' l => rw [List.getLast?_cons_cons]; exact ih (by simp) h.2

theorem proper_append {v w : List (Seg K Q)} (h : Proper F v) (h' : Proper F w) : Proper F (v ++ w) := by
  intro s hs
  rcases List.mem_append.1 hs with hs | hs
  · exact h s hs
  · exact h' s hs

theorem extractSeg_proper (hu : F.u < 1) (hodd : ∀ x, F.rnd (-x) = -F.rnd x) (s : Seg K Q) (a b : K) : Proper F [extractSeg F interp s a b] := by
  intro x hx
  simp only [List.mem_singleton] at hx
  subst hx
  refine ⟨abs_nonneg _, F.zero, ?_, ?_⟩
  · show F.rnd |F.rnd (b - a)| = |F.rnd (b - a)|
    rcases abs_choice (F.rnd (b - a)) with h | h <;> rw [h]
    · exact F.idem _
    · rw [hodd, F.idem]
  · intro h
    have h0 : len F (a, b) = 0 := abs_eq_zero.1 (show |F.rnd (b - a)| = 0 from h.symm)
    have : a = b := len_eq_zero (p := (a, b)) hu h0
    show conf F interp s a = conf F interp s b
    rw [this]

theorem extract_proper (hu : F.u < 1) (hodd : ∀ x, F.rnd (-x) = -F.rnd x) {v w : List (Seg K Q)} (hv : Proper F v) {t0 t1 : K} (h : extract F interp v t0 t1 = some w) : Proper F w := by
  unfold extract at h
  simp only at h
  have mid : ∀ (b : Bool) (i e : Nat), Proper F (if b then ((v.take i).drop (e + 1)).reverse.map (reverseSeg F interp) else (v.take e).drop (i + 1)) := by
    intro b i e
    cases b with
    | true =>
      intro s hs
      simp only [if_true] at hs
      obtain ⟨x, _, rfl⟩ := List.mem_map.1 hs
      exact extractSeg_proper (interp := interp) hu hodd x x.tr.2 x.tr.1 _ (by simp [reverseSeg])
    | false =>
      intro s hs
      simp only [Bool.false_eq_true, if_false] at hs
      exact hv s (List.mem_of_mem_take (List.mem_of_mem_drop hs))
  split at h
  · split at h
    · split at h
      · cases h; exact extractSeg_proper hu hodd _ _ _
      · cases h
        exact proper_append (v := [_]) (extractSeg_proper hu hodd _ _ _) (proper_append (mid _ _ _) (extractSeg_proper hu hodd _ _ _))
    · cases h
  · cases h

/-- A part of the result leads from the configuration at the first parameter to the one at the second parameter. -/
theorem part_joins (hu : F.u < 1) (hodd : ∀ x, F.rnd (-x) = -F.rnd x) {v : List (Seg K Q)} (hne : v ≠ []) (hv : Proper F v) {a b : Q} (hj : Joins a v b) {t0 t1 : K} (h0 : 0 ≤ t0) (h1 : 0 ≤ t1) (ht0 : F.rnd t0 = t0) (ht1 : F.rnd t1 = t1)
    {new : Option (Seg K Q)} (hn : ∀ s, new = some s → Proper F [s]) {p q : Q} (hp : evalV F interp v t0 = some p) (hq : new = none → evalV F interp v t1 = some q) (hnew : ∀ s, new = some s → s.q0 = p ∧ s.q1 = q) :
    ∃ w, part F interp v new t0 t1 = some w ∧ w ≠ [] ∧ Proper F w ∧ Joins p w q := by
  cases new with
  | some s => exact ⟨[s], rfl, by simp, hn s rfl, (hnew s rfl).1, (hnew s rfl).2⟩
  | none =>
    obtain ⟨w, p', q', e, hw, f0, f1, j⟩ := C145_extract (interp := interp) hu hne hv hj h0 h1 ht0 ht1
    rw [hp] at f0
    rw [hq rfl] at f1
    cases f0
    cases f1
    exact ⟨w, e, hw, extract_proper hu hodd hv e, j⟩

theorem iteration_joins (hu : F.u < 1) (hodd : ∀ x, F.rnd (-x) = -F.rnd x) {v : List (Seg K Q)} (hne : v ≠ []) (hv : Proper F v) {a b0 b : Q} (hj : Joins a v b0) {c : Choice K Q} (hc : Drawn F interp a b v c) :
    ∃ w b', iteration F interp v c = some w ∧ w ≠ [] ∧ Proper F w ∧ Joins a w b' ∧ ((c.keep = true → c.new 2 = none → EndReached F interp v) → b0 = b → b' = b) := by
  have hr := proper_ranges hv
  obtain ⟨_, _, s1, _, _, _, e1⟩ := found (interp := interp) hne hv hc.t1.1 hc.t1.2
  obtain ⟨_, _, s2, _, _, _, e2⟩ := found (interp := interp) hne hv hc.t2.1 hc.t2.2
  obtain ⟨_, _, s3, _, _, _, e3⟩ := found (interp := interp) hne hv (total_nonneg hr) (total_rep _)
  have hb := joins_last hne hj
  obtain ⟨w0, k0, _, p0, j0⟩ := part_joins hu hodd hne hv hj le_rfl hc.t1.1 F.zero hc.t1.2 (hc.new 0) (C145_begin hv hne hj) (fun _ => e1) (fun s hs => by
    obtain ⟨x, y⟩ := hc.n0 s hs
    rw [e1] at y
    exact ⟨x, Option.some.inj y⟩)
  obtain ⟨w1, k1, _, p1, j1⟩ := part_joins hu hodd hne hv hj hc.t1.1 hc.t2.1 hc.t1.2 hc.t2.2 (hc.new 1) e1 (fun _ => e2) (fun s hs => by
    obtain ⟨x, y⟩ := hc.n1 s hs
    rw [e1] at x
    rw [e2] at y
    exact ⟨Option.some.inj x, Option.some.inj y⟩)
  generalize conf F interp s2 _ = q2 at e2 j1
  have third : ∃ w2 b', part F interp v (c.new 2) c.t2 (total F (v.map Seg.tr)) = some w2 ∧ w2 ≠ [] ∧ Proper F w2 ∧ Joins q2 w2 b' ∧ ((c.new 2 = none → EndReached F interp v) → b0 = b → b' = b) := by
    cases hn : c.new 2 with
    | some s =>
      obtain ⟨x, y⟩ := hc.n2 s hn
      rw [e2] at x
      exact ⟨[s], b, rfl, by simp, hc.new 2 s hn, ⟨Option.some.inj x, y⟩, fun _ _ => rfl⟩
    | none =>
      obtain ⟨w2, k2, n2, p2, j2⟩ := part_joins (new := none) hu hodd hne hv hj hc.t2.1 (total_nonneg hr) hc.t2.2 (total_rep _) (fun s hs => by cases hs) e2 (fun _ => e3) (fun s hs => by cases hs)
      refine ⟨w2, _, k2, n2, p2, j2, fun h h0 => ?_⟩
      have := h rfl
      rw [EndReached, e3, hb] at this
      rw [← h0]; exact Option.some.inj this
  obtain ⟨w2, b', k2, n2, p2, j2, hend⟩ := third
  have hi : iteration F interp v c = some (if c.keep then w0 ++ w1 ++ w2 else v) := by simp only [iteration, k0, k1, k2]
  cases hk : c.keep with
  | false =>
    rw [hk] at hi
    exact ⟨v, b0, hi, hne, hv, hj, fun _ h => h⟩
  | true =>
    rw [hk] at hi
    exact ⟨w0 ++ w1 ++ w2, b', hi, by simp [n2], proper_append (proper_append p0 p1) p2, joins_append.2 ⟨_, joins_append.2 ⟨_, j0, j1⟩, j2⟩, fun h => hend (h rfl)⟩

/-- **C145 (shortcuts under rounding).**  Whatever the rounding, the parameters drawn, the new paths and the number of iterations, the random shortcut returns paths that join exactly from the initial configuration. They lead to the final configuration if, each time that the last part is kept, the vector evaluated at the end of its time range is at its final configuration.
(Otherwise they may not: `C145_shortcut_counterexample`.) -/
theorem C145_shortcut_partial (hu : F.u < 1) (hodd : ∀ x, F.rnd (-x) = -F.rnd x) (cs : List (Choice K Q)) {v : List (Seg K Q)} (hne : v ≠ []) (hv : Proper F v) {a b : Q} (hj : Joins a v b) (hd : Along F interp (Drawn F interp a b) cs v) :
    ∃ w b', shortcuts F interp cs v = some w ∧ w ≠ [] ∧ Proper F w ∧ Joins a w b' ∧ (Along F interp (fun v c => c.keep = true → c.new 2 = none → EndReached F interp v) cs v → b' = b) := by
  have gen : ∀ (cs : List (Choice K Q)) {v : List (Seg K Q)}, v ≠ [] → Proper F v → ∀ {b0 : Q}, Joins a v b0 → Along F interp (Drawn F interp a b) cs v →
      ∃ w b', shortcuts F interp cs v = some w ∧ w ≠ [] ∧ Proper F w ∧ Joins a w b' ∧ (Along F interp (fun v c => c.keep = true → c.new 2 = none → EndReached F interp v) cs v → b0 = b → b' = b) := by
    intro cs
    induction cs with
    | nil => intro v hne hv b0 hj _; exact ⟨v, b0, rfl, hne, hv, hj, fun _ h => h⟩
    | cons c cs ih =>
      intro v hne hv b0 hj hd
      obtain ⟨w, b1, e, n, p, j, h⟩ := iteration_joins hu hodd hne hv hj hd.1
      obtain ⟨x, b2, e', n', p', j', h'⟩ := ih n p j (hd.2 w e)
      refine ⟨x, b2, by simp only [shortcuts, e, e'], n', p', j', fun hal h0 => ?_⟩
      exact h' (hal.2 w e) (h hal.1 h0)
  obtain ⟨w, b', h1, h2, h3, h4, h5⟩ := gen cs hne hv hj hd
  exact ⟨w, b', h1, h2, h3, h4, fun h => h5 h rfl⟩

/-! ## Numbers of type `double` -/

/-- From 0 to 1, then from 1 to 1 + 2⁻⁶⁰ in a second degree of freedom. -/
def tinyV : List (Seg ℚ (ℚ × ℚ)) := [⟨(0, 0), (1, 0), (0, 1)⟩, ⟨(1, 0), (1, 1 / 2 ^ 60), (0, 1 / 2 ^ 60)⟩]

def lerp (a b : ℚ × ℚ) (u : ℚ) : ℚ × ℚ := (a.1 + u * (b.1 - a.1), a.2 + u * (b.2 - a.2))

theorem tinyV_tr : tinyV.map Seg.tr = tiny := rfl

theorem tinyV_proper : Proper double tinyV := by
  intro s hs
  simp only [tinyV, List.mem_cons, List.not_mem_nil, or_false] at hs
  rcases hs with rfl | rfl
  · exact ⟨by norm_num, double.zero, double_one, by norm_num⟩
  · exact ⟨by norm_num, double.zero, double_tiny, by norm_num⟩

theorem tinyV_joins : Joins (0, 0) tinyV (1, 1 / 2 ^ 60) := ⟨rfl, rfl, rfl⟩

theorem double_u : double.u < 1 := by
  have : double.u = 2⁻¹ ^ 53 := rfl
  rw [this]; norm_num

theorem tinyV_end : evalV double lerp tinyV (total double tiny) = some (1, 0) := by
  rw [evalV, tinyV_tr, C144_end_counterexample.2]
  have : conf double lerp ⟨((0 : ℚ), (0 : ℚ)), (1, 0), (0, 1)⟩ 1 = (1, 0) :=
    conf_second (s := ⟨((0 : ℚ), (0 : ℚ)), (1, 0), (0, 1)⟩) double_u (by norm_num)
  simp only [tinyV, List.getElem?_cons_zero, Option.map_some, this]

/-- **C145 (counterexample: the last path is lost).**  With numbers of type `double`, what is extracted from a vector over its whole time range does not lead to the final configuration of the vector. -/
theorem C145_extract_counterexample : Joins (0, 0) tinyV (1, 1 / 2 ^ 60) ∧ ∃ w, extract double lerp tinyV 0 (total double (tinyV.map Seg.tr)) = some w ∧ Joins (0, 0) w (1, 0) ∧ ¬ Joins (0, 0) w (1, 1 / 2 ^ 60) := by
  refine ⟨tinyV_joins, ?_⟩
  obtain ⟨w, p, q, e, _, f0, f1, j⟩ := C145_extract (interp := lerp) double_u (by simp [tinyV]) tinyV_proper tinyV_joins le_rfl (total_nonneg (proper_ranges tinyV_proper)) double.zero (total_rep _)
  rw [C145_begin tinyV_proper (by simp [tinyV]) tinyV_joins] at f0
  rw [tinyV_tr, tinyV_end] at f1
  cases f0
  cases f1
  refine ⟨w, e, j, fun h => ?_⟩
  have := joins_det w _ _ _ j h
  norm_num at this

theorem double_odd (x : ℚ) : double.rnd (-x) = -double.rnd x := by
  show binRnd 53 (-x) = -binRnd 53 x
  unfold binRnd
  rcases lt_trichotomy 0 x with h | h | h
  · rw [if_neg (by linarith), if_pos (by linarith), if_pos h, neg_neg]
  · subst h; simp
  · rw [if_pos (by linarith), if_neg (by linarith), if_pos h, neg_neg]

/-- An iteration that keeps the three parts. -/
def keepAll : Choice ℚ (ℚ × ℚ) := ⟨0, 1, fun _ => none, true⟩

theorem keepAll_drawn : Drawn double lerp (0, 0) (1, 1 / 2 ^ 60) tinyV keepAll :=
  ⟨⟨le_rfl, double.zero⟩, ⟨by norm_num [keepAll], double_one⟩, fun i s h => (by cases h), fun s h => (by cases h), fun s h => (by cases h), fun s h => (by cases h)⟩

/-- **C145 (counterexample: shortcuts).**  With numbers of type `double`, an iteration of the random shortcut that replaces nothing loses the final configuration. -/
theorem C145_shortcut_counterexample : ∃ w, shortcuts double lerp [keepAll] tinyV = some w ∧ Joins (0, 0) w (1, 0) ∧ ¬ Joins (0, 0) w (1, 1 / 2 ^ 60) := by
  have hr := proper_ranges tinyV_proper
  have hne : tinyV ≠ [] := by simp [tinyV]
  have e1 : evalV double lerp tinyV 1 = some (1, 0) := by have := tinyV_end; rwa [tiny_total] at this
  have e0 := C145_begin (interp := lerp) tinyV_proper hne tinyV_joins
  have ht : total double (tinyV.map Seg.tr) = 1 := tiny_total
  have one : (0 : ℚ) ≤ 1 := by norm_num
  have X : ∀ t0 t1 : ℚ, 0 ≤ t0 → 0 ≤ t1 → double.rnd t0 = t0 → double.rnd t1 = t1 → ∀ p q, evalV double lerp tinyV t0 = some p → evalV double lerp tinyV t1 = some q → ∃ w, extract double lerp tinyV t0 t1 = some w ∧ Joins p w q := by
    intro t0 t1 h0 h1 r0 r1 p q hp hq
    obtain ⟨w, p', q', e, _, f0, f1, j⟩ := C145_extract (interp := lerp) double_u hne tinyV_proper tinyV_joins h0 h1 r0 r1
    rw [hp] at f0
    rw [hq] at f1
    cases f0
    cases f1
    exact ⟨w, e, j⟩
  obtain ⟨w0, k0, j0⟩ := X 0 0 le_rfl le_rfl double.zero double.zero _ _ e0 e0
  obtain ⟨w1, k1, j1⟩ := X 0 1 le_rfl one double.zero double_one _ _ e0 e1
  obtain ⟨w2, k2, j2⟩ := X 1 1 one one double_one double_one _ _ e1 e1
  have j : Joins (0, 0) (w0 ++ w1 ++ w2) (1, 0) := joins_append.2 ⟨_, joins_append.2 ⟨_, j0, j1⟩, j2⟩
  refine ⟨w0 ++ w1 ++ w2, ?_, j, fun h => ?_⟩
  · simp only [shortcuts, iteration, keepAll, part, ht, k0, k1, k2, if_true]
  · have := joins_det _ _ _ _ j h
    norm_num at this

/-- The hypotheses of `C145_extract` hold for this vector; extraction in the other order. -/
example : ∃ w, extract double lerp tinyV (total double tiny) 0 = some w ∧ Joins (1, 0) w (0, 0) := by
  obtain ⟨w, p, q, e, _, f0, f1, j⟩ := C145_extract (interp := lerp) double_u (by simp [tinyV]) tinyV_proper tinyV_joins (total_nonneg tiny_ranges) le_rfl (total_rep _) double.zero
  rw [C145_begin tinyV_proper (by simp [tinyV]) tinyV_joins] at f1
  rw [tinyV_end] at f0
  cases f0
  cases f1
  exact ⟨w, e, j⟩

/-- The hypotheses of `C145_shortcut_partial` hold for this vector and one iteration that replaces nothing. -/
example : double.u < 1 ∧ tinyV ≠ [] ∧ Proper double tinyV ∧ Joins (0, 0) tinyV (1, 1 / 2 ^ 60) ∧ Along double lerp (Drawn double lerp (0, 0) (1, 1 / 2 ^ 60)) [keepAll] tinyV :=
  ⟨double_u, by simp [tinyV], tinyV_proper, tinyV_joins, keepAll_drawn, fun _ _ => trivial⟩

end Verif.Rounding
