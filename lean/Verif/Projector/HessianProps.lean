import Verif.Projector.Hessian
set_option linter.unusedSectionVars false

/-!
# The global path projector with a bound on the hessian: properties (C96)
-/
namespace Verif.Proj.Hess
open Verif.PathV
variable {K C : Type} [Field K] [LinearOrder K] [IsStrictOrderedRing K]

theorem hReint_more {E : HEnv K C} {P : HParams K} {sig : C → K} (fuel : ℕ) (prev : Datum K C) (front back : List (Datum K C)) (n : ℕ) (r : HRes K C)
    (h : hReint E P sig fuel prev front back n = some r) : (n < r.n → ∃ d ∈ r.front ++ r.back, d.b = false) ∧ ∃ m, r.back = m ++ back := by
  induction fuel generalizing prev front n r with
  | zero => cases h
  | succ fuel ih =>
    cases front with
    | nil => rw [hReint] at h; cases h; exact ⟨fun h => absurd h (lt_irrefl _), [], rfl⟩
    | cons d l =>
      rw [hReint] at h
      by_cases c1 : prev.s < P.dmin * P.hess ∨ P.maxIter ≤ prev.n
      · rw [if_pos c1] at h; cases h; exact ⟨fun h => absurd h (lt_irrefl _), d :: l, rfl⟩
      · rw [if_neg c1] at h
        by_cases c2 : d.s < P.dmin * P.hess
        · rw [if_pos c2] at h; cases h; exact ⟨fun h => absurd h (lt_irrefl _), d :: l, rfl⟩
        · rw [if_neg c2] at h
          by_cases c3 : (prev.s + d.s) / P.hess < d.l
          · rw [if_pos c3] at h
            simp only [Option.map_eq_some_iff] at h
            obtain ⟨r', h, rfl⟩ := h
            obtain ⟨-, m, hm⟩ := ih _ _ _ _ h
            rw [HRes.push_all _ r' (fun h' => ((hReint_spec (Sat := fun _ => True) _ _ _ _ _ _ h).1 h').1)]
            refine ⟨fun _ => ⟨_, List.mem_cons_self, rfl⟩, ?_⟩
            unfold HRes.push
            by_cases hc : r'.cut = true
            · rw [if_pos hc]; exact ⟨_ :: m, by rw [hm]; rfl⟩
            · rw [if_neg hc]; exact ⟨m, hm⟩
          · rw [if_neg c3] at h
            simp only [Option.map_eq_some_iff] at h
            obtain ⟨r', h, rfl⟩ := h
            obtain ⟨k1, m, hm⟩ := ih _ _ _ _ h
            rw [HRes.push_all _ r' (fun h' => ((hReint_spec (Sat := fun _ => True) _ _ _ _ _ _ h).1 h').1)]
            have hn : (r'.push d).n = r'.n := by unfold HRes.push; by_cases hc : r'.cut = true <;> simp [hc]
            rw [hn]
            refine ⟨fun hl => ?_, ?_⟩
            · obtain ⟨y, hy, hb⟩ := k1 hl
              exact ⟨y, List.mem_cons_of_mem _ hy, hb⟩
            · unfold HRes.push
              by_cases hc : r'.cut = true
              · rw [if_pos hc]; exact ⟨_ :: m, by rw [hm]; rfl⟩
              · rw [if_neg hc]; exact ⟨m, hm⟩

/-- What holds at each iteration when the input is not an interpolated path. -/
structure HInv (E : HEnv K C) (P : HParams K) (Sat : C → Prop) (f : Datum K C) (fin : C) (st : HSt K C) : Prop where
  first : st.first = f
  good : ¬ (f.s < P.dmin * P.hess ∨ P.maxIter ≤ f.n)
  away : st.atFirst = false
  exact : HExact E f.q st.front
  marked : HMarked Sat (st.front ++ st.back).dropLast
  last : ∃ z, (st.front ++ st.back).getLast? = some z ∧ z.q = fin ∧ z.b = true

theorem mem_dropLast_of {l : List (Datum K C)} {k : ℕ} {d : Datum K C} (h : l[k]? = some d) (hk : k + 1 < l.length) : d ∈ l.dropLast := by
  have : l.dropLast[k]? = some d := by rw [List.getElem?_dropLast, if_pos (by omega)]; exact h
  exact List.mem_of_getElem? this

theorem dropLast_index {l : List (Datum K C)} {d : Datum K C} (h : d ∈ l.dropLast) : ∃ k, l[k]? = some d ∧ k + 1 < l.length := by
  obtain ⟨k, hk⟩ := List.mem_iff_getElem?.1 h
  rw [List.getElem?_dropLast] at hk
  by_cases hl : k < l.length - 1
  · rw [if_pos hl] at hk; exact ⟨k, hk, by omega⟩
  · rw [if_neg hl] at hk; cases hk

theorem hStep_inv {E : HEnv K C} {P : HParams K} {Sat : C → Prop} {f : Datum K C} {fin : C} {st : HSt K C} (h : HInv E P Sat f fin st) {A : HAnswers K C} (hA : HSound Sat A) :
    ∃ all st1, hStep E A st = some (all, st1) ∧ HInv E P Sat f fin st1 ∧ (all = true ↔ ∀ d ∈ st1.front, d.b = true) ∧ st1.size = st.size := by
  obtain ⟨h1, h2, h3, h4, h5, z, h6, h7, h8⟩ := h
  unfold hStep
  rw [if_neg (by rw [h3]; simp), h1]
  obtain ⟨k1, k2, k3⟩ := hSweep_spec (A := A) st.front 0 f.q f.q false h4 (fun _ => rfl)
  have hel : ∀ back' : List (Datum K C), back'.length = st.back.length → (∀ (k : ℕ) (x : Datum K C), back'[k]? = some x → x.b = true → ∃ y, st.back[k]? = some y ∧ y.b = true ∧ y.q = x.q) →
      HMarked Sat ((hSweep E A 0 f.q false st.front).1 ++ back').dropLast := by
    intro back' hlen hb' d hd hdb
    obtain ⟨k, hk1, hk2⟩ := dropLast_index hd
    rw [List.length_append, k2, hlen] at hk2
    by_cases hkl : k < st.front.length
    · rw [List.getElem?_append_left (by rw [k2]; exact hkl)] at hk1
      rcases hSweep_elem hA _ _ _ _ _ _ hk1 hdb with hs | ⟨y, y1, y2, y3⟩
      · exact hs
      · rw [← y3]
        exact h5 y (mem_dropLast_of (k := k) (by rw [List.getElem?_append_left hkl]; exact y1) (by rw [List.length_append]; exact hk2)) y2
    · rw [List.getElem?_append_right (by rw [k2]; omega), k2] at hk1
      obtain ⟨y, y1, y2, y3⟩ := hb' _ _ hk1 hdb
      rw [← y3]
      exact h5 y (mem_dropLast_of (k := k) (by rw [List.getElem?_append_right (by omega)]; exact y1) (by rw [List.length_append]; exact hk2)) y2
  cases hbk : st.back with
  | nil =>
    rw [hbk, List.append_nil] at h6
    have hf : st.front = st.front.dropLast ++ [z] := by
      have hne : st.front ≠ [] := by intro e; rw [e] at h6; cases h6
      rw [List.getLast?_eq_some_getLast hne] at h6
      cases h6
      rw [List.dropLast_append_getLast]
    obtain ⟨m1, l', x, m2, m3⟩ := hSweep_last (E := E) (A := A) st.front.dropLast 0 f.q false z h8
    rw [← hf] at m1 m2
    simp only [m1]
    refine ⟨_, _, rfl, ⟨rfl, h2, rfl, k1, ?_, ?_⟩, k3, ?_⟩
    · exact hel [] (by rw [hbk]) (fun k x hx => by simp at hx)
    · rw [List.append_nil, m2, List.getLast?_concat]
      exact ⟨_, rfl, h7, rfl⟩
    · unfold HSt.size; simp only [k2, hbk]
  | cons d l =>
    have hlast : ∀ d' : Datum K C, d'.q = d.q → d'.b = d.b → ∃ z, ((hSweep E A 0 f.q false st.front).1 ++ d' :: l).getLast? = some z ∧ z.q = fin ∧ z.b = true := by
      intro d' e1 e2
      rw [hbk, List.getLast?_append_of_ne_nil _ (by simp)] at h6
      rw [List.getLast?_append_of_ne_nil _ (by simp)]
      cases l with
      | nil => cases h6; exact ⟨_, rfl, e1.trans h7, e2.trans h8⟩
      | cons y m => rw [List.getLast?_cons_cons] at h6 ⊢; exact ⟨z, h6, h7, h8⟩
    by_cases hu : (hSweep E A 0 f.q false st.front).2.2 = true
    · simp only [hu, if_true]
      refine ⟨_, _, rfl, ⟨rfl, h2, rfl, k1, ?_, hlast _ rfl rfl⟩, k3, ?_⟩
      · refine hel _ (by rw [hbk]; rfl) ?_
        intro k x hx hxb
        cases k with
        | zero => cases hx; exact ⟨d, by rw [hbk]; rfl, hxb, rfl⟩
        | succ k => exact ⟨x, by rw [hbk]; exact hx, hxb, rfl⟩
      · unfold HSt.size; simp only [k2, hbk, List.length_cons]
    · simp only [if_neg hu]
      refine ⟨_, _, rfl, ⟨rfl, h2, rfl, k1, ?_, hlast _ rfl rfl⟩, k3, ?_⟩
      · exact hel _ (by rw [hbk]) (fun k x hx hxb => ⟨x, by rw [hbk]; exact hx, hxb, rfl⟩)
      · unfold HSt.size; simp only [k2, hbk]

theorem hReint_inv {E : HEnv K C} {P : HParams K} {Sat : C → Prop} {f : Datum K C} {fin : C} {st : HSt K C} (h : HInv E P Sat f fin st) {sig : C → K} {fr : ℕ} {r : HRes K C}
    (hr : hReint E P sig fr st.first st.front st.back 0 = some r) :
    HInv E P Sat f fin (r.state st.first) ∧ (r.n = 0 → r.back = [] → r.front = st.front ∧ Chk P f r.front) ∧ (0 < r.n → ∃ d ∈ r.front ++ r.back, d.b = false) := by
  obtain ⟨h1, h2, h3, h4, h5, z, h6, h7, h8⟩ := h
  rw [h1] at hr ⊢
  obtain ⟨k1, k2, k3, k4, k5, k6, k7, k8⟩ := hReint_spec (Sat := Sat) _ _ _ _ _ _ hr
  obtain ⟨m1, m, m2⟩ := hReint_more _ _ _ _ _ _ hr
  have hc : r.cut = false := by
    cases hc : r.cut with
    | false => rfl
    | true => exact absurd (k1 hc).2 h2
  obtain ⟨x, hx⟩ := k8 z h6
  refine ⟨⟨rfl, h2, hc, k4 h4, k5 h5, ⟨_, hx, h7, h8⟩⟩, ?_, m1⟩
  intro hn hb
  have hb' : st.back = [] := by
    rw [m2] at hb
    exact (List.append_eq_nil_iff.1 hb).2
  have e := k6 hn
  rw [hb, hb', List.append_nil, List.append_nil] at e
  exact ⟨e, by rw [e]; exact k7 hn hc hb⟩

/-- The loop: no undefined behaviour; in the end, either `last` is not the end of the list, or some datum is not marked, or all distances have been checked. -/
theorem hLoop_inv {E : HEnv K C} {P : HParams K} {Sat : C → Prop} {f : Datum K C} {fin : C} {A : ℕ → HAnswers K C} (hA : ∀ t, HSound Sat (A t)) (fr fuel t nb : ℕ) (st : HSt K C) (h : HInv E P Sat f fin st) :
    hLoop E P A fr fuel t nb st ≠ .ub ∧ ∀ st', hLoop E P A fr fuel t nb st = .done st' → HInv E P Sat f fin st' ∧ (st'.back = [] → (∀ d ∈ st'.front, d.b = true) → Chk P f st'.front) := by
  induction fuel generalizing t nb st with
  | zero => exact ⟨fun h => (by cases h), fun st' h => (by cases h)⟩
  | succ fuel ih =>
    obtain ⟨all, st1, s1, s2, s3, s4⟩ := hStep_inv h (hA t)
    rw [hLoop]
    simp only [s1]
    by_cases c1 : st1.size < P.maxNum ∨ all = true
    · rw [if_pos c1]
      cases hr : hReint E P (A t).sig fr st1.first st1.front st1.back 0 with
      | none => exact ⟨fun h => (by cases h), fun st' h => (by cases h)⟩
      | some r =>
        obtain ⟨i1, i2, i3⟩ := hReint_inv s2 hr
        have hfin : HInv E P Sat f fin (r.state st1.first) ∧ ((r.state st1.first).back = [] → (∀ d ∈ (r.state st1.first).front, d.b = true) → Chk P f (r.state st1.first).front) := by
          refine ⟨i1, fun hb hm => ?_⟩
          rcases Nat.eq_zero_or_pos r.n with hn | hn
          · exact (i2 hn hb).2
          · obtain ⟨d, d1, d2⟩ := i3 hn
            have hb' : r.back = [] := hb
            rw [hb', List.append_nil] at d1
            rw [hm d d1] at d2
            cases d2
        simp only
        by_cases c2 : 2 * P.maxIter < (if 0 < r.n then 0 else nb) + 1
        · rw [if_pos c2]
          exact ⟨fun h => (by cases h), fun st' h => (by cases h; exact hfin)⟩
        · rw [if_neg c2]
          by_cases c3 : all = false ∨ 0 < r.n
          · rw [if_pos c3]; exact ih _ _ _ i1
          · rw [if_neg c3]
            exact ⟨fun h => (by cases h), fun st' h => (by cases h; exact hfin)⟩
    · rw [if_neg c1]
      push Not at c1
      by_cases c2 : 2 * P.maxIter < nb + 1
      · rw [if_pos c2]
        refine ⟨fun h => (by cases h), fun st' h => ?_⟩
        cases h
        exact ⟨s2, fun _ hm => absurd (s3.2 hm) c1.2⟩
      · rw [if_neg c2]; exact ih _ _ _ s2

/-- The state after the first call to `reinterpolate`. -/
theorem hInit_inv {E : HEnv K C} {P : HParams K} (Sat : C → Prop) {sig : C → K} {fr : ℕ} {a fin : C} {r : HRes K C} (hr : hReint E P sig fr ⟨a, 0, 0, sig a, true⟩ (hData E sig true a [fin]) [] 0 = some r)
    (hs : (r.state ⟨a, 0, 0, sig a, true⟩).size ≠ 2) : HInv E P Sat ⟨a, 0, 0, sig a, true⟩ fin (r.state ⟨a, 0, 0, sig a, true⟩) := by
  obtain ⟨k1, k2, k3, k4, k5, k6, k7, k8⟩ := hReint_spec (Sat := Sat) _ _ _ _ _ _ hr
  have hn : r.n ≠ 0 := by
    intro hn
    apply hs
    have := congrArg List.length (k6 hn)
    unfold HSt.size HRes.state
    simp only [List.length_append] at this
    simp only [hData, List.length_singleton, List.length_nil] at this ⊢
    omega
  have hg : ¬ (sig a < P.dmin * P.hess ∨ P.maxIter ≤ 0) := by
    intro hg
    cases fr with
    | zero => cases hr
    | succ fr =>
      rw [hData, hReint, if_pos hg] at hr
      cases hr
      exact hn rfl
  obtain ⟨x, hx⟩ := k8 ⟨fin, E.dist a fin, 0, sig fin, true⟩ rfl
  refine ⟨rfl, hg, ?_, k4 ⟨rfl, trivial⟩, k5 (fun d hd => (by cases hd)), ⟨_, hx, rfl, rfl⟩⟩
  cases hc : r.cut with
  | false => exact hc
  | true => exact absurd (k1 hc).2 hg

/-- C96: for a path that is not an interpolated path, nothing out of the list is read or written, whatever the solver answers. -/
theorem C96_defined (E : HEnv K C) (P : HParams K) (A : ℕ → HAnswers K C) (sig : C → K) (fr fuel : ℕ) (cons : Option (Cst K C)) (a fin : C) : hProject E P A sig fr fuel cons true a [fin] ≠ .ub := by
  unfold hProject
  cases hr : hReint E P sig fr ⟨a, 0, 0, sig a, true⟩ (hData E sig true a [fin]) [] 0 with
  | none => exact fun h => (by cases h)
  | some r =>
    simp only
    by_cases hs : (r.state ⟨a, 0, 0, sig a, true⟩).size = 2
    · rw [if_pos hs]; exact fun h => (by cases h)
    · rw [if_neg hs]
      have := (hLoop_inv (Sat := fun _ => True) (A := A) (fun t _ _ _ => trivial) fr fuel 0 0 _ (hInit_inv (fun _ => True) hr hs)).1
      cases hl : hLoop E P A fr fuel 0 0 (r.state ⟨a, 0, 0, sig a, true⟩) with
      | ub => exact absurd hl this
      | running => exact fun h => (by cases h)
      | done st => exact fun h => (by cases h)

theorem takeWhile_item (l : List (Datum K C)) : ∃ l' r, l = l' ++ r ∧ (l.map Datum.item).takeWhile Item.b = l'.map Datum.item ∧ (∀ d ∈ l', d.b = true) ∧ ((∀ d ∈ l, d.b = true) → r = []) ∧ (r = [] → ∀ d ∈ l, d.b = true) := by
  induction l with
  | nil => exact ⟨[], [], rfl, rfl, fun d hd => (by cases hd), fun _ => rfl, fun _ d hd => (by cases hd)⟩
  | cons d l ih =>
    obtain ⟨l', r, h1, h2, h3, h4, h5⟩ := ih
    by_cases hb : d.b = true
    · refine ⟨d :: l', r, by rw [h1]; rfl, ?_, ?_, fun h => h4 fun y hy => h y (List.mem_cons_of_mem _ hy), fun h y hy => ?_⟩
      · rw [List.map_cons, List.takeWhile_cons_of_pos (by exact hb), h2]; rfl
      · intro y hy; rcases List.mem_cons.1 hy with rfl | hy
        · exact hb
        · exact h3 y hy
      · rcases List.mem_cons.1 hy with rfl | hy
        · exact hb
        · exact h5 h y hy
    · refine ⟨[], d :: l, rfl, ?_, fun y hy => (by cases hy), fun h => absurd (h d List.mem_cons_self) hb, fun h => (by cases h)⟩
      rw [List.map_cons, List.takeWhile_cons_of_neg (by exact hb)]; rfl

theorem lastQ_item (a : C) (l : List (Datum K C)) : lastQ a (l.map Datum.item) = lastD a l := by
  unfold lastQ lastD
  rw [List.getLast?_map]
  cases l.getLast? <;> rfl

/-- C96: for a path that is not an interpolated path, a path that is built starts from the initial configuration, consecutive way points are separated by their distance, and all of them after the first one satisfy the constraints.
In case of success the last one is the final configuration, which is the only one that may not satisfy the constraints, and two consecutive way points are as close as the bound on the hessian requires,
with singular values not smaller than the bound. -/
theorem C96_path {E : HEnv K C} (hpos : ∀ a b, 0 ≤ E.dist a b) (hsep : ∀ a b, E.dist a b = 0 → a = b) (P : HParams K) (A : ℕ → HAnswers K C) (Sat : C → Prop) (hA : ∀ t, HSound Sat (A t)) (sig : C → K) (fr fuel : ℕ)
    (cons : Option (Cst K C)) (a fin : C) (ok : Bool) (ip : Ipath K C) (h : hProject E P A sig fr fuel cons true a [fin] = .path ok ip) :
    ∃ ds : List (Datum K C), ip.pts = (0, a) :: comp 0 (ds.map Datum.item) ∧ ip.cons = cons ∧ (∀ x ∈ ip.pts, x.2 = a ∨ ∃ d ∈ ds, x.2 = d.q) ∧
      (∀ (i : ℕ) (x y : K × C), ip.pts[i]? = some x → ip.pts[i + 1]? = some y → x.1 < y.1 ∧ y.1 - x.1 = E.dist x.2 y.2) ∧
      ip.pr.1 = 0 ∧ ip.pts.getLast? = some (ip.pr.2, lastD a ds) ∧ HExact E a ds ∧ (ok = false → ∀ d ∈ ds, Sat d.q) ∧
      (ok = true → lastD a ds = fin ∧ (∀ d ∈ ds.dropLast, Sat d.q) ∧ Chk P ⟨a, 0, 0, sig a, true⟩ ds) := by
  unfold hProject at h
  cases hr : hReint E P sig fr ⟨a, 0, 0, sig a, true⟩ (hData E sig true a [fin]) [] 0 with
  | none => rw [hr] at h; cases h
  | some r =>
    rw [hr] at h
    simp only at h
    by_cases hs : (r.state ⟨a, 0, 0, sig a, true⟩).size = 2
    · rw [if_pos hs] at h; cases h
    · rw [if_neg hs] at h
      cases hl : hLoop E P A fr fuel 0 0 (r.state ⟨a, 0, 0, sig a, true⟩) with
      | ub => rw [hl] at h; cases h
      | running => rw [hl] at h; cases h
      | done st =>
        rw [hl] at h
        obtain ⟨hI, hC⟩ := (hLoop_inv hA fr fuel 0 0 _ (hInit_inv Sat hr hs)).2 st hl
        obtain ⟨i1, i2, i3, i4, i5, z, i6, i7, i8⟩ := hI
        unfold hCreate at h
        simp only [i1, HOut.path.injEq] at h
        obtain ⟨hok, hip⟩ := h
        obtain ⟨ds, rest, t1, t2, t3, t4, t5⟩ := takeWhile_item st.front
        rw [t2] at hip
        have hds : HExact E a ds := hexact_append (l' := rest) (by rw [← t1]; exact i4)
        have hE : GlContract (⟨E.dist, fun x _ => x⟩ : GlEnv K C) := ⟨hpos, hsep⟩
        have hex := hds.item fun x _ => x
        obtain ⟨p1, p2, p3⟩ := build_pts hE cons a _ hex
        rw [hip] at p1 p2 p3
        refine ⟨ds, p1, p3, ?_, ?_, by rw [p2], ?_, hds, ?_, ?_⟩
        · intro x hx
          rw [p1] at hx
          rcases List.mem_cons.1 hx with rfl | hx
          · exact Or.inl rfl
          · obtain ⟨it, m1, m2⟩ := comp_mem hx
            obtain ⟨d, m3, rfl⟩ := List.mem_map.1 m1
            exact Or.inr ⟨d, m3, m2⟩
        · rw [p1]; exact comp_timed hE hex
        · rw [p1, p2, comp_last hE hex, zero_add, lastQ_item]
        · intro hf d hd
          refine i5 d ?_ (t3 d hd)
          have hne : rest ++ st.back ≠ [] := by
            intro e
            obtain ⟨e1, e2⟩ := List.append_eq_nil_iff.1 e
            rw [← hok, e2] at hf
            have := t5 e1
            rw [Bool.and_eq_false_iff] at hf
            rcases hf with hf | hf
            · cases hf
            · rw [List.all_eq_true.2 (by simpa using this)] at hf; cases hf
          rw [t1, List.append_assoc, List.dropLast_append_of_ne_nil hne]
          exact List.mem_append_left _ hd
        · intro ht
          rw [← hok, Bool.and_eq_true] at ht
          have hb : st.back = [] := by simpa using ht.1
          have hall : ∀ d ∈ st.front, d.b = true := by simpa using ht.2
          have hr0 := t4 hall
          rw [hr0, List.append_nil] at t1
          rw [hb, List.append_nil] at i5 i6
          rw [t1] at i5 i6
          refine ⟨?_, ?_, ?_⟩
          · unfold lastD; rw [i6]; exact i7
          · intro d hd; exact i5 d hd (t3 d (List.mem_of_mem_dropLast hd))
          · have := hC hb hall
            rw [t1] at this
            exact this

/-- C96: the path is returned as is, with success, if and only if the initial or final configuration is rejected, or the ends are close. -/
theorem C96_same (E : HEnv K C) (P : HParams K) (A : ℕ → HAnswers K C) (sig : C → K) (fr fuel : ℕ) (cons : Option (Cst K C)) (a fin : C) (hfr : 2 ≤ fr) :
    hProject E P A sig fr fuel cons true a [fin] = .same ↔ sig a < P.dmin * P.hess ∨ P.maxIter = 0 ∨ sig fin < P.dmin * P.hess ∨ E.dist a fin ≤ (sig a + sig fin) / P.hess := by
  obtain ⟨f, rfl⟩ : ∃ f, fr = f + 2 := ⟨fr - 2, by omega⟩
  unfold hProject
  rw [hData, hReint]
  by_cases c1 : sig a < P.dmin * P.hess ∨ P.maxIter ≤ 0
  · rw [if_pos c1]
    refine ⟨fun _ => ?_, fun _ => rfl⟩
    rcases c1 with c1 | c1
    · exact Or.inl c1
    · exact Or.inr (Or.inl (by omega))
  · rw [if_neg c1]
    by_cases c2 : sig fin < P.dmin * P.hess
    · rw [if_pos c2]; exact ⟨fun _ => Or.inr (Or.inr (Or.inl c2)), fun _ => rfl⟩
    · rw [if_neg c2]
      by_cases c3 : (sig a + sig fin) / P.hess < E.dist a fin
      · rw [if_pos c3]
        constructor
        · intro h
          exfalso
          simp only [hData] at h
          cases hr : hReint E P sig (f + 1) ⟨E.interp a fin (sig a / (P.hess * E.dist a fin)), E.dist a (E.interp a fin (sig a / (P.hess * E.dist a fin))), 0, sig (E.interp a fin (sig a / (P.hess * E.dist a fin))), false⟩
              [⟨fin, E.dist (E.interp a fin (sig a / (P.hess * E.dist a fin))) fin, 0, sig fin, true⟩] [] 1 with
          | none => rw [hr] at h; cases h
          | some r =>
            rw [hr] at h
            obtain ⟨k1, k2, k3, -⟩ := hReint_spec (Sat := fun _ => True) _ _ _ _ _ _ hr
            have hall := HRes.push_all ⟨E.interp a fin (sig a / (P.hess * E.dist a fin)), E.dist a (E.interp a fin (sig a / (P.hess * E.dist a fin))), 0, sig (E.interp a fin (sig a / (P.hess * E.dist a fin))), false⟩ r (fun h => (k1 h).1)
            have hlen := congrArg List.length hall
            simp only [List.length_append, List.length_cons, List.length_nil] at hlen k3
            simp only [Option.map_some] at h
            rw [if_neg (by unfold HSt.size HRes.state; simp only; omega)] at h
            cases hl : hLoop E P A (f + 1 + 1) fuel 0 0 ((r.push ⟨E.interp a fin (sig a / (P.hess * E.dist a fin)), E.dist a (E.interp a fin (sig a / (P.hess * E.dist a fin))), 0, sig (E.interp a fin (sig a / (P.hess * E.dist a fin))), false⟩).state ⟨a, 0, 0, sig a, true⟩) with
            | ub => rw [hl] at h; cases h
            | running => rw [hl] at h; cases h
            | done st => rw [hl] at h; cases h
        · push Not at c1 c2
          rintro (h | h | h | h)
          · exact absurd h (not_lt.2 c1.1)
          · omega
          · exact absurd h (not_lt.2 c2)
          · exact absurd c3 (not_lt.2 h)
      · rw [if_neg c3]
        exact ⟨fun _ => Or.inr (Or.inr (Or.inr (not_lt.1 c3))), fun _ => rfl⟩

/-- Assumptions: interpolation is along a geodesic. -/
structure GeoContract (E : HEnv K C) : Prop where
  pos : ∀ a b, 0 ≤ E.dist a b
  left : ∀ a b t, 0 < t → t < 1 → E.dist a (E.interp a b t) = t * E.dist a b
  right : ∀ a b t, 0 < t → t < 1 → E.dist (E.interp a b t) b = (1 - t) * E.dist a b

theorem hReint_param {P : HParams K} (hd : 0 < P.dmin) (hK : 0 < P.hess) {p d : Datum K C} (c1 : ¬ (p.s < P.dmin * P.hess ∨ P.maxIter ≤ p.n)) (c2 : ¬ d.s < P.dmin * P.hess) (c3 : (p.s + d.s) / P.hess < d.l) :
    0 < p.s / (P.hess * d.l) ∧ p.s / (P.hess * d.l) < 1 ∧ P.dmin ≤ p.s / (P.hess * d.l) * d.l := by
  push Not at c1 c2
  have hs : 0 < P.dmin * P.hess := mul_pos hd hK
  have h1 : 0 < p.s := hs.trans_le c1.1
  have h2 : 0 < d.s := hs.trans_le c2
  rw [div_lt_iff₀ hK] at c3
  have hl : 0 < d.l := by
    by_contra hl
    have : d.l * P.hess ≤ 0 := mul_nonpos_of_nonpos_of_nonneg (not_lt.1 hl) hK.le
    linarith
  have hKl : 0 < P.hess * d.l := mul_pos hK hl
  refine ⟨div_pos h1 hKl, ?_, ?_⟩
  · rw [div_lt_one hKl]; nlinarith
  · have e : p.s / (P.hess * d.l) * d.l = p.s / P.hess := by field_simp
    rw [e, le_div_iff₀ hK]; exact c1.1

/-- C96: configurations are interpolated strictly between two configurations: `reinterpolate` does not depend on `interp` elsewhere. -/
theorem C96_inside {E E' : HEnv K C} {P : HParams K} (hd : 0 < P.dmin) (hK : 0 < P.hess) (he : E.dist = E'.dist) (hi : ∀ a b t, 0 < t → t < 1 → E.interp a b t = E'.interp a b t) (sig : C → K) (fuel : ℕ) (prev : Datum K C)
    (front back : List (Datum K C)) (n : ℕ) : hReint E P sig fuel prev front back n = hReint E' P sig fuel prev front back n := by
  induction fuel generalizing prev front n with
  | zero => rfl
  | succ fuel ih =>
    cases front with
    | nil => rfl
    | cons d l =>
      rw [hReint, hReint]
      by_cases c1 : prev.s < P.dmin * P.hess ∨ P.maxIter ≤ prev.n
      · rw [if_pos c1, if_pos c1]
      · rw [if_neg c1, if_neg c1]
        by_cases c2 : d.s < P.dmin * P.hess
        · rw [if_pos c2, if_pos c2]
        · rw [if_neg c2, if_neg c2]
          by_cases c3 : (prev.s + d.s) / P.hess < d.l
          · obtain ⟨p1, p2, -⟩ := hReint_param hd hK c1 c2 c3
            rw [if_pos c3, if_pos c3, hi _ _ _ p1 p2, he]
            simp only [ih]
          · rw [if_neg c3, if_neg c3, ih]

/-- C96: a call to `reinterpolate` ends: each configuration it adds is farther than `thresholdMin_` from the previous one on the same segment. -/
theorem C96_reinterpolate_terminates [Archimedean K] {E : HEnv K C} (hE : GeoContract E) {P : HParams K} (hd : 0 < P.dmin) (hK : 0 < P.hess) (sig : C → K) (prev : Datum K C) (front back : List (Datum K C)) (n : ℕ)
    (hex : HExact E prev.q front) : ∃ f0, ∀ fuel ≥ f0, ∃ r, hReint E P sig fuel prev front back n = some r := by
  have key : ∀ (fuel : ℕ) (prev : Datum K C) (front : List (Datum K C)) (n : ℕ), HExact E prev.q front → (front.map fun d => d.l / P.dmin + 1).sum < fuel → ∃ r, hReint E P sig fuel prev front back n = some r := by
    intro fuel
    induction fuel with
    | zero =>
      intro prev front n hex hf
      exfalso
      have hnn : ∀ (a : C) (l : List (Datum K C)), HExact E a l → 0 ≤ (l.map fun d => d.l / P.dmin + 1).sum := by
        intro a l
        induction l generalizing a with
        | nil => intro _; simp
        | cons d l ih =>
          intro hx
          rw [List.map_cons, List.sum_cons]
          have h1 : 0 ≤ d.l / P.dmin := div_nonneg (by rw [hx.1]; exact hE.pos _ _) hd.le
          have h2 := ih _ hx.2
          linarith
      have := hnn _ _ hex
      push_cast at hf
      linarith
    | succ fuel ih =>
      intro prev front n hex hf
      cases front with
      | nil => exact ⟨_, rfl⟩
      | cons d l =>
        rw [List.map_cons, List.sum_cons] at hf
        push_cast at hf
        have h1 : 0 ≤ d.l / P.dmin := div_nonneg (by rw [hex.1]; exact hE.pos _ _) hd.le
        rw [hReint]
        by_cases c1 : prev.s < P.dmin * P.hess ∨ P.maxIter ≤ prev.n
        · rw [if_pos c1]; exact ⟨_, rfl⟩
        · rw [if_neg c1]
          by_cases c2 : d.s < P.dmin * P.hess
          · rw [if_pos c2]; exact ⟨_, rfl⟩
          · rw [if_neg c2]
            by_cases c3 : (prev.s + d.s) / P.hess < d.l
            · rw [if_pos c3]
              obtain ⟨p1, p2, p3⟩ := hReint_param hd hK c1 c2 c3
              obtain ⟨r, hr⟩ := ih ⟨E.interp prev.q d.q (prev.s / (P.hess * d.l)), E.dist prev.q (E.interp prev.q d.q (prev.s / (P.hess * d.l))), 0, sig (E.interp prev.q d.q (prev.s / (P.hess * d.l))), false⟩
                (⟨d.q, E.dist (E.interp prev.q d.q (prev.s / (P.hess * d.l))) d.q, d.n, d.s, d.b⟩ :: l) (n + 1) ⟨rfl, hex.2⟩ (by
                  rw [List.map_cons, List.sum_cons]
                  simp only
                  rw [hE.right _ _ _ p1 p2, ← hex.1]
                  have e : (1 - prev.s / (P.hess * d.l)) * d.l / P.dmin ≤ d.l / P.dmin - 1 := by
                    rw [le_sub_iff_add_le, div_add_one hd.ne']
                    refine div_le_div_of_nonneg_right ?_ hd.le
                    linarith
                  linarith)
              simp only [hr]; exact ⟨_, rfl⟩
            · rw [if_neg c3]
              obtain ⟨r, hr⟩ := ih d l n hex.2 (by linarith)
              rw [hr]; exact ⟨_, rfl⟩
  obtain ⟨f0, hf0⟩ := exists_nat_gt ((front.map fun d => d.l / P.dmin + 1).sum)
  exact ⟨f0, fun fuel hf => key fuel prev front n hex (lt_of_lt_of_le hf0 (by exact_mod_cast hf))⟩

/-! ## Instances -/

/-- The line. -/
def hline : HEnv ℚ ℚ := ⟨fun a b => |a - b|, fun a b t => a + t * (b - a)⟩

theorem hline_contract : GeoContract hline where
  pos a b := abs_nonneg _
  left a b t h0 h1 := by
    show |a - (a + t * (b - a))| = t * |a - b|
    rw [show a - (a + t * (b - a)) = t * (a - b) by ring, abs_mul, abs_of_pos h0]
  right a b t h0 h1 := by
    show |a + t * (b - a) - b| = (1 - t) * |a - b|
    rw [show a + t * (b - a) - b = (1 - t) * (a - b) by ring, abs_mul, abs_of_pos (by linarith)]

/-- Way points of the result. -/
def HOut.wps : HOut K C → Option (Bool × List (K × C))
  | .path ok ip => some (ok, ip.pts)
  | _ => none

/-- An instance of the theorems: the solver divides by two until 3/5 and all singular values are 1/4. -/
def hhalving : HAnswers ℚ ℚ := ⟨fun _ q => (decide (q / 2 ≤ 3 / 5), q / 2, 1 / 4), fun _ => 1 / 4⟩

theorem hhalving_sound : HSound (fun q => q ≤ 3 / 5) hhalving := fun _ _ h => of_decide_eq_true h

example : (hProject hline ⟨1, 1 / 1000, 10, 100⟩ (fun _ => hhalving) (fun _ => 1 / 4) 50 50 none true 0 [3 / 5]).wps = some (true, [(0, 0), (1 / 8, 1 / 8), (3 / 5, 3 / 5)]) := by
  decide +kernel

/-- Another one: configurations with a small singular value cut the path. -/
example : (hProject hline ⟨1, 1 / 1000, 10, 100⟩ (fun _ => hhalving) (fun q => if 1 ≤ q ∧ q ≤ 5 then 1 / 2000 else 1 / 4) 50 50 none true 0 [9]).wps =
    some (false, [(0, 0), (1 / 8, 1 / 8), (1 / 4, 1 / 4), (3 / 8, 3 / 8)]) := by decide +kernel

/-! ## Counterexamples -/

/-- The singular value of the initial configuration is too small: a path of any length is returned as is, with success. -/
theorem C96_rejected_counterexample (A : ℕ → HAnswers ℚ ℚ) (L : ℚ) (fr fuel : ℕ) (hfr : 2 ≤ fr) : hProject hline ⟨1, 1 / 1000, 10, 100⟩ A (fun q => if q = 0 then 0 else 1) fr fuel none true 0 [L] = .same := by
  rw [C96_same _ _ _ _ _ _ _ _ _ hfr]
  left
  norm_num

theorem hSweep_upd {E : HEnv K C} {A : HAnswers K C} (l : List (Datum K C)) (i : ℕ) (prev : C) (pu : Bool) (z : Datum K C) (hz : z.b = false) : (hSweep E A i prev pu (l ++ [z])).2.2 = true := by
  induction l generalizing i prev pu with
  | nil => rw [List.nil_append, hSweep, if_neg (by rw [hz]; simp)]; rfl
  | cons d l ih =>
    rw [List.cons_append, hSweep]
    by_cases hb : d.b = true
    · rw [if_pos hb]; exact ih _ _ _
    · rw [if_neg hb]; exact ih _ _ _

/-- Interpolated paths: the last way point is not marked, so that it is projected too, and the length of the datum after it is written. -/
theorem hStep_ub (E : HEnv K C) (A : HAnswers K C) (f : Datum K C) (l : List (Datum K C)) (z : Datum K C) (hz : z.b = false) : hStep E A ⟨f, l ++ [z], [], false⟩ = none := by
  unfold hStep
  simp only [hSweep_upd l 0 f.q false z hz]
  rfl

/-- C96: projecting an interpolated path with three way points writes the end of the list, whatever the solver answers. -/
theorem C96_interpolated_counterexample (A : ℕ → HAnswers ℚ ℚ) (fuel : ℕ) : hProject hline ⟨1, 1 / 1000, 10, 100⟩ A (fun _ => 1) 50 (fuel + 1) none false 0 [1 / 4, 1 / 2] = .ub := by
  have h1 : hReint hline ⟨1, 1 / 1000, 10, 100⟩ (fun _ => 1) 50 ⟨0, 0, 0, 1, true⟩ (hData hline (fun _ => 1) false 0 [1 / 4, 1 / 2]) [] 0 = some ⟨[⟨1 / 4, 1 / 4, 0, 1, false⟩, ⟨1 / 2, 1 / 4, 0, 1, false⟩], [], 0, false⟩ := by
    decide +kernel
  unfold hProject
  rw [h1]
  have h2 := hStep_ub hline (A 0) ⟨0, 0, 0, 1, true⟩ [⟨1 / 4, 1 / 4, 0, 1, false⟩] ⟨1 / 2, 1 / 4, 0, 1, false⟩ rfl
  simp only
  rw [if_neg (by decide), hLoop]
  have h3 : (HRes.state (⟨0, 0, 0, 1, true⟩ : Datum ℚ ℚ) ⟨[⟨1 / 4, 1 / 4, 0, 1, false⟩, ⟨1 / 2, 1 / 4, 0, 1, false⟩], [], 0, false⟩) = ⟨⟨0, 0, 0, 1, true⟩, [⟨1 / 4, 1 / 4, 0, 1, false⟩] ++ [⟨1 / 2, 1 / 4, 0, 1, false⟩], [], false⟩ := rfl
  rw [h3, h2]

/-- `PathProjection/MinimalDist` = 0: `reinterpolate` does not end where singular values are 0. -/
theorem C96_zero_counterexample (fuel n : ℕ) (b : Bool) : hReint hline ⟨1, 0, 10, 100⟩ (fun _ => 0) fuel ⟨0, 0, 0, 0, b⟩ [⟨1, 1, 0, 0, true⟩] [] n = none := by
  induction fuel generalizing n b with
  | zero => rfl
  | succ fuel ih =>
    rw [hReint]
    have h := ih (n + 1) false
    simp only [hline] at h ⊢
    norm_num
    norm_num at h
    exact h

/-- A solver that sends every configuration on 3. -/
def gap : HAnswers ℚ ℚ := ⟨fun _ _ => (true, 3, 1), fun _ => 1⟩

/-- Configurations gathered on 3. -/
def Gathered (l : List (Datum ℚ ℚ)) : Prop := ∀ d ∈ l, d.q = 3 ∧ d.l = 0 ∧ d.s = 1 ∧ d.b = true ∧ d.n < 10

theorem gap_reint (fuel : ℕ) (prev : Datum ℚ ℚ) (hs : prev.s = 1) (hn : prev.n < 10) (l : List (Datum ℚ ℚ)) (hl : Gathered l) (n : ℕ) :
    hReint hline ⟨1, 1 / 1000, 10, 100⟩ gap.sig fuel prev l [] n = none ∨ hReint hline ⟨1, 1 / 1000, 10, 100⟩ gap.sig fuel prev l [] n = some ⟨l, [], n, false⟩ := by
  induction fuel generalizing prev l with
  | zero => exact Or.inl rfl
  | succ fuel ih =>
    cases l with
    | nil => exact Or.inr rfl
    | cons d l =>
      obtain ⟨h1, h2, h3, h4, h5⟩ := hl d List.mem_cons_self
      rw [hReint, if_neg (by rw [hs]; push Not; exact ⟨by norm_num, hn⟩), if_neg (by rw [h3]; norm_num), if_neg (by rw [hs, h3, h2]; norm_num)]
      rcases ih d h3 h5 l (fun y hy => hl y (List.mem_cons_of_mem _ hy)) with e | e
      · rw [e]; exact Or.inl rfl
      · rw [e]; exact Or.inr rfl

theorem gap_sweep (l : List (Datum ℚ ℚ)) (hl : Gathered l) (i : ℕ) : hSweep hline gap i 3 false l = (l, true, false) := by
  induction l generalizing i with
  | nil => rfl
  | cons d l ih =>
    obtain ⟨h1, h2, h3, h4, h5⟩ := hl d List.mem_cons_self
    rw [hSweep, if_pos h4, h1, ih (fun y hy => hl y (List.mem_cons_of_mem _ hy))]
    rfl

theorem gap_loop (fr fuel t nb : ℕ) (l : List (Datum ℚ ℚ)) (m : ℕ) (hm : m < 10) (hl : Gathered l) :
    hLoop hline ⟨1, 1 / 1000, 10, 100⟩ (fun _ => gap) fr fuel t nb ⟨⟨0, 0, 0, 1, true⟩, ⟨1, 1, 0, 1, false⟩ :: ⟨3, 2, m, 1, true⟩ :: l, [], false⟩ = .running := by
  induction fuel generalizing t nb l m with
  | zero => rfl
  | succ fuel ih =>
    have hG : Gathered (⟨3, 0, m, 1, true⟩ :: l) := by
      intro d hd
      rcases List.mem_cons.1 hd with rfl | hd
      · exact ⟨rfl, rfl, rfl, rfl, hm⟩
      · exact hl d hd
    have h1 : hStep hline gap ⟨⟨0, 0, 0, 1, true⟩, ⟨1, 1, 0, 1, false⟩ :: ⟨3, 2, m, 1, true⟩ :: l, [], false⟩ = some (true, ⟨⟨0, 0, 0, 1, true⟩, ⟨3, 3, 1, 1, true⟩ :: ⟨3, 0, m, 1, true⟩ :: l, [], false⟩) := by
      have e : hSweep hline gap 0 0 false (⟨1, 1, 0, 1, false⟩ :: ⟨3, 2, m, 1, true⟩ :: l) = (⟨3, 3, 1, 1, true⟩ :: ⟨3, 0, m, 1, true⟩ :: l, true, false) := by
        rw [hSweep, if_neg (by simp)]
        show (_ :: (hSweep hline gap 1 3 true (⟨3, 2, m, 1, true⟩ :: l)).1, _, _) = _
        have e2 : hSweep hline gap 1 3 true (⟨3, 2, m, 1, true⟩ :: l) = (⟨3, 0, m, 1, true⟩ :: l, true, false) := by
          rw [hSweep, if_pos rfl, gap_sweep l hl]
          simp [hline]
        have e3 : (gap.step 0 1).2.1 = 3 := rfl
        simp only [e3]
        rw [e2]
        simp [gap, hline]
      unfold hStep
      simp only [e]
      rfl
    rw [hLoop]
    simp only [h1]
    rw [if_pos (Or.inr trivial)]
    cases fr with
    | zero => rfl
    | succ fr =>
      have h2 : hReint hline ⟨1, 1 / 1000, 10, 100⟩ gap.sig (fr + 1) ⟨0, 0, 0, 1, true⟩ (⟨3, 3, 1, 1, true⟩ :: ⟨3, 0, m, 1, true⟩ :: l) [] 0 =
          (hReint hline ⟨1, 1 / 1000, 10, 100⟩ gap.sig fr ⟨1, 1, 0, 1, false⟩ (⟨3, 2, 1, 1, true⟩ :: ⟨3, 0, m, 1, true⟩ :: l) [] 1).map (HRes.push ⟨1, 1, 0, 1, false⟩) := by
        rw [hReint]
        norm_num [hline, gap]
      rw [h2]
      cases fr with
      | zero => rfl
      | succ fr =>
        have h3 : hReint hline ⟨1, 1 / 1000, 10, 100⟩ gap.sig (fr + 1) ⟨1, 1, 0, 1, false⟩ (⟨3, 2, 1, 1, true⟩ :: ⟨3, 0, m, 1, true⟩ :: l) [] 1 =
            (hReint hline ⟨1, 1 / 1000, 10, 100⟩ gap.sig fr ⟨3, 2, 1, 1, true⟩ (⟨3, 0, m, 1, true⟩ :: l) [] 1).map (HRes.push ⟨3, 2, 1, 1, true⟩) := by
          rw [hReint, if_neg (by norm_num), if_neg (by norm_num), if_neg (by norm_num)]
        rw [h3]
        rcases gap_reint fr ⟨3, 2, 1, 1, true⟩ rfl (by norm_num) _ hG 1 with e | e
        · rw [e]; rfl
        · rw [e]
          exact ih _ _ _ 1 (by norm_num) hG

/-- C96: the loop may not end: a solver that leaves a gap makes the projector add a configuration on each iteration, which resets the number of iterations and ignores the maximal number of configurations. -/
theorem C96_termination_counterexample (fr fuel : ℕ) : hProject hline ⟨1, 1 / 1000, 10, 100⟩ (fun _ => gap) (fun _ => 1) (fr + 3) fuel none true 0 [3] = .running := by
  unfold hProject
  have h1 : hReint hline ⟨1, 1 / 1000, 10, 100⟩ (fun _ => 1) (fr + 3) ⟨0, 0, 0, 1, true⟩ (hData hline (fun _ => 1) true 0 [3]) [] 0 = some ⟨[⟨1, 1, 0, 1, false⟩, ⟨3, 2, 0, 1, true⟩], [], 1, false⟩ := by
    simp only [hData, hReint, hline]
    norm_num
    rfl
  rw [h1]
  simp only
  rw [if_neg (by decide)]
  have := gap_loop (fr + 3) fuel 0 0 [] 0 (by norm_num) (fun d hd => by cases hd)
  unfold HRes.state
  rw [this]

end Verif.Proj.Hess
