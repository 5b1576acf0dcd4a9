import Verif.Planner.BiRRTStar
set_option linter.unusedSectionVars false

/-! # Trees of BiRRT*: the loops of `extend` and `improve` -/
namespace Verif.Planner.Star
open Verif.Roadmap Verif.Planner
variable {Q P K : Type} [DecidableEq Q] [AddCommGroup K] [LinearOrder K] [IsOrderedAddMonoid K]
  {C : SEnv Q P K} {Valid : P → Prop} {r : Roadmap Q P} {m : PMap P} {root : Nat}

theorem Tree.grow {len : P → K} {r' : Roadmap Q P} (h : Tree len r m root) (g : Grow r r') : Tree len r' m root :=
  ⟨h.up, fun n e he => ⟨g.edges.subset (h.edge n e he).1, (h.edge n e he).2⟩, fun n hn => lt_of_lt_of_le (h.dom n hn) g.length⟩

/-- No cost increases. -/
def Better (len : P → K) (m m' : PMap P) (root : Nat) : Prop := ∀ x d c, Up len m root x d c → ∃ d' c', Up len m' root x d' c' ∧ c' ≤ c

theorem Better.refl (len : P → K) (m : PMap P) (root : Nat) : Better len m m root := fun _ d c h => ⟨d, c, h, le_rfl⟩
theorem Better.trans {len : P → K} {a b c : PMap P} (h : Better len a b root) (h' : Better len b c root) : Better len a c root := by
  intro x d k hx
  obtain ⟨d1, k1, h1, h2⟩ := h x d k hx
  obtain ⟨d2, k2, h3, h4⟩ := h' x d1 k1 h1
  exact ⟨d2, k2, h3, le_trans h4 h2⟩

/-! ## `buildPath` -/

theorem project_spec (hC : Contract C.toPEnv Valid) {p p' : P} {b : Bool} (h : project C.toPEnv p = (b, some p')) :
    C.ini p' = C.ini p ∧ (b = true → C.fin p' = C.fin p) := by
  unfold project at h
  cases hp : C.projector with
  | none =>
    rw [hp] at h
    simp only [Prod.mk.injEq, Option.some.injEq] at h
    rw [h.2]; exact ⟨rfl, fun _ => rfl⟩
  | some f =>
    rw [hp] at h
    exact hC.proj f p b p' hp h

theorem buildPath_valid (hC : Contract C.toPEnv Valid) {a b : Q} {l : Option K} {p : P} (h : (buildPath C.toPEnv a b l true).2 = some p) :
    C.ini p = a ∧ (0 < C.len p → Valid p) := by
  unfold buildPath at h
  cases hs : C.steer a b with
  | none => rw [hs] at h; simp at h
  | some p0 =>
    rw [hs] at h
    simp only at h
    cases hp : project C.toPEnv p0 with
    | mk ok x =>
      rw [hp] at h
      cases x with
      | none => simp at h
      | some p1 =>
        simp only [if_true, Option.some.injEq] at h
        subst h
        refine ⟨?_, fun hl => hC.valid_part _ (Or.inr hl)⟩
        rw [hC.valid_ini]
        have h1 : C.ini (cut C.toPEnv l p1) = C.ini p1 := by
          unfold cut
          cases l with
          | none => rfl
          | some l =>
            simp only
            split
            · exact hC.extract_ini _ _
            · rfl
        rw [h1, (project_spec hC hp).1, (hC.steer a b p0 hs).1]

theorem buildPath_whole (hC : Contract C.toPEnv Valid) {a b : Q} {p : P} (h : buildPath C.toPEnv a b none false = (true, some p)) :
    C.ini p = a ∧ C.fin p = b := by
  unfold buildPath at h
  cases hs : C.steer a b with
  | none => rw [hs] at h; simp at h
  | some p0 =>
    rw [hs] at h
    simp only at h
    cases hp : project C.toPEnv p0 with
    | mk ok x =>
      rw [hp] at h
      cases x with
      | none => simp at h
      | some p1 =>
        simp only [Bool.false_eq_true, if_false, Prod.mk.injEq, Option.some.injEq, cut] at h
        obtain ⟨rfl, rfl⟩ := h
        obtain ⟨h1, h2⟩ := project_spec hC hp
        obtain ⟨h3, h4⟩ := hC.steer a b p0 hs
        exact ⟨by rw [h1, h3], by rw [h2 rfl, h4]⟩

theorem buildPath_some (a b : Q) (l : Option K) (v : Bool) : buildPath C.toPEnv a b l v ≠ (true, none) := by
  unfold buildPath
  cases hs : C.steer a b with
  | none => simp
  | some p0 =>
    simp only
    cases hp : project C.toPEnv p0 with
    | mk ok x =>
      cases x with
      | none => simp
      | some p1 => cases v <;> simp

/-- Lengths: a part of a path that starts at its beginning has the length asked for, the valid part is not longer than the path. -/
structure LengthOk (C : PEnv Q P K) : Prop where
  extract : ∀ p l, 0 < l → l < C.len p → C.len (C.extract p (C.t0 p) (C.t0 p + l)) = l
  valid : ∀ p, C.len (C.validate false p).2 ≤ C.len p

/-- C83: a path built with a positive maximal length is not longer than it; a path that is short enough is not cut. -/
theorem C83_path_length (hL : LengthOk C.toPEnv) {a b : Q} {l : K} (hl : 0 < l) {v : Bool} {p : P} (h : (buildPath C.toPEnv a b (some l) v).2 = some p) :
    C.len p ≤ l := by
  have hcut : ∀ p1, C.len (cut C.toPEnv (some l) p1) ≤ l := by
    intro p1
    unfold cut
    simp only
    by_cases h1 : 0 < l ∧ l < C.len p1
    · rw [if_pos h1]; exact (hL.extract p1 l h1.1 h1.2).le
    · rw [if_neg h1]; exact le_of_not_gt fun h2 => h1 ⟨hl, h2⟩
  unfold buildPath at h
  cases hs : C.steer a b with
  | none => rw [hs] at h; simp at h
  | some p0 =>
    rw [hs] at h
    simp only at h
    cases hp : project C.toPEnv p0 with
    | mk ok x =>
      rw [hp] at h
      cases x with
      | none => simp at h
      | some p1 =>
        cases v with
        | true =>
          simp only [if_true, Option.some.injEq] at h
          rw [← h]; exact le_trans (hL.valid _) (hcut p1)
        | false =>
          simp only [Bool.false_eq_true, if_false, Option.some.injEq] at h
          rw [← h]; exact hcut p1

/-- C83: without projector, the path of the steering method is built when it is not longer than the maximal length, and the answer is the one of the validation. -/
theorem C83_path_success {a b : Q} {p : P} (hp : C.projector = none) (hs : C.steer a b = some p) (l : Option K) (hl : ∀ k, l = some k → C.len p ≤ k) :
    buildPath C.toPEnv a b l false = (true, some p) ∧
    buildPath C.toPEnv a b l true = ((C.validate false p).1, some (C.validate false p).2) := by
  have hc : cut C.toPEnv l p = p := by
    unfold cut
    cases l with
    | none => rfl
    | some k => simp only; rw [if_neg]; exact fun h => absurd h.2 (not_lt.2 (hl k rfl))
  constructor
  · simp only [buildPath, hs, project, hp, hc, Bool.false_eq_true, if_false]
  · simp only [buildPath, hs, project, hp, hc, if_true, Bool.true_and]

/-- C83: a new node of a tree is not further from the closest node than the maximal length, measured along a path. -/
theorem C83_extend_length (hL : LengthOk C.toPEnv) (hm : 0 < C.maxLen) {target : Nat} {q q' : Q} {r r' : Roadmap Q P} {m m' : PMap P}
    (h : extend C target q r m = .ok (r', m', q', true)) :
    ∃ (near : Nat) (x : Q) (p : P), r.configs[near]? = some x ∧ (buildPath C.toPEnv x (C.adjust x q) (some C.maxLen) true).2 = some p ∧ C.fin p = q' ∧
      C.minLen ≤ C.len p ∧ C.len p ≤ C.maxLen := by
  unfold extend at h
  cases h1 : search C.toEnv r q (r.cc target) false with
  | none => rw [h1] at h; cases h
  | some dn =>
    obtain ⟨d, near⟩ := dn
    rw [h1] at h
    simp only at h
    by_cases h2 : d < C.eps
    · rw [if_pos h2] at h; simp at h
    rw [if_neg h2] at h
    cases h3 : r.configs[near]? with
    | none => rw [h3] at h; cases h
    | some x =>
      rw [h3] at h
      simp only at h
      cases h4 : (buildPath C.toPEnv x (C.adjust x q) (some C.maxLen) true).2 with
      | none => rw [h4] at h; simp at h
      | some p =>
        rw [h4] at h
        simp only at h
        by_cases h5 : C.len p < C.minLen
        · rw [if_pos h5] at h; simp at h
        rw [if_neg h5] at h
        refine ⟨near, x, p, h3, h4, ?_, not_lt.1 h5, C83_path_length hL hm h4⟩
        cases h6 : computeCost C.len m (r.configs.length + 1) near with
        | error e => rw [h6] at h; cases h
        | ok c =>
          rw [h6] at h
          simp only at h
          split at h
          · cases h
          · split at h
            · cases h
            · split at h
              · cases h
              · simp only [Except.ok.injEq, Prod.mk.injEq] at h; exact h.2.2.1

/-! ## Loop on the close nodes -/

/-- An element of `paths`: the path joins the node and `q`; it is valid if validation was run. -/
structure EntryOk (C : SEnv Q P K) (Valid : P → Prop) (configs : List Q) (q : Q) (n : Nat) (b : Bool) (p : P) : Prop where
  ini : configs[n]? = some (C.ini p)
  fin : C.fin p = q
  valid : b = true → Valid p

/-- State of the loop: the best parent is a node of the tree, joined by a valid path to `q`, the cost is the one of `q` through it. -/
structure ScanOk (C : SEnv Q P K) (Valid : P → Prop) (configs : List Q) (q : Q) (m : PMap P) (root : Nat) (s : Scan P K) : Prop where
  best : EntryOk C Valid configs q s.near true s.path
  cost : ∃ d c, Up C.len m root s.near d c ∧ s.cost = c + C.len s.path
  paths : ∀ n b p, (n, b, some p) ∈ s.paths → EntryOk C Valid configs q n b p ∧ m n ≠ none

theorem scan_spec (hC : SContract C Valid) (hT : Tree C.len r m root) (q : Q) {cmp : Scan P K → Nat × P}
    (hcmp : ∀ s, ScanOk C Valid r.configs q m root s → EntryOk C Valid r.configs q (cmp s).1 true (cmp s).2) (ns : List Nat) (s : Scan P K)
    (hs : ScanOk C Valid r.configs q m root s) (hns : ∀ n ∈ ns, m n ≠ none) :
    ∃ s', scan C.toPEnv r.configs (fun n => computeCost C.len m (r.configs.length + 1) n) q cmp ns s = .ok s' ∧
      ScanOk C Valid r.configs q m root s' ∧ s'.cost ≤ s.cost := by
  induction ns generalizing s with
  | nil => exact ⟨s, rfl, hs, le_rfl⟩
  | cons n ns ih =>
    have hn := hns n (by simp)
    have hlen := hT.dom n hn
    have hns' : ∀ x ∈ ns, m x ≠ none := fun x hx => hns x (by simp [hx])
    have push : ∀ b p, (∀ x, p = some x → EntryOk C Valid r.configs q n b x) →
        ScanOk C Valid r.configs q m root { s with paths := s.paths ++ [(n, b, p)] } := by
      intro b p hp
      refine ⟨hs.best, hs.cost, ?_⟩
      intro n' b' p' hm
      rcases List.mem_append.1 hm with hm | hm
      · exact hs.paths n' b' p' hm
      · simp only [List.mem_singleton, Prod.mk.injEq] at hm
        obtain ⟨rfl, rfl, rfl⟩ := hm
        exact ⟨hp _ rfl, hn⟩
    rw [scan]
    by_cases h0 : n = (cmp s).1
    · rw [if_pos h0]
      exact ih _ (push true (some (cmp s).2) (fun x hx => by rw [← Option.some.inj hx, h0]; exact hcmp s hs)) hns'
    · rw [if_neg h0, List.getElem?_eq_getElem (hT.dom n hn)]
      simp only
      cases hb : buildPath C.toPEnv r.configs[n] q none false with
      | mk ok x =>
        cases ok with
        | false => exact ih _ (push false none (by simp)) hns'
        | true =>
          cases x with
          | none => exact absurd hb (buildPath_some _ _ _ _)
          | some p =>
            obtain ⟨p1, p2⟩ := buildPath_whole hC.base hb
            obtain ⟨d, c, hc, hu⟩ := hT.cost hn
            have hini : r.configs[n]? = some (C.ini p) := by rw [p1]; exact List.getElem?_eq_getElem (hT.dom n hn)
            simp only [hc]
            by_cases hlt : c + C.len p < s.cost
            · rw [if_pos hlt]
              by_cases hv : (C.validate false p).1 = true
              · rw [if_pos hv]
                have hval := (hC.base.valid_true false p hv).1
                obtain ⟨s', k1, k2, k3⟩ := ih ⟨n, p, c + C.len p, s.paths ++ [(n, true, some p)]⟩
                  ⟨⟨hini, p2, fun _ => hval⟩, ⟨d, c, hu, rfl⟩, (push true (some p) (fun x hx => by
                    rw [← Option.some.inj hx]; exact ⟨hini, p2, fun _ => hval⟩)).paths⟩ hns'
                exact ⟨s', k1, k2, le_trans k3 hlt.le⟩
              · rw [if_neg hv]
                exact ih _ (push true none (by simp)) hns'
            · rw [if_neg hlt]
              exact ih _ (push false (some p) (fun x hx => by
                rw [← Option.some.inj hx]; exact ⟨hini, p2, by simp⟩)) hns'

/-! ## Change of the parents -/

/-- The edges added have their ends in a set of nodes. -/
def NewIn (r r' : Roadmap Q P) (S : Nat → Prop) : Prop := ∀ e ∈ r'.edges, e ∈ r.edges ∨ (S e.src ∧ S e.dst)

theorem NewIn.refl (r : Roadmap Q P) (S : Nat → Prop) : NewIn r r S := fun _ he => Or.inl he
theorem NewIn.trans {a b c : Roadmap Q P} {S : Nat → Prop} (h : NewIn a b S) (h' : NewIn b c S) : NewIn a c S := by
  intro e he
  rcases h' e he with h1 | h1
  · exact h e h1
  · exact Or.inr h1

theorem newEdge_spec (h : Good C.toPEnv Valid [] r) {a b : Nat} {p : P} (hv : Valid p) (ha : r.configs[a]? = some (C.ini p))
    (hb : r.configs[b]? = some (C.fin p)) :
    ∃ r' e, newEdge r a b p = .ok (r', e) ∧ Good C.toPEnv Valid [] r' ∧ Ext r r' ∧ r'.configs = r.configs ∧
      e ∈ r'.edges ∧ e.src = a ∧ e.dst = b ∧ e.path = p ∧ ∀ S : Nat → Prop, S a → S b → NewIn r r' S := by
  obtain ⟨r', h1, h2, h3, h4, h5⟩ := h.addEdge hv ha hb
  refine ⟨r', ⟨r.edges.length, a, b, p⟩, by unfold newEdge; rw [h1], h2, h3, h4, by rw [h5.edges]; simp, rfl, rfl, rfl, ?_⟩
  intro S sa sb e he
  rw [h5.edges] at he
  rcases List.mem_append.1 he with he | he
  · exact Or.inl he
  · rw [List.mem_singleton.1 he]; exact Or.inr ⟨sa, sb⟩

/-- An edge and its reverse. -/
theorem newEdges_spec (hC : SContract C Valid) (h : Good C.toPEnv Valid [] r) {a b : Nat} {p : P} (hv : Valid p) (ha : r.configs[a]? = some (C.ini p))
    (hb : r.configs[b]? = some (C.fin p)) :
    ∃ r1 e1 r2 e2, newEdge r a b p = .ok (r1, e1) ∧ newEdge r1 b a (C.rev p) = .ok (r2, e2) ∧ Good C.toPEnv Valid [] r2 ∧ Ext r r2 ∧ r2.configs = r.configs ∧
      (e1 ∈ r2.edges ∧ e1.src = a ∧ e1.dst = b ∧ e1.path = p) ∧ (e2 ∈ r2.edges ∧ e2.src = b ∧ e2.dst = a ∧ e2.path = C.rev p) ∧
      ∀ S : Nat → Prop, S a → S b → NewIn r r2 S := by
  obtain ⟨r1, e1, h1, h2, h3, h4, h5, h6, h7, h8, h9⟩ := newEdge_spec h hv ha hb
  obtain ⟨r2, e2, k1, k2, k3, k4, k5, k6, k7, k8, k9⟩ := newEdge_spec h2 (a := b) (b := a) (hC.base.rev_valid p hv) (by rw [h4, hC.base.rev_ini]; exact hb)
    (by rw [h4, hC.base.rev_fin]; exact ha)
  exact ⟨r1, e1, r2, e2, h1, k1, k2, h3.trans k3, by rw [k4, h4], ⟨k3.grow.edges.subset h5, h6, h7, h8⟩, ⟨k5, k6, k7, k8⟩,
    fun S sa sb => (h9 S sa sb).trans (k9 S sb sa)⟩

theorem rewire_spec (hC : SContract C Valid) {nnew near : Nat} {costq : K} {q : Q} (l : List (Entry P)) (h : Good C.toPEnv Valid [] r)
    (hT : Tree C.len r m root) {d : Nat} (hu : Up C.len m root nnew d costq) (hq : r.configs[nnew]? = some q)
    (hl : ∀ n b p, (n, b, some p) ∈ l → EntryOk C Valid r.configs q n b p ∧ m n ≠ none) :
    ∃ r' m', rewire C.toPEnv nnew near costq l r m = .ok (r', m') ∧ Good C.toPEnv Valid [] r' ∧ Ext r r' ∧ r'.configs = r.configs ∧
      Tree C.len r' m' root ∧ (∀ n, m' n = none ↔ m n = none) ∧ Better C.len m m' root ∧ NewIn r r' (fun n => m n ≠ none) := by
  induction l generalizing r m d with
  | nil => exact ⟨r, m, rfl, h, Ext.refl r, rfl, hT, fun _ => Iff.rfl, Better.refl _ _ _, NewIn.refl _ _⟩
  | cons x l ih =>
    obtain ⟨n, b, p⟩ := x
    have hl' : ∀ n b p, (n, b, some p) ∈ l → EntryOk C Valid r.configs q n b p ∧ m n ≠ none := fun n b p hp => hl n b p (by simp [hp])
    cases p with
    | none => rw [rewire]; exact ih h hT hu hq hl'
    | some p =>
      obtain ⟨⟨e1, e2, e3⟩, hn⟩ := hl n b p (by simp)
      rw [rewire]
      by_cases h0 : n = near
      · rw [if_pos h0]; exact ih h hT hu hq hl'
      · rw [if_neg h0]
        obtain ⟨dn, c, hc, hun⟩ := hT.cost hn
        simp only [hc]
        by_cases hlt : costq + C.len p < c ∧ (b = true ∨ (C.validate false p).1 = true)
        · rw [if_pos hlt]
          have hv : Valid p := by
            rcases hlt.2 with hb | hb
            · exact e3 hb
            · exact (hC.base.valid_true false p hb).1
          obtain ⟨r1, f1, r2, f2, k1, k2, k3, k4, k5, -, ⟨k6, k7, k8, k9⟩, k10⟩ := newEdges_spec hC h hv e1 (by rw [e2]; exact hq)
          simp only [k1, k2]
          have hset : setParent m n (some f2) false = .ok (set m n (some (some f2))) := by
            unfold setParent
            rw [if_neg, if_neg (by simp)]
            rintro ⟨x, hx, hx'⟩
            rw [← Option.some.inj hx, k7] at hx'
            exact hu.mem hx'
          simp only [hset]
          have hT2 := hT.grow k4.grow
          obtain ⟨t1, t2, t3⟩ := hT2.rewire (e := f2) hC.nonneg (by rw [k7]; exact hu) hun (by rw [k9, hC.rev]; exact hlt.1) k6 k8
          rw [k7] at t2
          have hdom : ∀ x, set m n (some (some f2)) x = none ↔ m x = none := by
            intro x
            by_cases hx : x = n
            · subst hx
              rw [set_eq]
              exact ⟨by simp, fun hh => absurd hh hn⟩
            · rw [set_ne _ _ hx]
          obtain ⟨r', m', j1, j2, j3, j4, j5, j6, j7, j8⟩ := ih k3 t1 t2 (by rw [k5]; exact hq) (fun n' b' p' hp' => by
            obtain ⟨w1, w2⟩ := hl' n' b' p' hp'
            exact ⟨by rw [k5]; exact w1, fun hh => w2 ((hdom n').1 hh)⟩)
          refine ⟨r', m', j1, j2, k4.trans j3, by rw [j4, k5], j5, fun x => (j6 x).trans (hdom x), Better.trans t3 j7, ?_⟩
          refine (k10 (fun x => m x ≠ none) hn hu.mem).trans ?_
          intro e he
          rcases j8 e he with h1 | ⟨h1, h2⟩
          · exact Or.inl h1
          · exact Or.inr ⟨fun hh => h1 ((hdom _).2 hh), fun hh => h2 ((hdom _).2 hh)⟩
        · rw [if_neg hlt]
          exact ih h hT hu hq hl'

/-- Insertion of a node in a tree. -/
theorem attach_spec (hC : SContract C Valid) {nnew : Nat} {q : Q} {s : Scan P K} (h : Good C.toPEnv Valid [] r) (hT : Tree C.len r m root)
    (hq : r.configs[nnew]? = some q) (hs : ScanOk C Valid r.configs q m root s) :
    ∃ r' m' b, attach C.toPEnv nnew s r m = .ok (r', m', b) ∧ Good C.toPEnv Valid [] r' ∧ Ext r r' ∧ r'.configs = r.configs ∧
      Tree C.len r' m' root ∧ (∀ n, m' n ≠ none ↔ m n ≠ none ∨ n = nnew) ∧ (b = true ↔ m nnew = none) ∧ Better C.len m m' root ∧
      (m nnew = none → ∃ d c, Up C.len m' root nnew d c ∧ c ≤ s.cost) ∧
      NewIn r r' (fun n => m n ≠ none ∨ n = nnew) ∧ HasEdge r' s.near nnew ∧ HasEdge r' nnew s.near ∧ m s.near ≠ none := by
  obtain ⟨⟨b1, b2, b3⟩, ⟨d, c, hu, hcost⟩, hp⟩ := hs
  obtain ⟨r1, f1, r2, f2, k1, k2, k3, k4, k5, ⟨k6, k7, k8, k9⟩, ⟨l6, l7, l8, l9⟩, k10⟩ := newEdges_spec hC h (a := s.near) (b := nnew) (b3 rfl) b1 (by rw [b2]; exact hq)
  have hE : HasEdge r2 s.near nnew ∧ HasEdge r2 nnew s.near := ⟨⟨f1, k6, k7, k8⟩, ⟨f2, l6, l7, l8⟩⟩
  have hN := k10 (fun n => m n ≠ none ∨ n = nnew) (Or.inl hu.mem) (Or.inr rfl)
  unfold attach
  simp only [k1, k2]
  by_cases hm : m nnew = none
  · rw [if_neg (by simpa using hm)]
    have hne : s.near ≠ nnew := fun hh => hu.mem (by rw [hh]; exact hm)
    have hset : setParent m nnew (some f1) true = .ok (set m nnew (some (some f1))) := by
      unfold setParent
      rw [if_neg, if_neg (by simp [hm])]
      rintro ⟨x, hx, hx'⟩
      rw [← Option.some.inj hx, k7] at hx'
      exact hu.mem hx'
    simp only [hset]
    obtain ⟨t1, t2, t3⟩ := (hT.grow k4.grow).insert (n := nnew) (e := f1) hm (by rw [k7]; exact hu.mem) k6 k8 (by rw [k5]; exact lt_of_get hq)
    have hup := t3 d c (by rw [k7]; exact hu)
    rw [k9, ← hcost] at hup
    have hdom : ∀ x, set m nnew (some (some f1)) x ≠ none ↔ m x ≠ none ∨ x = nnew := by
      intro x
      by_cases hx : x = nnew
      · subst hx; rw [set_eq]; simp
      · rw [set_ne _ _ hx]; simp [hx]
    obtain ⟨r', m', j1, j2, j3, j4, j5, j6, j7, j8⟩ := rewire_spec hC (near := s.near) s.paths k3 t1 hup (by rw [k5]; exact hq) (fun n b p hh => by
      obtain ⟨w1, w2⟩ := hp n b p hh
      exact ⟨by rw [k5]; exact w1, (hdom n).2 (Or.inl w2)⟩)
    simp only [j1]
    refine ⟨r', m', true, rfl, j2, k4.trans j3, by rw [j4, k5], j5, fun n => ?_, by simp [hm], ?_, ?_, ?_, j3.grow.hasEdge hE.1, j3.grow.hasEdge hE.2, hu.mem⟩
    · rw [← hdom n, not_iff_not]; exact j6 n
    · exact Better.trans (fun x d c hx => ⟨d, c, t2 x d c hx, le_rfl⟩) j7
    · intro _
      exact j7 _ _ _ hup
    · refine hN.trans ?_
      intro e he
      rcases j8 e he with h1 | ⟨h1, h2⟩
      · exact Or.inl h1
      · exact Or.inr ⟨(hdom _).1 h1, (hdom _).1 h2⟩
  · rw [if_pos hm]
    refine ⟨r2, m, false, rfl, k3, k4, k5, hT.grow k4.grow, fun n => ⟨Or.inl, ?_⟩, by simp [hm], Better.refl _ _ _, fun hh => absurd hh hm, hN, hE.1, hE.2, hu.mem⟩
    rintro (hh | rfl)
    · exact hh
    · exact hm

end Verif.Planner.Star
