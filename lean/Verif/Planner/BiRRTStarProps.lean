import Verif.Planner.BiRRTStarTrees
import Mathlib.Data.Finset.Card
set_option linter.unusedSectionVars false

/-! # BiRRT*: the two trees (C83), validity of the roadmap and of the solution (C66, C67) -/
namespace Verif.Planner.Star
open Verif.Roadmap Verif.Planner Relation
variable {Q P K : Type} [DecidableEq Q] [AddCommGroup K] [LinearOrder K] [IsOrderedAddMonoid K]
  {C : SEnv Q P K} {Valid : P → Prop} {r : Roadmap Q P} {m : PMap P} {root : Nat}

/-! ## Components -/

omit [DecidableEq Q] in
theorem same_iff (h : Inv [] r) {a b : Nat} (ha : a < r.configs.length) (hb : b < r.configs.length) :
    r.cc a = r.cc b ↔ NodeReach r a b ∧ NodeReach r b a := by
  constructor
  · intro hab
    exact ⟨h.semNil.same a b ha hb hab, h.semNil.same b a hb ha hab.symm⟩
  · rintro ⟨h1, h2⟩
    exact h.semNil.acyclic _ (h.wf.cc_live a ha) _ (h.semNil.reach_complete h1) (h.semNil.reach_complete h2)

omit [DecidableEq Q] in
theorem reach_grow {r' : Roadmap Q P} (g : Grow r r') {a b : Nat} (h : NodeReach r a b) : NodeReach r' a b :=
  ReflTransGen.mono (fun _ _ hh => g.hasEdge hh) _ _ h

omit [DecidableEq Q] in
theorem same_grow {r' : Roadmap Q P} (h : Inv [] r) (h' : Inv [] r') (g : Grow r r') {a b : Nat} (ha : a < r.configs.length) (hb : b < r.configs.length)
    (hab : r.cc a = r.cc b) : r'.cc a = r'.cc b := by
  obtain ⟨h1, h2⟩ := (same_iff h ha hb).1 hab
  exact (same_iff h' (lt_of_lt_of_le ha g.length) (lt_of_lt_of_le hb g.length)).2 ⟨reach_grow g h1, reach_grow g h2⟩

omit [DecidableEq Q] in
theorem live_one (h : Wf r) {a : Nat} (ha : a < r.configs.length) (hall : ∀ x, x < r.configs.length → r.cc x = r.cc a) : r.live.length = 1 := by
  rw [← List.toFinset_card_of_nodup h.live_nodup]
  have : r.live.toFinset = {r.cc a} := by
    ext c
    simp only [List.mem_toFinset, Finset.mem_singleton]
    constructor
    · intro hc
      obtain ⟨n, h1, rfl⟩ := h.exists_node hc
      exact hall n h1
    · rintro rfl; exact h.cc_live a ha
  rw [this]; rfl

omit [DecidableEq Q] in
theorem live_two (h : Wf r) {a b : Nat} (ha : a < r.configs.length) (hb : b < r.configs.length) (hne : r.cc a ≠ r.cc b)
    (hall : ∀ x, x < r.configs.length → r.cc x = r.cc a ∨ r.cc x = r.cc b) : r.live.length = 2 := by
  rw [← List.toFinset_card_of_nodup h.live_nodup]
  have : r.live.toFinset = {r.cc a, r.cc b} := by
    ext c
    simp only [List.mem_toFinset, Finset.mem_insert, Finset.mem_singleton]
    constructor
    · intro hc
      obtain ⟨n, h1, rfl⟩ := h.exists_node hc
      exact hall n h1
    · rintro (rfl | rfl)
      · exact h.cc_live a ha
      · exact h.cc_live b hb
  rw [this, Finset.card_pair hne]

/-! ## Invariant -/

/-- The map is a tree whose nodes are those of the component of its root. -/
structure Half (len : P → K) (r : Roadmap Q P) (m : PMap P) (root : Nat) : Prop where
  tree : Tree len r m root
  dom : ∀ n, m n ≠ none ↔ n < r.configs.length ∧ r.cc n = r.cc root

/-- Two components, each spanned by a tree. -/
structure Split (len : P → K) (r : Roadmap Q P) (a b : Nat) (ma mb : PMap P) : Prop where
  la : a < r.configs.length
  lb : b < r.configs.length
  ne : r.cc a ≠ r.cc b
  cover : ∀ x, x < r.configs.length → r.cc x = r.cc a ∨ r.cc x = r.cc b
  ha : Half len r ma a
  hb : Half len r mb b

theorem Split.symm {len : P → K} {a b : Nat} {ma mb : PMap P} (h : Split len r a b ma mb) : Split len r b a mb ma :=
  ⟨h.lb, h.la, h.ne.symm, fun x hx => (h.cover x hx).symm, h.hb, h.ha⟩

/-- One component. -/
def Joined (r : Roadmap Q P) : Prop := ∀ x y, x < r.configs.length → y < r.configs.length → r.cc x = r.cc y

/-- The components after the insertion of a node in a tree. -/
theorem split_step {r' : Roadmap Q P} {a b : Nat} {ma mb m' : PMap P} {len : P → K} (h : Inv [] r) (h' : Inv [] r') (S : Split len r a b ma mb) (g : Grow r r')
    {nnew near : Nat} (hnear : ma near ≠ none) (hN : r'.configs.length = max r.configs.length (nnew + 1)) (hnn : nnew ≤ r.configs.length)
    (hnew : NewIn r r' (fun n => ma n ≠ none ∨ n = nnew)) (e1 : HasEdge r' near nnew) (e2 : HasEdge r' nnew near) (hT : Tree len r' m' a)
    (hdom : ∀ n, m' n ≠ none ↔ ma n ≠ none ∨ n = nnew) :
    Split len r' a b m' mb ∨ (ma nnew = none ∧ Joined r') := by
  obtain ⟨n1, n2⟩ := (S.ha.dom near).1 hnear
  have up : ∀ x y, x < r.configs.length → y < r.configs.length → r.cc x = r.cc y → r'.cc x = r'.cc y := fun x y hx hy => same_grow h h' g hx hy
  have lt' : ∀ x, x < r.configs.length → x < r'.configs.length := fun x hx => lt_of_lt_of_le hx g.length
  have ln : nnew < r'.configs.length := by rw [hN]; omega
  have hnn' : r'.cc nnew = r'.cc near := (same_iff h' ln (lt' _ n1)).2 ⟨ReflTransGen.single e2, ReflTransGen.single e1⟩
  have hna : r'.cc nnew = r'.cc a := by rw [hnn', up near a n1 S.la n2]
  by_cases hcase : nnew < r.configs.length ∧ ma nnew = none
  · right
    refine ⟨hcase.2, ?_⟩
    have hb : r.cc nnew = r.cc b := by
      rcases S.cover nnew hcase.1 with hh | hh
      · exact absurd hcase.2 ((S.ha.dom nnew).2 ⟨hcase.1, hh⟩)
      · exact hh
    have hall : ∀ x, x < r'.configs.length → r'.cc x = r'.cc a := by
      intro x hx
      have hx' : x < r.configs.length := by rw [hN] at hx; omega
      rcases S.cover x hx' with hh | hh
      · exact up x a hx' S.la hh
      · rw [up x nnew hx' hcase.1 (by rw [hh, hb]), hna]
    intro x y hx hy
    rw [hall x hx, hall y hy]
  · left
    have hc : nnew = r.configs.length ∨ ma nnew ≠ none := by
      by_cases hm : ma nnew = none
      · left; by_contra hh; exact hcase ⟨by omega, hm⟩
      · exact Or.inr hm
    let φ : Nat → Nat := fun x => if x < r.configs.length then x else near
    have hφ : ∀ x, (ma x ≠ none ∨ x = nnew) → φ x < r.configs.length ∧ r.cc (φ x) = r.cc a := by
      intro x hx
      by_cases hm : ma x ≠ none
      · have := (S.ha.dom x).1 hm
        simp only [φ, if_pos this.1]; exact this
      · rcases hx with hx | rfl
        · exact absurd hx hm
        · rcases hc with hc | hc
          · simp only [φ, if_neg (show ¬ x < r.configs.length by omega)]; exact ⟨n1, n2⟩
          · exact absurd hc hm
    have hstep : ∀ x y, HasEdge r' x y → NodeReach r (φ x) (φ y) := by
      rintro x y ⟨e, he, rfl, rfl⟩
      rcases hnew e he with hh | ⟨h1, h2⟩
      · obtain ⟨l1, l2⟩ := h.adj.ends e hh
        simp only [φ, if_pos l1, if_pos l2]
        exact ReflTransGen.single ⟨e, hh, rfl, rfl⟩
      · obtain ⟨k1, k2⟩ := hφ _ h1
        obtain ⟨k3, k4⟩ := hφ _ h2
        exact h.semNil.same _ _ k1 k3 (by rw [k2, k4])
    have back : ∀ x y, x < r.configs.length → y < r.configs.length → r'.cc x = r'.cc y → r.cc x = r.cc y := by
      intro x y hx hy hxy
      obtain ⟨h1, h2⟩ := (same_iff h' (lt' x hx) (lt' y hy)).1 hxy
      have k1 : NodeReach r (φ x) (φ y) := ReflTransGen.lift' φ hstep _ _ h1
      have k2 : NodeReach r (φ y) (φ x) := ReflTransGen.lift' φ hstep _ _ h2
      simp only [φ, if_pos hx, if_pos hy] at k1 k2
      exact (same_iff h hx hy).2 ⟨k1, k2⟩
    have hne : r'.cc a ≠ r'.cc b := fun hh => S.ne (back a b S.la S.lb hh)
    have hold : ∀ x, x < r'.configs.length → x < r.configs.length ∨ x = nnew := by
      intro x hx; rw [hN] at hx; omega
    refine ⟨lt' _ S.la, lt' _ S.lb, hne, ?_, ⟨hT, ?_⟩, ⟨S.hb.tree.grow g, ?_⟩⟩
    · intro x hx
      rcases hold x hx with hx' | rfl
      · rcases S.cover x hx' with hh | hh
        · exact Or.inl (up x a hx' S.la hh)
        · exact Or.inr (up x b hx' S.lb hh)
      · exact Or.inl hna
    · intro x
      rw [hdom]
      constructor
      · rintro (hx | rfl)
        · obtain ⟨k1, k2⟩ := (S.ha.dom x).1 hx
          exact ⟨lt' x k1, up x a k1 S.la k2⟩
        · exact ⟨ln, hna⟩
      · rintro ⟨hx, hxa⟩
        rcases hold x hx with hx' | hx'
        · exact Or.inl ((S.ha.dom x).2 ⟨hx', back x a hx' S.la hxa⟩)
        · exact Or.inr hx'
    · intro x
      constructor
      · intro hx
        obtain ⟨k1, k2⟩ := (S.hb.dom x).1 hx
        exact ⟨lt' x k1, up x b k1 S.lb k2⟩
      · rintro ⟨hx, hxb⟩
        rcases hold x hx with hx' | rfl
        · exact (S.hb.dom x).2 ⟨hx', back x b hx' S.lb hxb⟩
        · rw [hna] at hxb; exact absurd hxb hne

/-! ## `extend` and `connect` -/

theorem addNode_good (h : Good C.toPEnv Valid [] r) (q : Q) :
    ∃ r' n, addNode C.toEnv r q = .ok (r', n) ∧ Good C.toPEnv Valid [] r' ∧ Ext r r' ∧ r'.configs[n]? = some q ∧ r'.edges = r.edges ∧
      n ≤ r.configs.length ∧ r'.configs.length = max r.configs.length (n + 1) := by
  obtain ⟨r', n, h1, h2, h3, h4, h5, h6, h7, h8⟩ := h.inv.addNode C.toEnv q
  refine ⟨r', n, h1, ⟨h2, ?_⟩, ⟨h4, h6, h7⟩, h3, h5, ?_⟩
  · intro e he
    rw [h5] at he
    exact (h.edges e he).mono h4
  · rcases h8 with ⟨rfl, hn⟩ | ⟨-, rfl, hc, -⟩
    · exact ⟨hn.le, by omega⟩
    · exact ⟨le_rfl, by rw [hc]; simp⟩

theorem ball_mem {q : Q} {c : Nat} {rad : K} {n : Nat} (h : n ∈ ball C.toPEnv r q c rad) : n ∈ (r.comp c).nodes :=
  (((NN.C17_withinBall _ rad (r.comp c).nodes).2.1 n).1 h).1

theorem extend_spec (hC : SContract C Valid) (h : Good C.toPEnv Valid [] r) {a b : Nat} {ma mb : PMap P} (S : Split C.len r a b ma mb) (q : Q) :
    ∃ r' m' q' f, extend C a q r ma = .ok (r', m', q', f) ∧ Good C.toPEnv Valid [] r' ∧ Ext r r' ∧ Tree C.len r' m' a ∧ Better C.len ma m' a ∧
      (Split C.len r' a b m' mb ∨ (f = true ∧ Joined r')) := by
  unfold extend
  have hlive := h.inv.wf.cc_live a S.la
  obtain ⟨d, near, x, h1, h2, h3⟩ := search_good (C := C.toPEnv) h.inv q hlive false
  have stay : ∀ q' : Q, ∃ r' m' q'' f, (Except.ok (r, ma, q', false) : Except SErr _) = .ok (r', m', q'', f) ∧ Good C.toPEnv Valid [] r' ∧ Ext r r' ∧
      Tree C.len r' m' a ∧ Better C.len ma m' a ∧ (Split C.len r' a b m' mb ∨ (f = true ∧ Joined r')) :=
    fun q' => ⟨r, ma, q', false, rfl, h, Ext.refl r, S.ha.tree, Better.refl _ _ _, Or.inl S⟩
  rw [h1]
  simp only
  by_cases hd : d < C.eps
  · rw [if_pos hd]; exact stay _
  · rw [if_neg hd, h2]
    simp only
    cases hb : (buildPath C.toPEnv x (C.adjust x q) (some C.maxLen) true).2 with
    | none => exact stay _
    | some p =>
      simp only
      by_cases hl : C.len p < C.minLen
      · rw [if_pos hl]; exact stay _
      · rw [if_neg hl]
        obtain ⟨p1, p2⟩ := buildPath_valid hC.base hb
        have hv := p2 (lt_of_lt_of_le hC.minLen (not_lt.1 hl))
        have hnear : ma near ≠ none := (S.ha.dom near).2 ⟨lt_of_get h2, h3⟩
        obtain ⟨dn, c, hc, hu⟩ := S.ha.tree.cost hnear
        simp only [hc]
        obtain ⟨s, s1, s2, s3⟩ := scan_spec hC S.ha.tree (C.fin p) (cmp := fun s => (s.near, s.path)) (fun s hs => hs.best)
          (ball C.toPEnv r (C.fin p) (r.cc a) (C.radius r.configs.length)) ⟨near, p, c + C.len p, []⟩
          ⟨⟨by rw [p1]; exact h2, rfl, fun _ => hv⟩, ⟨dn, c, hu, rfl⟩, by simp⟩
          (fun n hn => (S.ha.dom n).2 (h.inv.wf.owned _ hlive n (ball_mem hn)))
        simp only [s1]
        obtain ⟨r1, nnew, a1, a2, a3, a4, a5, a6, a7⟩ := addNode_good h (C.fin p)
        simp only [a1]
        have s2' : ScanOk C Valid r1.configs (C.fin p) ma a s := by
          refine ⟨⟨a3.grow.get s2.best.ini, s2.best.fin, s2.best.valid⟩, s2.cost, ?_⟩
          intro n b p' hh
          obtain ⟨w1, w2⟩ := s2.paths n b p' hh
          exact ⟨⟨a3.grow.get w1.ini, w1.fin, w1.valid⟩, w2⟩
        obtain ⟨r2, m', f, b1, b2, b3, b4, b5, b6, b7, b8, -, b9, b10, b11, b12⟩ := attach_spec hC a2 (S.ha.tree.grow a3.grow) a4 s2'
        simp only [b1]
        refine ⟨r2, m', C.fin p, f, rfl, b2, a3.trans b3, b5, b8, ?_⟩
        have hnew : NewIn r r2 (fun n => ma n ≠ none ∨ n = nnew) := by
          intro e he
          rcases b9 e he with hh | hh
          · rw [a5] at hh; exact Or.inl hh
          · exact Or.inr hh
        rcases split_step h.inv b2.inv S (a3.trans b3).grow b12 (by rw [b4, a7]) a6 hnew b10 b11 b5 b6 with hh | ⟨k1, k2⟩
        · exact Or.inl hh
        · exact Or.inr ⟨b7.2 k1, k2⟩

theorem connectLoop_spec (hC : SContract C Valid) (f : Nat) (h : Good C.toPEnv Valid [] r) {a b : Nat} {ma mb : PMap P} (S : Split C.len r a b ma mb) (q : Q) :
    connectLoop C a q f r ma = .error .fuel ∨
    ∃ r' m' ok, connectLoop C a q f r ma = .ok (r', m', ok) ∧ Good C.toPEnv Valid [] r' ∧ Ext r r' ∧ Tree C.len r' m' a ∧ Better C.len ma m' a ∧
      (Split C.len r' a b m' mb ∨ Joined r') := by
  induction f generalizing r ma with
  | zero => exact Or.inl rfl
  | succ f ih =>
    rw [connectLoop, if_pos (live_two h.inv.wf S.la S.lb S.ne S.cover)]
    obtain ⟨r', m', q', ok, h1, h2, h3, h4, h5, h6⟩ := extend_spec hC h S q
    rw [h1]
    cases ok with
    | false =>
      refine Or.inr ⟨r', m', false, rfl, h2, h3, h4, h5, ?_⟩
      rcases h6 with hh | ⟨hh, -⟩
      · exact Or.inl hh
      · simp at hh
    | true =>
      simp only
      rcases h6 with hh | ⟨-, hh⟩
      · rcases ih h2 hh with k | ⟨r2, m2, ok, k1, k2, k3, k4, k5, k6⟩
        · exact Or.inl k
        · exact Or.inr ⟨r2, m2, ok, k1, k2, h3.trans k3, k4, h5.trans k5, k6⟩
      · cases f with
        | zero => exact Or.inl rfl
        | succ f =>
          have la' := lt_of_lt_of_le S.la h3.grow.length
          rw [connectLoop, if_neg (by rw [live_one h2.inv.wf la' (fun x hx => hh x a hx la')]; decide)]
          exact Or.inr ⟨r', m', true, rfl, h2, h3, h4, h5, Or.inr hh⟩

/-! ## `improve` -/

/-- A tree that spans the roadmap. -/
structure Full (len : P → K) (r : Roadmap Q P) (m : PMap P) (root : Nat) : Prop where
  tree : Tree len r m root
  dom : ∀ n, n < r.configs.length → m n ≠ none

theorem improveTree_spec (hC : SContract C Valid) (h : Good C.toPEnv Valid [] r) (hT : Tree C.len r m root) {nearQ nnew : Nat} {p : P} {nodes : List Nat}
    (hv : Valid p) (hi : r.configs[nearQ]? = some (C.ini p)) (hq : r.configs[nnew]? = some (C.fin p)) (hnear : m nearQ ≠ none) (hnodes : ∀ n ∈ nodes, m n ≠ none)
    (hdom : ∀ n, n < r.configs.length → n ≠ nnew → m n ≠ none) :
    ∃ r' m', improveTree C nearQ p nodes nnew r m = .ok (r', m') ∧ Good C.toPEnv Valid [] r' ∧ Ext r r' ∧ r'.configs = r.configs ∧
      Full C.len r' m' root ∧ Better C.len m m' root ∧ ∃ x, m x ≠ none ∧ HasEdge r' x nnew ∧ HasEdge r' nnew x := by
  unfold improveTree
  obtain ⟨dn, c, hc, hu⟩ := hT.cost hnear
  simp only [hc]
  have h0 : EntryOk C Valid r.configs (C.fin p) nearQ true p := ⟨hi, rfl, fun _ => hv⟩
  obtain ⟨s, s1, s2, s3⟩ := scan_spec hC hT (C.fin p) (cmp := fun _ => (nearQ, p)) (fun s hs => h0) nodes ⟨nearQ, p, c + C.len p, []⟩
    ⟨h0, ⟨dn, c, hu, rfl⟩, by simp⟩ hnodes
  simp only [s1]
  obtain ⟨r2, m', f, b1, b2, b3, b4, b5, b6, b7, b8, -, b9, b10, b11, b12⟩ := attach_spec hC h hT hq s2
  simp only [b1]
  refine ⟨r2, m', rfl, b2, b3, b4, ⟨b5, ?_⟩, b8, s.near, b12, b10, b11⟩
  intro n hn
  rw [b4] at hn
  rw [b6]
  by_cases hh : n = nnew
  · exact Or.inr hh
  · exact Or.inl (hdom n hn hh)

theorem improve_spec (hC : SContract C Valid) (h : Good C.toPEnv Valid [] r) {t : Trees P} (h0 : Full C.len r t.map0 t.root0) (h1 : Full C.len r t.map1 t.root1)
    (hr : t.root0 < r.configs.length) (hJ : Joined r) (q : Q) :
    ∃ r' t', improve C q r t = .ok (r', t') ∧ Good C.toPEnv Valid [] r' ∧ Ext r r' ∧ Joined r' ∧ t'.root0 = t.root0 ∧ t'.root1 = t.root1 ∧
      Full C.len r' t'.map0 t.root0 ∧ Full C.len r' t'.map1 t.root1 ∧ Better C.len t.map0 t'.map0 t.root0 ∧ Better C.len t.map1 t'.map1 t.root1 := by
  unfold improve
  have stay : ∃ r' t', (Except.ok (r, t) : Except SErr _) = .ok (r', t') ∧ Good C.toPEnv Valid [] r' ∧ Ext r r' ∧ Joined r' ∧ t'.root0 = t.root0 ∧ t'.root1 = t.root1 ∧
      Full C.len r' t'.map0 t.root0 ∧ Full C.len r' t'.map1 t.root1 ∧ Better C.len t.map0 t'.map0 t.root0 ∧ Better C.len t.map1 t'.map1 t.root1 :=
    ⟨r, t, rfl, h, Ext.refl r, hJ, rfl, rfl, h0, h1, Better.refl _ _ _, Better.refl _ _ _⟩
  obtain ⟨d, near, k1, ⟨⟨x, k2, -⟩, -⟩⟩ := nearestNode_spec C.toEnv h.inv.wf q false (fun hh => by rw [hh] at hr; simp at hr)
  rw [k1]
  simp only
  by_cases hd : d < C.eps
  · rw [if_pos hd]; exact stay
  · rw [if_neg hd, k2]
    simp only
    cases hb : (buildPath C.toPEnv x q (some C.maxLen) true).2 with
    | none => exact stay
    | some p =>
      simp only
      by_cases hl : C.len p < C.minLen
      · rw [if_pos hl]; exact stay
      · rw [if_neg hl]
        obtain ⟨p1, p2⟩ := buildPath_valid hC.base hb
        have hv := p2 (lt_of_lt_of_le hC.minLen (not_lt.1 hl))
        obtain ⟨r1, nnew, a1, a2, a3, a4, a5, a6, a7⟩ := addNode_good h (C.fin p)
        simp only [a1]
        have hn : near < r.configs.length := lt_of_get k2
        have hi : r.configs[near]? = some (C.ini p) := by rw [p1]; exact k2
        have hold : ∀ n, n < r1.configs.length → n ≠ nnew → n < r.configs.length := by
          intro n hn hne; rw [a7] at hn; omega
        have hball : ∀ n ∈ ball C.toPEnv r (C.fin p) (r.cc t.root0) (C.radius r.configs.length), n < r.configs.length :=
          fun n hh => (h.inv.wf.owned _ (h.inv.wf.cc_live _ hr) n (ball_mem hh)).1
        obtain ⟨r2, m0, b1, b2, b3, b4, b5, b6, y, b7, b8, b9⟩ := improveTree_spec hC a2 (h0.tree.grow a3.grow) hv (a3.grow.get hi) a4 (h0.dom _ hn)
          (fun n hh => h0.dom n (hball n hh)) (fun n hh hne => h0.dom n (hold n hh hne))
        simp only [b1]
        obtain ⟨r3, m1, c1, c2, c3, c4, c5, c6, -⟩ := improveTree_spec hC b2 (h1.tree.grow (a3.trans b3).grow) hv ((a3.trans b3).grow.get hi) (b3.grow.get a4) (h1.dom _ hn)
          (fun n hh => h1.dom n (hball n hh)) (fun n hh hne => h1.dom n (hold n (by rw [b4] at hh; exact hh) hne))
        simp only [c1]
        have g := ((a3.trans b3).trans c3).grow
        have hN : r3.configs.length = max r.configs.length (nnew + 1) := by rw [c4, b4, a7]
        have hy : y < r.configs.length := by
          have hy1 := h0.tree.dom y b7
          exact hy1
        have hnew : r3.cc nnew = r3.cc y := by
          refine (same_iff c2.inv (by rw [hN]; omega) (lt_of_lt_of_le hy g.length)).2 ⟨?_, ?_⟩
          · exact ReflTransGen.single (c3.grow.hasEdge b9)
          · exact ReflTransGen.single (c3.grow.hasEdge b8)
        have hall : ∀ z, z < r3.configs.length → r3.cc z = r3.cc y := by
          intro z hz
          by_cases hzn : z = nnew
          · rw [hzn, hnew]
          · have hz' : z < r.configs.length := by rw [hN] at hz; omega
            exact same_grow h.inv c2.inv g hz' hy (hJ z y hz' hy)
        refine ⟨r3, ⟨t.root0, t.root1, m0, m1⟩, rfl, c2, (a3.trans b3).trans c3, fun z w hz hw => by rw [hall z hz, hall w hw], rfl, rfl,
          ⟨b5.tree.grow c3.grow, fun n hh => b5.dom n (by rw [c4] at hh; exact hh)⟩, c5, b6, c6⟩

end Verif.Planner.Star
