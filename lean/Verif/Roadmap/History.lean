import Verif.Roadmap.Invariant

/-! The invariants hold along any history of calls (helper lemmas). -/
namespace Verif.Roadmap
open Relation
variable {Q P K : Type}

/-- Links assumed by the components: the edges of the roadmap and the reversed one-way insertions `V`. -/
def Link (r : Roadmap Q P) (V : List (Nat × Nat)) (x y : Nat) : Prop := HasEdge r x y ∨ (x, y) ∈ V

/-- The invariant of roadmaps. -/
structure Inv (V : List (Nat × Nat)) (r : Roadmap Q P) : Prop where
  wf : Wf r
  adj : Adj r
  sem : Sem (Link r V) r
  init : ∀ i, r.init = some i → i < r.configs.length
  goals : ∀ g ∈ r.goals, g < r.configs.length

/-- The virtual link recorded when `addNodeAndEdge` creates a node: `n` is the returned node of a call on `r`. -/
def oneWay (r : Roadmap Q P) (n : Nat) (l : Nat × Nat) (V : List (Nat × Nat)) : List (Nat × Nat) :=
  if n < r.configs.length then V else l :: V

section
variable [DecidableEq Q] [LT K] [DecidableRel (α := K) (· < ·)]

/-- Virtual links of the loop of `insertPathVector` without `backAndForth`. -/
def insertV (E : Env Q P K) : List (P × Q) → Nat → Roadmap Q P → List (Nat × Nat) → List (Nat × Nat)
  | [], _, _, V => V
  | (p, q) :: l, n, r, V =>
    match addNodeAndEdgeTo E r n q p with
    | .error _ => V
    | .ok (r1, m) => insertV E l m r1 (oneWay r m (m, n) V)

/-- Ghost state: reversed one-way insertions after one more call. -/
def stepV (E : Env Q P K) (r : Roadmap Q P) (V : List (Nat × Nat)) : Op Q P → List (Nat × Nat)
  | .addNodeAndEdgeTo a q p =>
    match addNodeAndEdgeTo E r a q p with
    | .error _ => V
    | .ok (_, n) => oneWay r n (n, a) V
  | .addNodeAndEdgeFrom q a p =>
    match addNodeAndEdgeFrom E r q a p with
    | .error _ => V
    | .ok (_, n) => oneWay r n (a, n) V
  | .insertPathVector q l false =>
    match addNode E r q with
    | .error _ => V
    | .ok (r1, n) => insertV E l n r1 V
  | .clear => []
  | _ => V

/-- Ghost state after a history. -/
def runV (E : Env Q P K) (r : Roadmap Q P) (V : List (Nat × Nat)) : List (Op Q P) → List (Nat × Nat)
  | [] => V
  | o :: os => match step E r o with
    | .error _ => V
    | .ok r' => runV E r' (stepV E r V o) os
end

/-- Nodes and edges are only appended. -/
structure Grow (r r' : Roadmap Q P) : Prop where
  configs : r.configs <+: r'.configs
  edges : r.edges <+: r'.edges

theorem Grow.refl (r : Roadmap Q P) : Grow r r := ⟨List.prefix_refl _, List.prefix_refl _⟩
theorem Grow.trans {a b c : Roadmap Q P} (h : Grow a b) (h' : Grow b c) : Grow a c :=
  ⟨h.configs.trans h'.configs, h.edges.trans h'.edges⟩
theorem Grow.hasEdge {r r' : Roadmap Q P} (h : Grow r r') {a b : Nat} (he : HasEdge r a b) : HasEdge r' a b := by
  obtain ⟨e, h1, h2⟩ := he; exact ⟨e, h.edges.subset h1, h2⟩
theorem Grow.length {r r' : Roadmap Q P} (h : Grow r r') : r.configs.length ≤ r'.configs.length := h.configs.length_le
theorem Grow.get {r r' : Roadmap Q P} (h : Grow r r') {n : Nat} {q : Q} (hq : r.configs[n]? = some q) :
    r'.configs[n]? = some q := by
  obtain ⟨t, ht⟩ := h.configs
  have : n < r.configs.length := (List.getElem?_eq_some_iff.1 hq).1
  rw [← ht, List.getElem?_append_left this]; exact hq

theorem EdgeAdded.hasEdge {r r' : Roadmap Q P} {a b : Nat} {p : P} (h : EdgeAdded r r' a b p) (x y : Nat) :
    HasEdge r' x y ↔ HasEdge r x y ∨ (x = a ∧ y = b) := by
  unfold HasEdge; rw [h.edges]
  constructor
  · rintro ⟨e, he, rfl, rfl⟩
    rcases List.mem_append.1 he with he | he
    · exact Or.inl ⟨e, he, rfl, rfl⟩
    · rw [List.mem_singleton.1 he]; exact Or.inr ⟨rfl, rfl⟩
  · rintro (⟨e, he, h'⟩ | ⟨rfl, rfl⟩)
    · exact ⟨e, List.mem_append.2 (Or.inl he), h'⟩
    · exact ⟨_, List.mem_append.2 (Or.inr (List.mem_singleton.2 rfl)), rfl, rfl⟩

theorem EdgesAdded.hasEdge {E : Env Q P K} {r r' : Roadmap Q P} {a b : Nat} {p : P} (h : EdgesAdded E r r' a b p) (x y : Nat) :
    HasEdge r' x y ↔ HasEdge r x y ∨ (x = a ∧ y = b) ∨ (x = b ∧ y = a) := by
  unfold HasEdge; rw [h.edges]
  constructor
  · rintro ⟨e, he, rfl, rfl⟩
    rcases List.mem_append.1 he with he | he
    · exact Or.inl ⟨e, he, rfl, rfl⟩
    · rcases List.mem_cons.1 he with rfl | he
      · exact Or.inr (Or.inl ⟨rfl, rfl⟩)
      · rw [List.mem_singleton.1 he]; exact Or.inr (Or.inr ⟨rfl, rfl⟩)
  · rintro (⟨e, he, h'⟩ | ⟨rfl, rfl⟩ | ⟨rfl, rfl⟩)
    · exact ⟨e, List.mem_append.2 (Or.inl he), h'⟩
    · exact ⟨_, List.mem_append.2 (Or.inr (List.mem_cons_self ..)), rfl, rfl⟩
    · exact ⟨⟨r.edges.length + 1, x, y, E.rev p⟩, by simp, rfl, rfl⟩

theorem hasEdge_of_edges {r r' : Roadmap Q P} (h : r'.edges = r.edges) : HasEdge r' = HasEdge r := by
  funext x y; unfold HasEdge; rw [h]

theorem Inv.empty : Inv [] (empty : Roadmap Q P) := by
  refine ⟨?_, ?_, ?_, ?_, ?_⟩
  · constructor <;> simp [Roadmap.empty]
  · constructor <;> simp [Roadmap.empty]
  · constructor
    · intro a b h; simp [Roadmap.empty] at h
    · intro a b h; simp [Roadmap.empty] at h
    · rintro a b (⟨e, he, _⟩ | h)
      · simp [Roadmap.empty] at he
      · simp at h
    · intro c hc; simp [Roadmap.empty] at hc
  · intro i hi; simp [Roadmap.empty] at hi
  · intro g hg; simp [Roadmap.empty] at hg

theorem Inv.clear (r : Roadmap Q P) : Inv [] (clear r) := by
  refine ⟨?_, ?_, ?_, ?_, ?_⟩
  · constructor <;> simp [Roadmap.clear, Roadmap.empty]
  · constructor <;> simp [Roadmap.clear, Roadmap.empty]
  · constructor
    · intro a b h; simp [Roadmap.clear, Roadmap.empty] at h
    · intro a b h; simp [Roadmap.clear, Roadmap.empty] at h
    · rintro a b (⟨e, he, _⟩ | h)
      · simp [Roadmap.clear, Roadmap.empty] at he
      · simp at h
    · intro c hc; simp [Roadmap.clear, Roadmap.empty] at hc
  · intro i hi; simp [Roadmap.clear, Roadmap.empty] at hi
  · intro g hg; simp [Roadmap.clear, Roadmap.empty] at hg

theorem Inv.setInit {V : List (Nat × Nat)} {r : Roadmap Q P} (h : Inv V r) {n : Nat} (hn : n < r.configs.length) :
    Inv V { r with init := some n } :=
  ⟨h.wf.frame _ _ _ _ _, ⟨h.adj.ends, h.adj.outOk, h.adj.innOk, h.adj.outDistinct, h.adj.innDistinct, h.adj.listed, h.adj.ids⟩,
    h.sem.frame _ _ _ _ _, fun i hi => by cases hi; exact hn, h.goals⟩

theorem Inv.setGoals {V : List (Nat × Nat)} {r : Roadmap Q P} (h : Inv V r) {gs : List Nat}
    (hg : ∀ g ∈ gs, g < r.configs.length) : Inv V { r with goals := gs } :=
  ⟨h.wf.frame _ _ _ _ _, ⟨h.adj.ends, h.adj.outOk, h.adj.innOk, h.adj.outDistinct, h.adj.innDistinct, h.adj.listed, h.adj.ids⟩,
    h.sem.frame _ _ _ _ _, h.init, hg⟩

/-- `Inv` after operations that keep or extend nodes and keep init and goals. -/
theorem Inv.of {V V' : List (Nat × Nat)} {r r' : Roadmap Q P} (h : Inv V r) (hw : Wf r') (ha : Adj r')
    {G : Nat → Nat → Prop} (hs : Sem G r') (hg : ∀ x y, G x y ↔ Link r' V' x y)
    (hl : r.configs.length ≤ r'.configs.length) (hi : r'.init = r.init) (hgo : r'.goals = r.goals) : Inv V' r' := by
  refine ⟨hw, ha, hs.congr hg, ?_, ?_⟩
  · intro i hii; rw [hi] at hii; have := h.init i hii; omega
  · intro g hgg; rw [hgo] at hgg; have := h.goals g hgg; omega

theorem Inv.addEdge {V : List (Nat × Nat)} {r : Roadmap Q P} (h : Inv V r) {a b : Nat} (p : P)
    (hla : a < r.configs.length) (hlb : b < r.configs.length) :
    ∃ r', addEdge r a b p = .ok r' ∧ Inv V r' ∧ EdgeAdded r r' a b p := by
  obtain ⟨r', h1, h2, h3, h4, h5⟩ := addEdge_spec h.wf h.adj h.sem p hla hlb
  refine ⟨r', h1, h.of h2 h3 h4 ?_ (Nat.le_of_eq (by rw [h5.configs])) h5.init h5.goals, h5⟩
  intro x y
  unfold addPair Link
  rw [h5.hasEdge]; tauto

theorem Inv.addEdges (E : Env Q P K) {V : List (Nat × Nat)} {r : Roadmap Q P} (h : Inv V r) {a b : Nat} (p : P)
    (hla : a < r.configs.length) (hlb : b < r.configs.length) :
    ∃ r', addEdges E r a b p = .ok r' ∧ Inv V r' ∧ EdgesAdded E r r' a b p := by
  obtain ⟨r', h1, h2, h3, h4, h5⟩ := addEdges_spec E h.wf h.adj h.sem p hla hlb
  refine ⟨r', h1, h.of h2 h3 h4 ?_ (Nat.le_of_eq (by rw [h5.configs])) h5.init h5.goals, h5⟩
  intro x y
  unfold addPair Link
  rw [h5.hasEdge]; tauto

theorem EdgeAdded.grow {r r' : Roadmap Q P} {a b : Nat} {p : P} (h : EdgeAdded r r' a b p) : Grow r r' :=
  ⟨h.configs ▸ List.prefix_refl _, by rw [h.edges]; exact List.prefix_append _ _⟩
theorem EdgesAdded.grow {E : Env Q P K} {r r' : Roadmap Q P} {a b : Nat} {p : P} (h : EdgesAdded E r r' a b p) : Grow r r' :=
  ⟨h.configs ▸ List.prefix_refl _, by rw [h.edges]; exact List.prefix_append _ _⟩
theorem NodeAdded.grow {r r' : Roadmap Q P} {q : Q} (h : NodeAdded r r' q) : Grow r r' :=
  ⟨by rw [h.configs]; exact List.prefix_append _ _, h.edges ▸ List.prefix_refl _⟩

variable [DecidableEq Q] [LinearOrder K]

/-- `addNode` finds a node with this configuration (nothing changes) or creates one. -/
theorem Inv.addNode (E : Env Q P K) {V : List (Nat × Nat)} {r : Roadmap Q P} (h : Inv V r) (q : Q) :
    ∃ r' n, addNode E r q = .ok (r', n) ∧ Inv V r' ∧ r'.configs[n]? = some q ∧ Grow r r' ∧
      r'.edges = r.edges ∧ r'.init = r.init ∧ r'.goals = r.goals ∧
      ((r' = r ∧ n < r.configs.length) ∨
        (r' = (pushNewNode r q).1 ∧ n = r.configs.length ∧ r'.configs = r.configs ++ [q] ∧
          (r.configs = [] ∨ ∃ k m, nearestNode E r q = some (k, m) ∧ r.configs[m]? ≠ some q))) := by
  obtain ⟨p1, p2, p3, p4, p5⟩ := pushNewNode_spec h.wf h.adj h.sem q
  have hinv : Inv V (pushNewNode r q).1 := by
    refine h.of p1 p2 p3 ?_ p4.grow.length p4.init p4.goals
    intro x y; unfold Link; rw [hasEdge_of_edges p4.edges]
  have hget : (pushNewNode r q).1.configs[r.configs.length]? = some q := by rw [p4.configs]; simp
  have hnew : ∀ (X : r.configs = [] ∨ ∃ k m, nearestNode E r q = some (k, m) ∧ r.configs[m]? ≠ some q),
      ∃ r' n, (Except.ok (pushNewNode r q) : Except Err _) = .ok (r', n) ∧ Inv V r' ∧ r'.configs[n]? = some q ∧ Grow r r' ∧
      r'.edges = r.edges ∧ r'.init = r.init ∧ r'.goals = r.goals ∧
      ((r' = r ∧ n < r.configs.length) ∨
        (r' = (pushNewNode r q).1 ∧ n = r.configs.length ∧ r'.configs = r.configs ++ [q] ∧
          (r.configs = [] ∨ ∃ k m, nearestNode E r q = some (k, m) ∧ r.configs[m]? ≠ some q))) :=
    fun X => ⟨_, _, rfl, hinv, hget, p4.grow, p4.edges, p4.init, p4.goals, Or.inr ⟨rfl, rfl, p4.configs, X⟩⟩
  unfold Roadmap.addNode
  split
  · rename_i hne
    have hne' : r.configs ≠ [] := fun hh => hne (by simp [hh])
    obtain ⟨m, n, h1, h2⟩ := nearestNode_spec E h.wf q false hne'
    rw [h1]
    dsimp only
    split
    · rename_i hq
      refine ⟨r, n, rfl, h, hq, Grow.refl r, rfl, rfl, rfl, Or.inl ⟨rfl, ?_⟩⟩
      exact (List.getElem?_eq_some_iff.1 hq).1
    · rename_i hq
      have := hnew (Or.inr ⟨m, n, h1, hq⟩)
      rw [h1] at this
      exact this
  · rename_i hne
    have : r.configs = [] := by simpa using hne
    exact hnew (Or.inl this)

/-- `addNode` in the component of node `a`: finds a node of this component or creates one. -/
theorem Inv.addNodeIn (E : Env Q P K) {V : List (Nat × Nat)} {r : Roadmap Q P} (h : Inv V r) (q : Q) {a : Nat}
    (hla : a < r.configs.length) :
    ∃ r' n, addNodeIn E r q (r.cc a) = .ok (r', n) ∧ r'.configs[n]? = some q ∧ n < r'.configs.length ∧
      ((r' = r ∧ n < r.configs.length ∧ r.cc n = r.cc a) ∨
       (r' = (pushNodeIn r q (r.cc a)).1 ∧ n = r.configs.length ∧
        Wf r' ∧ Adj r' ∧ Sem (addPair (addPair (Link r V) a n) n a) r' ∧ NodeAdded r r' q)) := by
  obtain ⟨p1, p2, p3, p4, p5⟩ := pushNodeIn_spec h.wf h.adj h.sem q hla
  have hget : (pushNodeIn r q (r.cc a)).1.configs[r.configs.length]? = some q := by rw [p4.configs]; simp
  have hlen : r.configs.length < (pushNodeIn r q (r.cc a)).1.configs.length := by rw [p4.configs]; simp
  unfold Roadmap.addNodeIn
  split
  · obtain ⟨m, n, h1, h2⟩ := search_spec E h.wf q (h.wf.cc_live a hla) false
    rw [h1]
    dsimp only
    have ho := h.wf.owned _ (h.wf.cc_live a hla) n h2.mem
    split
    · rename_i hq
      exact ⟨r, n, rfl, hq, ho.1, Or.inl ⟨rfl, ho.1, ho.2⟩⟩
    · exact ⟨_, _, rfl, hget, hlen, Or.inr ⟨rfl, rfl, p1, p2, p3, p4⟩⟩
  · exact ⟨_, _, rfl, hget, hlen, Or.inr ⟨rfl, rfl, p1, p2, p3, p4⟩⟩

/-- Common statement for the three insertions of a node with edges. -/
structure NodeLinked (r r' : Roadmap Q P) (q : Q) (n : Nat) : Prop where
  grow : Grow r r'
  get : r'.configs[n]? = some q
  lt : n < r'.configs.length
  configs : (n < r.configs.length ∧ r'.configs = r.configs) ∨ (n = r.configs.length ∧ r'.configs = r.configs ++ [q])
  init : r'.init = r.init
  goals : r'.goals = r.goals

theorem Inv.addNodeAndEdges (E : Env Q P K) {V : List (Nat × Nat)} {r : Roadmap Q P} (h : Inv V r) (q : Q) {a : Nat}
    (hla : a < r.configs.length) (p : P) :
    ∃ r' n, addNodeAndEdges E r a q p = .ok (r', n) ∧ Inv V r' ∧ NodeLinked r r' q n ∧
      ∀ x y, HasEdge r' x y ↔ HasEdge r x y ∨ (x = a ∧ y = n) ∨ (x = n ∧ y = a) := by
  obtain ⟨r1, n, h1, h2, h3, h4⟩ := h.addNodeIn E q hla
  have hval : ∀ r2, Roadmap.addEdges E r1 a n p = .ok r2 → Roadmap.addNodeAndEdges E r a q p = .ok (r2, n) := by
    intro r2 hr2
    unfold Roadmap.addNodeAndEdges
    rw [if_neg (by omega), h1]
    change (do let r2 ← Roadmap.addEdges E r1 a n p; return (r2, n)) = _
    rw [hr2]; rfl
  rcases h4 with ⟨rfl, k1, k2⟩ | ⟨hr1, hn, k1, k2, k3, k4⟩
  · obtain ⟨r2, m1, m2, m3⟩ := h.addEdges E p hla k1
    refine ⟨r2, n, hval r2 m1, m2, ⟨m3.grow, m3.grow.get h2, by rw [m3.configs]; exact k1, Or.inl ⟨k1, m3.configs⟩, m3.init, m3.goals⟩, m3.hasEdge⟩
  · have hl1 : r1.configs.length = r.configs.length + 1 := by rw [k4.configs]; simp
    obtain ⟨r2, m1, m2, m3, m4, m5⟩ := addEdges_spec E k1 k2 k3 p (a := a) (b := n) (by omega) h3
    have he : ∀ x y, HasEdge r2 x y ↔ HasEdge r x y ∨ (x = a ∧ y = n) ∨ (x = n ∧ y = a) := by
      intro x y; rw [m5.hasEdge, hasEdge_of_edges k4.edges]
    refine ⟨r2, n, hval r2 m1, ?_, ?_, he⟩
    · refine h.of m2 m3 m4 ?_ (by rw [m5.configs]; omega) (by rw [m5.init, k4.init]) (by rw [m5.goals, k4.goals])
      intro x y
      unfold addPair Link; rw [he]; tauto
    · exact ⟨k4.grow.trans m5.grow, m5.grow.get h2, by rw [m5.configs]; exact h3,
        Or.inr ⟨hn, by rw [m5.configs, k4.configs]⟩, by rw [m5.init, k4.init], by rw [m5.goals, k4.goals]⟩

theorem Inv.addNodeAndEdgeTo (E : Env Q P K) {V : List (Nat × Nat)} {r : Roadmap Q P} (h : Inv V r) (q : Q) {a : Nat}
    (hla : a < r.configs.length) (p : P) :
    ∃ r' n, addNodeAndEdgeTo E r a q p = .ok (r', n) ∧ Inv (oneWay r n (n, a) V) r' ∧ NodeLinked r r' q n ∧
      ∀ x y, HasEdge r' x y ↔ HasEdge r x y ∨ (x = a ∧ y = n) := by
  obtain ⟨r1, n, h1, h2, h3, h4⟩ := h.addNodeIn E q hla
  have hval : ∀ r2, Roadmap.addEdge r1 a n p = .ok r2 → Roadmap.addNodeAndEdgeTo E r a q p = .ok (r2, n) := by
    intro r2 hr2
    unfold Roadmap.addNodeAndEdgeTo
    rw [if_neg (by omega), h1]
    change (do let r2 ← Roadmap.addEdge r1 a n p; return (r2, n)) = _
    rw [hr2]; rfl
  rcases h4 with ⟨rfl, k1, k2⟩ | ⟨hr1, hn, k1, k2, k3, k4⟩
  · obtain ⟨r2, m1, m2, m3⟩ := h.addEdge p hla k1
    refine ⟨r2, n, hval r2 m1, ?_, ⟨m3.grow, m3.grow.get h2, by rw [m3.configs]; exact k1, Or.inl ⟨k1, m3.configs⟩, m3.init, m3.goals⟩, m3.hasEdge⟩
    unfold oneWay; rw [if_pos k1]; exact m2
  · have hl1 : r1.configs.length = r.configs.length + 1 := by rw [k4.configs]; simp
    obtain ⟨r2, m1, m2, m3, m4, m5⟩ := addEdge_spec k1 k2 k3 p (a := a) (b := n) (by omega) h3
    have he : ∀ x y, HasEdge r2 x y ↔ HasEdge r x y ∨ (x = a ∧ y = n) := by
      intro x y; rw [m5.hasEdge, hasEdge_of_edges k4.edges]
    refine ⟨r2, n, hval r2 m1, ?_, ?_, he⟩
    · refine h.of m2 m3 m4 ?_ (by rw [m5.configs]; omega) (by rw [m5.init, k4.init]) (by rw [m5.goals, k4.goals])
      intro x y
      unfold addPair Link oneWay; rw [he, if_neg (by omega)]
      simp only [List.mem_cons, Prod.mk.injEq]
      tauto
    · exact ⟨k4.grow.trans m5.grow, m5.grow.get h2, by rw [m5.configs]; exact h3,
        Or.inr ⟨hn, by rw [m5.configs, k4.configs]⟩, by rw [m5.init, k4.init], by rw [m5.goals, k4.goals]⟩

theorem Inv.addNodeAndEdgeFrom (E : Env Q P K) {V : List (Nat × Nat)} {r : Roadmap Q P} (h : Inv V r) (q : Q) {a : Nat}
    (hla : a < r.configs.length) (p : P) :
    ∃ r' n, addNodeAndEdgeFrom E r q a p = .ok (r', n) ∧ Inv (oneWay r n (a, n) V) r' ∧ NodeLinked r r' q n ∧
      ∀ x y, HasEdge r' x y ↔ HasEdge r x y ∨ (x = n ∧ y = a) := by
  obtain ⟨r1, n, h1, h2, h3, h4⟩ := h.addNodeIn E q hla
  have hval : ∀ r2, Roadmap.addEdge r1 n a p = .ok r2 → Roadmap.addNodeAndEdgeFrom E r q a p = .ok (r2, n) := by
    intro r2 hr2
    unfold Roadmap.addNodeAndEdgeFrom
    rw [if_neg (by omega), h1]
    change (do let r2 ← Roadmap.addEdge r1 n a p; return (r2, n)) = _
    rw [hr2]; rfl
  rcases h4 with ⟨rfl, k1, k2⟩ | ⟨hr1, hn, k1, k2, k3, k4⟩
  · obtain ⟨r2, m1, m2, m3⟩ := h.addEdge p k1 hla
    refine ⟨r2, n, hval r2 m1, ?_, ⟨m3.grow, m3.grow.get h2, by rw [m3.configs]; exact k1, Or.inl ⟨k1, m3.configs⟩, m3.init, m3.goals⟩, m3.hasEdge⟩
    unfold oneWay; rw [if_pos k1]; exact m2
  · have hl1 : r1.configs.length = r.configs.length + 1 := by rw [k4.configs]; simp
    obtain ⟨r2, m1, m2, m3, m4, m5⟩ := addEdge_spec k1 k2 k3 p (a := n) (b := a) h3 (by omega)
    have he : ∀ x y, HasEdge r2 x y ↔ HasEdge r x y ∨ (x = n ∧ y = a) := by
      intro x y; rw [m5.hasEdge, hasEdge_of_edges k4.edges]
    refine ⟨r2, n, hval r2 m1, ?_, ?_, he⟩
    · refine h.of m2 m3 m4 ?_ (by rw [m5.configs]; omega) (by rw [m5.init, k4.init]) (by rw [m5.goals, k4.goals])
      intro x y
      unfold addPair Link oneWay; rw [he, if_neg (by omega)]
      simp only [List.mem_cons, Prod.mk.injEq]
      tauto
    · exact ⟨k4.grow.trans m5.grow, m5.grow.get h2, by rw [m5.configs]; exact h3,
        Or.inr ⟨hn, by rw [m5.configs, k4.configs]⟩, by rw [m5.init, k4.init], by rw [m5.goals, k4.goals]⟩

omit [DecidableEq Q] in
/-- `pathExists` answers reachability in the component graph and changes nothing. -/
theorem pathExistsLoop_spec {r : Roadmap Q P} (h : Wf r) {c : Nat} (hc : c ∈ r.live) (gs : List Nat) :
    ∃ ans, pathExistsLoop c gs r = .ok (ans, r) ∧ (ans = true ↔ ∃ g ∈ gs, CReach r c (r.cc g)) := by
  induction gs with
  | nil => exact ⟨false, rfl, by simp⟩
  | cons g gs ih =>
    obtain ⟨ans, h1, h2⟩ := canReach_spec h (d := r.cc g) hc
    unfold pathExistsLoop
    rw [h1]
    cases ans with
    | true => exact ⟨true, rfl, by simp only [true_iff]; exact ⟨g, by simp, h2.1 rfl⟩⟩
    | false =>
      obtain ⟨ans', k1, k2⟩ := ih
      refine ⟨ans', k1, ?_⟩
      rw [k2]
      constructor
      · rintro ⟨x, hx, hr⟩; exact ⟨x, by simp [hx], hr⟩
      · rintro ⟨x, hx, hr⟩
        rcases List.mem_cons.1 hx with rfl | hx
        · exact absurd (h2.2 hr) (by simp)
        · exact ⟨x, hx, hr⟩

theorem mergeNodes_spec (E : Env Q P K) {V : List (Nat × Nat)} (qs : List Q) (r : Roadmap Q P) (h : Inv V r) :
    ∃ (r' : Roadmap Q P) (ns : List Nat), mergeNodes E qs r = .ok (r', ns) ∧ Inv V r' ∧ Grow r r' ∧ r'.edges = r.edges ∧
      r'.init = r.init ∧ r'.goals = r.goals ∧ ns.length = qs.length ∧
      (∀ (i : Nat) (q : Q), qs[i]? = some q → ∃ n, ns[i]? = some n ∧ r'.configs[n]? = some q) := by
  induction qs generalizing r with
  | nil => exact ⟨r, [], rfl, h, Grow.refl r, rfl, rfl, rfl, rfl, by simp⟩
  | cons q qs ih =>
    obtain ⟨r1, n, h1, h2, h3, h4, h5, h6, h7, _⟩ := h.addNode E q
    obtain ⟨r2, ns, k1, k2, k3, k4, k5, k6, k7, k8⟩ := ih r1 h2
    refine ⟨r2, n :: ns, ?_, k2, h4.trans k3, by rw [k4, h5], by rw [k5, h6], by rw [k6, h7], by simp [k7], ?_⟩
    · unfold mergeNodes; rw [h1]; dsimp only; rw [k1]
    · intro i q' hq'
      cases i with
      | zero =>
        simp only [List.getElem?_cons_zero, Option.some.injEq] at hq'
        subst hq'
        exact ⟨n, by simp, k3.get h3⟩
      | succ i =>
        simp only [List.getElem?_cons_succ] at hq' ⊢
        exact k8 i q' hq'

omit [DecidableEq Q] [LinearOrder K] in
theorem mergeEdges_spec (E : Env Q P K) {V : List (Nat × Nat)} (cn : List Nat) (es : List (Edge P)) (r : Roadmap Q P) (h : Inv V r)
    (hcn : ∀ n ∈ cn, n < r.configs.length) :
    (∀ r', mergeEdges E cn es r = .ok r' → Inv V r' ∧ Grow r r' ∧ r'.configs = r.configs ∧ r'.init = r.init ∧
      r'.goals = r.goals ∧
      (∀ e ∈ es, E.zeroLength e.path = false → ∃ a b, cn[e.src]? = some a ∧ cn[e.dst]? = some b ∧
        (∃ x ∈ r'.edges, x.src = a ∧ x.dst = b ∧ x.path = e.path) ∧
        (∃ x ∈ r'.edges, x.src = b ∧ x.dst = a ∧ x.path = E.rev e.path)) ∧
      (∀ x y, HasEdge r' x y ↔ HasEdge r x y ∨ ∃ e ∈ es, E.zeroLength e.path = false ∧
        ((cn[e.src]? = some x ∧ cn[e.dst]? = some y) ∨ (cn[e.src]? = some y ∧ cn[e.dst]? = some x)))) ∧
    ((∀ e ∈ es, e.src < cn.length ∧ e.dst < cn.length) → ∃ r', mergeEdges E cn es r = .ok r') := by
  induction es generalizing r with
  | nil =>
    refine ⟨fun r' hr' => ?_, fun _ => ⟨r, rfl⟩⟩
    simp only [mergeEdges, Except.ok.injEq] at hr'
    subst hr'
    exact ⟨h, Grow.refl _, rfl, rfl, rfl, by simp, by simp⟩
  | cons e es ih =>
    by_cases hz : E.zeroLength e.path = true
    · have heq : mergeEdges E cn (e :: es) r = mergeEdges E cn es r := by
        rw [mergeEdges, if_pos hz]
      rw [heq]
      obtain ⟨i1, i2⟩ := ih r h hcn
      refine ⟨fun r' hr' => ?_, fun hv => i2 (fun x hx => hv x (by simp [hx]))⟩
      obtain ⟨k1, k2, k3, k4, k5, k6, k7⟩ := i1 r' hr'
      refine ⟨k1, k2, k3, k4, k5, ?_, ?_⟩
      · intro x hx hx0
        rcases List.mem_cons.1 hx with rfl | hx
        · rw [hz] at hx0; simp at hx0
        · exact k6 x hx hx0
      · intro x y
        rw [k7]
        constructor
        · rintro (hh | ⟨f, hf, hf'⟩)
          · exact Or.inl hh
          · exact Or.inr ⟨f, by simp [hf], hf'⟩
        · rintro (hh | ⟨f, hf, hf'⟩)
          · exact Or.inl hh
          · rcases List.mem_cons.1 hf with rfl | hf
            · rw [hz] at hf'; simp at hf'
            · exact Or.inr ⟨f, hf, hf'⟩
    · have hz' : E.zeroLength e.path = false := by simpa using hz
      cases ha : cn[e.src]? with
      | none =>
        constructor
        · intro r' hr'; rw [mergeEdges, if_neg hz, ha] at hr'; simp at hr'
        · intro hv; have := (hv e (by simp)).1; simp at ha; omega
      | some a =>
        cases hb : cn[e.dst]? with
        | none =>
          constructor
          · intro r' hr'; rw [mergeEdges, if_neg hz, ha, hb] at hr'; simp at hr'
          · intro hv; have := (hv e (by simp)).2; simp at hb; omega
        | some b =>
          obtain ⟨r1, m1, m2, m3⟩ := h.addEdges E e.path (a := a) (b := b)
            (hcn a (List.mem_of_getElem? ha)) (hcn b (List.mem_of_getElem? hb))
          have heq : mergeEdges E cn (e :: es) r = mergeEdges E cn es r1 := by
            rw [mergeEdges, if_neg hz, ha, hb]; dsimp only; rw [m1]
          rw [heq]
          obtain ⟨i1, i2⟩ := ih r1 m2 (by rw [m3.configs]; exact hcn)
          refine ⟨fun r' hr' => ?_, fun hv => i2 (fun x hx => hv x (by simp [hx]))⟩
          obtain ⟨k1, k2, k3, k4, k5, k6, k7⟩ := i1 r' hr'
          refine ⟨k1, m3.grow.trans k2, by rw [k3, m3.configs], by rw [k4, m3.init], by rw [k5, m3.goals], ?_, ?_⟩
          · intro x hx hx0
            rcases List.mem_cons.1 hx with rfl | hx
            · refine ⟨a, b, ha, hb, ⟨⟨r.edges.length, a, b, x.path⟩, ?_, rfl, rfl, rfl⟩,
                ⟨⟨r.edges.length + 1, b, a, E.rev x.path⟩, ?_, rfl, rfl, rfl⟩⟩
              · exact k2.edges.subset (by rw [m3.edges]; simp)
              · exact k2.edges.subset (by rw [m3.edges]; simp)
            · exact k6 x hx hx0
          · intro x y
            rw [k7, m3.hasEdge]
            constructor
            · rintro ((hh | ⟨rfl, rfl⟩ | ⟨rfl, rfl⟩) | ⟨f, hf, hf'⟩)
              · exact Or.inl hh
              · exact Or.inr ⟨e, by simp, hz', Or.inl ⟨ha, hb⟩⟩
              · exact Or.inr ⟨e, by simp, hz', Or.inr ⟨ha, hb⟩⟩
              · exact Or.inr ⟨f, by simp [hf], hf'⟩
            · rintro (hh | ⟨f, hf, hf0, hf'⟩)
              · exact Or.inl (Or.inl hh)
              · rcases List.mem_cons.1 hf with rfl | hf
                · rw [ha, hb] at hf'
                  simp only [Option.some.injEq] at hf'
                  rcases hf' with ⟨rfl, rfl⟩ | ⟨rfl, rfl⟩
                  · exact Or.inl (Or.inr (Or.inl ⟨rfl, rfl⟩))
                  · exact Or.inl (Or.inr (Or.inr ⟨rfl, rfl⟩))
                · exact Or.inr ⟨f, hf, hf0, hf'⟩

theorem insertLoop_spec (E : Env Q P K) (b : Bool) (l : List (P × Q)) {V : List (Nat × Nat)} (n : Nat) (r : Roadmap Q P) (h : Inv V r)
    (hn : n < r.configs.length) :
    ∃ r' m, insertLoop E b l n r = .ok (r', m) ∧ Inv (if b then V else insertV E l n r V) r' ∧ Grow r r' ∧ r'.init = r.init ∧
      r'.goals = r.goals ∧ m < r'.configs.length ∧ ReflTransGen (HasEdge r') n m ∧
      (b = true → ReflTransGen (HasEdge r') m n) ∧
      (∀ q, (l.map (·.2)).getLast? = some q → r'.configs[m]? = some q) ∧
      (b = true → ∀ x y, HasEdge r' x y → HasEdge r x y ∨ HasEdge r' y x) := by
  induction l generalizing V n r with
  | nil =>
    refine ⟨r, n, rfl, by simp [insertV, h], Grow.refl r, rfl, rfl, hn, .refl, fun _ => .refl, by simp, fun _ x y hxy => Or.inl hxy⟩
  | cons pq l ih =>
    obtain ⟨p, q⟩ := pq
    -- one step
    have hstep : ∃ r1 m1, (if b then addNodeAndEdges E r n q p else addNodeAndEdgeTo E r n q p) = .ok (r1, m1) ∧
        Inv (if b then V else oneWay r m1 (m1, n) V) r1 ∧ NodeLinked r r1 q m1 ∧ HasEdge r1 n m1 ∧
        (b = true → HasEdge r1 m1 n) ∧ (b = true → ∀ x y, HasEdge r1 x y → HasEdge r x y ∨ HasEdge r1 y x) ∧
        (b = false → addNodeAndEdgeTo E r n q p = .ok (r1, m1)) := by
      cases b with
      | true =>
        obtain ⟨r1, m1, k1, k2, k3, k4⟩ := h.addNodeAndEdges E q hn p
        refine ⟨r1, m1, by simpa using k1, by simpa using k2, k3, (k4 _ _).2 (by simp), fun _ => (k4 _ _).2 (by simp), fun _ x y hxy => ?_, by simp⟩
        rcases (k4 x y).1 hxy with hh | ⟨rfl, rfl⟩ | ⟨rfl, rfl⟩
        · exact Or.inl hh
        · exact Or.inr ((k4 _ _).2 (by simp))
        · exact Or.inr ((k4 _ _).2 (by simp))
      | false =>
        obtain ⟨r1, m1, k1, k2, k3, k4⟩ := h.addNodeAndEdgeTo E q hn p
        exact ⟨r1, m1, by simpa using k1, by simpa using k2, k3, (k4 _ _).2 (by simp), by simp, by simp, fun _ => k1⟩
    obtain ⟨r1, m1, k1, k2, k3, k4, k5, k6, k7⟩ := hstep
    obtain ⟨r', m, i1, i2, i3, i4, i5, i6, i7, i8, i9, i10⟩ := ih m1 r1 k2 k3.lt
    refine ⟨r', m, ?_, ?_, k3.grow.trans i3, by rw [i4, k3.init], by rw [i5, k3.goals], i6, ?_, ?_, ?_, ?_⟩
    · unfold insertLoop; rw [k1]; exact i1
    · cases b with
      | true => simpa using i2
      | false =>
        simp only [Bool.false_eq_true, if_false] at i2 ⊢
        unfold insertV
        rw [k7 rfl]
        exact i2
    · exact ReflTransGen.head (i3.hasEdge k4) i7
    · intro hb; exact (i8 hb).tail (i3.hasEdge (k5 hb))
    · intro q' hq'
      cases l with
      | nil =>
        simp only [List.map_cons, List.map_nil, List.getLast?_singleton, Option.some.injEq] at hq'
        subst hq'
        unfold insertLoop at i1
        cases i1
        exact k3.get
      | cons a l =>
        refine i9 q' ?_
        simpa using hq'
    · intro hb x y hxy
      rcases i10 hb x y hxy with hh | hh
      · rcases k6 hb x y hh with hh | hh
        · exact Or.inl hh
        · exact Or.inr (i3.hasEdge hh)
      · exact Or.inr hh

/-- The invariant is preserved by every call; nodes and edges are only appended, except by `clear`. -/
theorem step_inv (E : Env Q P K) {V : List (Nat × Nat)} {r r' : Roadmap Q P} (h : Inv V r) (o : Op Q P)
    (hr : step E r o = .ok r') :
    Inv (stepV E r V o) r' ∧ ((∀ h : o = Op.clear, r' = clear r) ∧ (o ≠ Op.clear → Grow r r')) := by
  cases o with
  | addNode q =>
    obtain ⟨r1, n, h1, h2, h3, h4, _⟩ := h.addNode E q
    simp only [step, h1, Except.map, Except.ok.injEq] at hr
    subst hr
    exact ⟨h2, by simp, fun _ => h4⟩
  | addEdge a b p =>
    simp only [step] at hr
    by_cases hv : a < r.configs.length ∧ b < r.configs.length
    · obtain ⟨r1, h1, h2, h3⟩ := h.addEdge p hv.1 hv.2
      rw [h1] at hr; cases hr
      exact ⟨h2, by simp, fun _ => h3.grow⟩
    · have : (r.configs.length ≤ a || r.configs.length ≤ b) = true := by simp; omega
      simp [addEdge, this, bind, Except.bind, throw, throwThe, MonadExceptOf.throw] at hr
  | addEdges a b p =>
    simp only [step] at hr
    by_cases hv : a < r.configs.length ∧ b < r.configs.length
    · obtain ⟨r1, h1, h2, h3⟩ := h.addEdges E p hv.1 hv.2
      rw [h1] at hr; cases hr
      exact ⟨h2, by simp, fun _ => h3.grow⟩
    · have : (r.configs.length ≤ a || r.configs.length ≤ b) = true := by simp; omega
      simp [addEdges, addEdge, this, bind, Except.bind, throw, throwThe, MonadExceptOf.throw] at hr
  | addNodeAndEdges a q p =>
    simp only [step] at hr
    by_cases hv : a < r.configs.length
    · obtain ⟨r1, n, h1, h2, h3, h4⟩ := h.addNodeAndEdges E q hv p
      rw [h1] at hr; cases hr
      exact ⟨h2, by simp, fun _ => h3.grow⟩
    · simp [addNodeAndEdges, if_pos (Nat.le_of_not_lt hv), bind, Except.bind, throw, throwThe, MonadExceptOf.throw, Except.map] at hr
  | addNodeAndEdgeTo a q p =>
    simp only [step] at hr
    by_cases hv : a < r.configs.length
    · obtain ⟨r1, n, h1, h2, h3, h4⟩ := h.addNodeAndEdgeTo E q hv p
      simp only [stepV]
      rw [h1] at hr ⊢; cases hr
      exact ⟨h2, by simp, fun _ => h3.grow⟩
    · simp [addNodeAndEdgeTo, if_pos (Nat.le_of_not_lt hv), bind, Except.bind, throw, throwThe, MonadExceptOf.throw, Except.map] at hr
  | addNodeAndEdgeFrom q a p =>
    simp only [step] at hr
    by_cases hv : a < r.configs.length
    · obtain ⟨r1, n, h1, h2, h3, h4⟩ := h.addNodeAndEdgeFrom E q hv p
      simp only [stepV]
      rw [h1] at hr ⊢; cases hr
      exact ⟨h2, by simp, fun _ => h3.grow⟩
    · simp [addNodeAndEdgeFrom, if_pos (Nat.le_of_not_lt hv), bind, Except.bind, throw, throwThe, MonadExceptOf.throw, Except.map] at hr
  | initNode q =>
    obtain ⟨r1, n, h1, h2, h3, h4, _⟩ := h.addNode E q
    simp only [step, setInit, h1, Except.map, bind, Except.bind, pure, Except.pure, Except.ok.injEq] at hr
    subst hr
    exact ⟨h2.setInit (List.getElem?_eq_some_iff.1 h3).1, by simp, fun _ => ⟨h4.configs, h4.edges⟩⟩
  | addGoalNode q =>
    obtain ⟨r1, n, h1, h2, h3, h4, _⟩ := h.addNode E q
    simp only [step, addGoalNode, h1, Except.map, bind, Except.bind, pure, Except.pure, Except.ok.injEq] at hr
    subst hr
    refine ⟨h2.setGoals ?_, by simp, fun _ => ⟨h4.configs, h4.edges⟩⟩
    intro g hg
    rcases List.mem_append.1 hg with hg | hg
    · exact h2.goals g hg
    · rw [List.mem_singleton.1 hg]; exact (List.getElem?_eq_some_iff.1 h3).1
  | resetGoalNodes =>
    simp only [step, Except.ok.injEq] at hr
    subst hr
    exact ⟨h.setGoals (by simp), by simp, fun _ => ⟨List.prefix_refl _, List.prefix_refl _⟩⟩
  | pathExists =>
    simp only [step, pathExists] at hr
    cases hi : r.init with
    | none => rw [hi] at hr; simp [Except.map] at hr
    | some i =>
      rw [hi] at hr
      obtain ⟨ans, h1, _⟩ := pathExistsLoop_spec h.wf (h.wf.cc_live i (h.init i hi)) r.goals
      simp only [h1, Except.map, Except.ok.injEq] at hr
      subst hr
      exact ⟨h, by simp, fun _ => Grow.refl _⟩
  | canReach a b =>
    simp only [step] at hr
    split at hr
    · simp at hr
    · rename_i hv
      simp at hv
      obtain ⟨ans, h1, _⟩ := canReach_spec h.wf (d := r.cc b) (h.wf.cc_live a hv.1)
      rw [h1] at hr
      cases hr
      exact ⟨h, by simp, fun _ => Grow.refl _⟩
  | merge other =>
    simp only [step, mergeRoadmap] at hr
    obtain ⟨r1, ns, h1, h2, h3, h4, h5, h6, h7, h8⟩ := mergeNodes_spec E other.configs r h
    rw [h1] at hr
    dsimp only at hr
    have hcn : ∀ n ∈ ns, n < r1.configs.length := by
      intro n hn
      obtain ⟨i, hi, rfl⟩ := List.getElem_of_mem hn
      obtain ⟨n', k1, k2⟩ := h8 i (other.configs[i]'(by omega)) (by simp)
      have : n' = ns[i] := by
        rw [List.getElem?_eq_getElem hi] at k1; exact (Option.some.inj k1).symm
      rw [this] at k2
      exact (List.getElem?_eq_some_iff.1 k2).1
    obtain ⟨k1, k2, _⟩ := (mergeEdges_spec E ns other.edges r1 h2 hcn).1 r' hr
    exact ⟨k1, by simp, fun _ => h3.trans k2⟩
  | insertPathVector q l b =>
    simp only [step, insertPathVector] at hr
    obtain ⟨r1, n, h1, h2, h3, h4, _⟩ := h.addNode E q
    rw [h1] at hr
    dsimp only at hr
    obtain ⟨r2, m, k1, k2, k3, _⟩ := insertLoop_spec E b l n r1 h2 (List.getElem?_eq_some_iff.1 h3).1
    rw [k1] at hr
    cases hr
    refine ⟨?_, by simp, fun _ => h4.trans k3⟩
    cases b with
    | true => simpa [stepV] using k2
    | false =>
      simp only [stepV, h1]
      simpa using k2
  | clear =>
    simp only [step, Except.ok.injEq] at hr
    subst hr
    exact ⟨Inv.clear r, by simp, by simp⟩

theorem run_inv (E : Env Q P K) (os : List (Op Q P)) {V : List (Nat × Nat)} {r r' : Roadmap Q P} (h : Inv V r)
    (hr : run E r os = .ok r') : Inv (runV E r V os) r' := by
  induction os generalizing V r with
  | nil => simp only [run, Except.ok.injEq] at hr; subst hr; exact h
  | cons o os ih =>
    unfold run at hr
    unfold runV
    cases hs : step E r o with
    | error e => rw [hs] at hr; simp at hr
    | ok r1 =>
      rw [hs] at hr
      exact ih (step_inv E h o hs).1 hr

end Verif.Roadmap
