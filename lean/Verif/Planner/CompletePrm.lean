import Verif.Planner.KPrmStar
import Verif.Planner.CompleteBi
set_option linter.unusedSectionVars false

/-!
# Completeness of kPRM* (C154)

From an empty roadmap, kPRM* solves every problem for which a chain of nodes leads from the init configuration to a goal, two successive nodes being neighbours among the `k` nearest with an accepted path in the
corresponding direction.
-/
namespace Verif.Planner
open Verif.Roadmap Relation
variable {Q P K H : Type} [DecidableEq Q] [AddCommGroup K] [LinearOrder K] [IsOrderedAddMonoid K]

/-! ## Specification -/

/-- Configurations are nodes once. -/
def insertNew (F : List Q) (q : Q) : List Q := if q ∈ F then F else F ++ [q]

/-- The nodes after `j` shots, from shot `a` on: the init and goal configurations, then the valid configurations shot, as long as there are less than `nodes`. -/
def nodeList (C : KEnv Q P K H) (q0 : Q) (gs : List Q) (a : Nat) : Nat → List Q
  | 0 => gs.foldl insertNew [q0]
  | j + 1 => if (nodeList C q0 gs a j).length < C.nodes then
      match C.check (C.shoot (a + j)) with
      | none => nodeList C q0 gs a j
      | some q => insertNew (nodeList C q0 gs a j) q
    else nodeList C q0 gs a j

/-- The steering method gives a path, its projection (if any) succeeds, the validation accepts it. -/
def Direct (C : PEnv Q P K) (a b : Q) : Prop :=
  ∃ p p', C.steer a b = some p ∧ (C.projector = none ∧ p' = p ∨ ∃ f, C.projector = some f ∧ f p = (true, some p')) ∧ (C.validate false p').1 = true

/-- `b` can be reached directly from `a`, and at most `k` configurations, `a` and `b` included, are at least as close to `a` as `b`. -/
def NearOf (C : KEnv Q P K H) (F : List Q) (a b : Q) : Prop :=
  Direct C.toPEnv a b ∧ (F.filter (fun x => decide (C.dist x a ≤ C.dist b a))).length ≤ C.k

/-- A chain of nodes from the init configuration to a goal, linked by direct paths between neighbours, in one direction or in the other. -/
structure PrmChain (C : KEnv Q P K H) (F : List Q) (q0 : Q) (gs : List Q) (w : Nat → Q) (k : Nat) : Prop where
  first : w 0 = q0
  last : w k ∈ gs
  mem : ∀ i ≤ k, w i ∈ F
  near : ∀ i < k, NearOf C F (w i) (w (i + 1)) ∨ NearOf C F (w (i + 1)) (w i)

/-! ## Edges come by pairs -/

variable {C : KEnv Q P K H} {Valid : P → Prop} {V : List (Nat × Nat)} {r r' : Roadmap Q P}

/-- Each edge has a reverse edge. -/
def SymE (r : Roadmap Q P) : Prop := ∀ a b, HasEdge r a b → HasEdge r b a

theorem SymE.of_edges (h : SymE r) (he : r'.edges = r.edges) : SymE r' := by
  intro a b hab
  unfold HasEdge at *
  rw [he] at hab ⊢
  exact h a b hab

theorem connectNode_sym {C : PEnv Q P K} (h : Good C Valid V r) {n m : Nat} (hn : n < r.configs.length) (hm : m < r.configs.length)
    (hk : connectNode C r n m = .ok r') (hs : SymE r) : SymE r' := by
  have e1 : r.configs[n]? = some r.configs[n] := List.getElem?_eq_getElem hn
  have e2 : r.configs[m]? = some r.configs[m] := List.getElem?_eq_getElem hm
  unfold connectNode at hk
  split at hk
  · simp only [e1, e2] at hk
    cases hp : kPath C r.configs[n] r.configs[m] with
    | none => rw [hp] at hk; rw [← Except.ok.inj hk]; exact hs
    | some p =>
      rw [hp] at hk
      simp only at hk
      obtain ⟨r2', j1, j2, j3⟩ := h.inv.addEdges C.toEnv p hn hm
      rw [hk] at j1
      cases j1
      have he := j3.edges
      intro x y hxy
      obtain ⟨e, he1, he2, he3⟩ := hxy
      rw [he] at he1
      rcases List.mem_append.1 he1 with he1 | he1
      · obtain ⟨e', k1, k2, k3⟩ := hs x y ⟨e, he1, he2, he3⟩
        exact ⟨e', by rw [he]; exact List.mem_append_left _ k1, k2, k3⟩
      · rw [List.mem_cons, List.mem_singleton] at he1
        rcases he1 with rfl | rfl
        · exact ⟨⟨r.edges.length + 1, m, n, C.rev p⟩, by rw [he]; simp, he3, he2⟩
        · exact ⟨⟨r.edges.length, n, m, p⟩, by rw [he]; simp, he3, he2⟩
  · rw [← Except.ok.inj hk]; exact hs

theorem connectAll_sym {C : PEnv Q P K} (hC : Contract C Valid) (n : Nat) (l : List Nat) {r : Roadmap Q P} (h : Good C Valid V r) (hn : n < r.configs.length)
    (hl : ∀ m ∈ l, m < r.configs.length) (hk : connectAll C n l r = .ok r') (hs : SymE r) : SymE r' := by
  induction l generalizing r with
  | nil => rw [← Except.ok.inj hk]; exact hs
  | cons m l ih =>
    obtain ⟨r1, k1, k2, k3, -⟩ := connectNode_spec hC h hn (hl m (by simp))
    simp only [connectAll, k1] at hk
    exact ih k2 (by rw [k3.configs]; exact hn) (fun m' hm' => by rw [k3.configs]; exact hl m' (by simp [hm'])) hk (connectNode_sym h hn (hl m (by simp)) k1 hs)

theorem connectOne_sym (hC : Contract C.toPEnv Valid) (hk0 : 0 < C.k) (h : Good C.toPEnv Valid V r) {n : Nat} (hn : n < r.configs.length) (go : Bool)
    (hk : connectOne C r n go = .ok r') (hs : SymE r) : SymE r' := by
  have e1 : r.configs[n]? = some r.configs[n] := List.getElem?_eq_getElem hn
  obtain ⟨l, k1, k2⟩ := nearestNodes_spec hk0 r e1
  simp only [connectOne, e1, k1] at hk
  cases go with
  | true => exact connectAll_sym hC n l h hn (fun m hm => k2.lt hm) hk hs
  | false => rw [← Except.ok.inj hk]; exact hs

theorem connectGoals_sym (hC : Contract C.toPEnv Valid) (hk0 : 0 < C.k) (gs : List Nat) {r : Roadmap Q P} (h : Good C.toPEnv Valid V r)
    (hg : ∀ g ∈ gs, g < r.configs.length) (hk : connectGoals C gs r = .ok r') (hs : SymE r) : SymE r' := by
  induction gs generalizing r with
  | nil => rw [← Except.ok.inj hk]; exact hs
  | cons g gs ih =>
    obtain ⟨r1, k1, k2, k3, -⟩ := connectOne_spec hC hk0 h (hg g (by simp)) (r.inn g).isEmpty
    simp only [connectGoals, k1] at hk
    exact ih k2 (fun m' hm' => by rw [k3.configs]; exact hg m' (by simp [hm'])) hk (connectOne_sym hC hk0 h (hg g (by simp)) _ k1 hs)

theorem connectInitAndGoal_sym (hC : Contract C.toPEnv Valid) (hk0 : 0 < C.k) (h : Good C.toPEnv Valid V r) {i : Nat} (hi : r.init = some i)
    (hk : connectInitAndGoal C r = .ok r') (hs : SymE r) : SymE r' := by
  unfold connectInitAndGoal at hk
  simp only [hi] at hk
  have hil := h.inv.init i hi
  by_cases ho : (r.out i).isEmpty = true
  · rw [if_pos ho] at hk
    obtain ⟨r1, k1, k2, k3, -⟩ := connectOne_spec hC hk0 h hil true
    rw [k1] at hk
    exact connectGoals_sym hC hk0 _ k2 (fun g hg => k2.inv.goals g hg) hk (connectOne_sym hC hk0 h hil true k1 hs)
  · rw [if_neg ho] at hk
    exact connectGoals_sym hC hk0 _ h (fun g hg => h.inv.goals g hg) hk hs

theorem addNode_sym {q : Q} {n : Nat} (h : Good C.toPEnv Valid V r) (hk : addNode C.toEnv r q = .ok (r', n)) (hs : SymE r) : SymE r' := by
  obtain ⟨r1, n1, h1, -, -, -, h5, -⟩ := h.inv.addNode C.toEnv q
  rw [hk] at h1
  obtain ⟨rfl, rfl⟩ := Prod.mk.inj (Except.ok.inj h1)
  exact hs.of_edges h5

theorem kStep_sym (hC : Contract C.toPEnv Valid) (hk0 : 0 < C.k) {full : Prop} {s s' : KState × Roadmap Q P} (h : KInv C Valid V full s)
    (hk : kStep C s = .ok s') (hs : SymE s.2) : SymE s'.2 := by
  unfold kStep at hk
  split at hk
  · unfold generate at hk
    split at hk
    · split at hk
      · simp at hk
      · split at hk
        · simp at hk
        · next k1 =>
          rw [← Except.ok.inj hk]
          exact addNode_sym h.good k1 hs
    · split at hk
      · simp at hk
      · split at hk
        · simp at hk
        · rw [← Except.ok.inj hk]; exact hs
  · next hp =>
    unfold linkNodes at hk
    split at hk
    · rw [← Except.ok.inj hk]; exact hs
    · next hne =>
      have hlt : s.1.lnk < s.2.configs.length := lt_of_le_of_ne (h.lnk hp).1 hne
      obtain ⟨n1, -, -⟩ := h.nbr hp hlt
      split at hk
      · simp at hk
      · split at hk
        · split at hk
          · rw [← Except.ok.inj hk]; exact hs
          · split at hk
            · simp at hk
            · split at hk
              · simp at hk
              · rw [← Except.ok.inj hk]; exact hs
        · split at hk
          · simp at hk
          · next m hm =>
            split at hk
            · simp at hk
            · next r1 k1 =>
              rw [← Except.ok.inj hk]
              exact connectNode_sym h.good hlt (n1.lt (List.mem_of_getElem? hm)) k1 hs
  · obtain ⟨i, hi⟩ := h.init
    split at hk
    · simp at hk
    · next r1 k1 =>
      rw [← Except.ok.inj hk]
      exact connectInitAndGoal_sym hC hk0 h.good hi k1 hs
  · simp at hk

/-! ## Neighbours -/

theorem direct_kPath {C : PEnv Q P K} {a b : Q} (h : Direct C a b) : kPath C a b ≠ none := by
  obtain ⟨p, p', h1, h2, h3⟩ := h
  unfold kPath
  rcases h2 with ⟨h2, rfl⟩ | ⟨f, h2, h4⟩
  · simp [h1, h2, h3]
  · simp [h1, h2, h4, h3]

/-- A node with at most `k` nodes as close as itself is among the `k` nearest ones. -/
theorem near_mem {n m : Nat} {a b : Q} {l : List Nat} (hl : IsNearest C.dist C.k r n l) (ha : r.configs[n]? = some a) (hb : r.configs[m]? = some b)
    (hc : (r.configs.filter (fun x => decide (C.dist x a ≤ C.dist b a))).length ≤ C.k) : m ∈ l := by
  obtain ⟨q, h1, left, h2, h3, h4, -⟩ := hl
  rw [ha] at h1
  obtain rfl := Option.some.inj h1
  by_contra hm
  have hml : m < r.configs.length := lt_of_get hb
  have hleft : m ∈ left := by
    have : m ∈ l ++ left := h2.mem_iff.2 (List.mem_range.2 hml)
    rcases List.mem_append.1 this with h | h
    · exact absurd h hm
    · exact h
  -- the nodes of `l` and `m` are at least as close as `m`
  have hnd : (m :: l).Nodup := by
    have hn : (l ++ left).Nodup := h2.nodup_iff.2 List.nodup_range
    exact List.nodup_cons.2 ⟨hm, hn.of_append_left⟩
  have hsub : (m :: l) ⊆ (List.range r.configs.length).filter (fun x => ((r.configs[x]?).map (fun y => decide (C.dist y a ≤ C.dist b a))).getD false) := by
    intro x hx
    rw [List.mem_filter, List.mem_range]
    rcases List.mem_cons.1 hx with rfl | hx
    · exact ⟨hml, by simp [hb]⟩
    · have hxl : x < r.configs.length := List.mem_range.1 (h2.mem_iff.1 (List.mem_append_left _ hx))
      have hxg : r.configs[x]? = some r.configs[x] := List.getElem?_eq_getElem hxl
      exact ⟨hxl, by simpa [hxg] using h4 x hx m hleft _ b hxg hb⟩
  have hle := (List.subperm_of_subset hnd hsub).length_le
  have hcount : ((List.range r.configs.length).filter (fun x => ((r.configs[x]?).map (fun y => decide (C.dist y a ≤ C.dist b a))).getD false)).length =
      (r.configs.filter (fun x => decide (C.dist x a ≤ C.dist b a))).length := by
    have he : r.configs.map (fun x => decide (C.dist x a ≤ C.dist b a)) = (List.range r.configs.length).map (fun x => ((r.configs[x]?).map (fun y => decide (C.dist y a ≤ C.dist b a))).getD false) := by
      apply List.ext_getElem?
      intro i
      by_cases hi : i < r.configs.length
      · simp [hi]
      · simp [hi]
    rw [← List.countP_eq_length_filter, ← List.countP_eq_length_filter]
    have e1 := List.countP_map (p := fun b : Bool => b) (f := fun x => decide (C.dist x a ≤ C.dist b a)) (l := r.configs)
    have e2 := List.countP_map (p := fun b : Bool => b) (f := fun x => ((r.configs[x]?).map (fun y => decide (C.dist y a ≤ C.dist b a))).getD false) (l := List.range r.configs.length)
    rw [he] at e1
    exact (e2.symm.trans e1)
  rw [hcount] at hle
  simp only [List.length_cons] at hle
  have hperm := h2.length_eq
  rw [List.length_append, List.length_range] at hperm
  have hpos : 0 < left.length := List.length_pos_of_mem hleft
  omega

/-- When all nodes have been treated with their neighbours, two neighbours with a direct path are linked in both directions. -/
theorem near_linked (hs : SymE r) (hd : ∀ m < r.configs.length, Done C r m) {a b : Q} {n m : Nat} (hn : r.configs[n]? = some a) (hm : r.configs[m]? = some b)
    (hnd : NearOf C r.configs a b) : NodeReach r n m ∧ NodeReach r m n := by
  obtain ⟨l, k1, k2⟩ := hd n (lt_of_get hn)
  rcases k2 m (near_mem k1 hn hm hnd.2) with h | h | h
  · rw [h]; exact ⟨ReflTransGen.refl, ReflTransGen.refl⟩
  · exact ⟨ReflTransGen.single (hs _ _ h), ReflTransGen.single h⟩
  · exact absurd (h a b hn hm) (direct_kPath hnd.1)

theorem prm_reached (hg : Good C.toPEnv Valid [] r) {q0 : Q} {gs : List Q} (ht : Tagged q0 gs r) (hs : SymE r) (hnd : r.configs.Nodup) (hd : ∀ m < r.configs.length, Done C r m) {w : Nat → Q} {k : Nat}
    (hch : PrmChain C r.configs q0 gs w k) : (reached r).1 = true := by
  obtain ⟨i, hi, hqi⟩ := ht.init
  have key : ∀ j ≤ k, ∀ n : Nat, r.configs[n]? = some (w j) → NodeReach r i n := by
    intro j
    induction j with
    | zero =>
      intro _ n hn
      rw [hch.first] at hn
      have : i = n := (List.getElem?_inj (lt_of_get hqi) hnd).1 (hqi.trans hn.symm)
      rw [this]
      exact ReflTransGen.refl
    | succ j ih =>
      intro hj n hn
      obtain ⟨m, hm⟩ := List.mem_iff_getElem?.1 (hch.mem j (by omega))
      have hmn : NodeReach r m n := by
        rcases hch.near j (by omega) with h | h
        · exact (near_linked hs hd hm hn h).1
        · exact (near_linked hs hd hn hm h).2
      exact (ih (by omega) m hm).trans hmn
  obtain ⟨g, hg1, hg2⟩ := ht.all _ hch.last
  exact (reached_iff hg.inv hi).2 ⟨g, hg1, key k le_rfl g hg2⟩

/-! ## Generation of the nodes -/

theorem insertNew_nodup {F : List Q} (h : F.Nodup) (q : Q) : (insertNew F q).Nodup := by
  unfold insertNew
  split
  · exact h
  · next hq => exact List.nodup_append.2 ⟨h, by simp, fun a ha b hb hab => hq (by rw [← List.mem_singleton.1 hb, ← hab]; exact ha)⟩

theorem addNode_insert (hE : Separates C.toEnv) (h : Inv [] r) {q : Q} {n : Nat} (hk : addNode C.toEnv r q = .ok (r', n)) : r'.configs = insertNew r.configs q := by
  obtain ⟨r1, n1, g1, -, g3, -, -, -, -, g8⟩ := h.addNode C.toEnv q
  rw [hk] at g1
  obtain ⟨rfl, rfl⟩ := Prod.mk.inj (Except.ok.inj g1)
  unfold insertNew
  split
  · next hq =>
    rcases g8 with ⟨g8, -⟩ | ⟨-, -, -, g8 | ⟨k, m, hk', hm⟩⟩
    · rw [g8]
    · rw [g8] at hq; simp at hq
    · exfalso
      obtain ⟨k', m', hk2, ⟨c, hc1, hc2⟩, hmin⟩ := nearestNode_spec C.toEnv h.wf q false (List.ne_nil_of_mem hq)
      rw [hk'] at hk2; cases hk2
      have := hmin q hq
      rw [hc2] at this
      exact hm (by rw [hc1, hE c q this])
  · next hq =>
    rcases g8 with ⟨g8, -⟩ | ⟨-, -, g8, -⟩
    · rw [g8] at g3
      exact absurd (List.mem_of_getElem? g3) hq
    · exact g8

theorem addGoals_insert (hE : Separates C.toEnv) (gs : List Q) (h : Good C.toPEnv Valid [] r) (hk : addGoals C.toPEnv gs r = .ok r') :
    r'.configs = gs.foldl insertNew r.configs ∧ r'.edges = r.edges := by
  induction gs generalizing r with
  | nil => rw [← Except.ok.inj hk]; exact ⟨rfl, rfl⟩
  | cons g gs ih =>
    obtain ⟨r1, n, h1, h2, h3, h4, h5, -⟩ := h.inv.addNode C.toEnv g
    obtain ⟨r1', n', g1, g2, g3, g4⟩ := h.addNode g
    rw [h1] at g1
    obtain ⟨rfl, rfl⟩ := Prod.mk.inj (Except.ok.inj g1)
    have hg2 : Good C.toPEnv Valid [] { r1 with goals := r1.goals ++ [n] } := by
      refine g2.setGoals ?_
      intro x hx
      rcases List.mem_append.1 hx with hx | hx
      · exact g2.inv.goals x hx
      · rw [List.mem_singleton.1 hx]; exact lt_of_get h3
    obtain ⟨k1, k2⟩ := ih hg2 (by simp only [addGoals, Roadmap.addGoalNode, h1] at hk; exact hk)
    refine ⟨?_, k2.trans h5⟩
    rw [k1]
    show gs.foldl insertNew r1.configs = _
    rw [addNode_insert hE h.inv h1]
    rfl

theorem startSolve_insert (hE : Separates C.toEnv) (h : Good C.toPEnv Valid [] r) (he : r.configs = []) (q0 : Q) (gs : List Q) (hk : startSolve C.toPEnv q0 gs r = .ok r') :
    r'.configs = gs.foldl insertNew [q0] ∧ r'.edges = r.edges := by
  have h0 : Good C.toPEnv Valid [] (resetGoalNodes r) := h.setGoals (by simp)
  obtain ⟨r1, n, h1, h2, h3, h4, h5, -⟩ := h0.inv.addNode C.toEnv q0
  obtain ⟨r1', n', g1, g2, g3, g4⟩ := h0.addNode q0
  rw [h1] at g1
  obtain ⟨rfl, rfl⟩ := Prod.mk.inj (Except.ok.inj g1)
  have h2' : Good C.toPEnv Valid [] { r1 with init := some n } := g2.setInit (lt_of_get g4)
  obtain ⟨k1, k2⟩ := addGoals_insert hE gs h2' (by simp only [startSolve, Roadmap.setInit, h1] at hk; exact hk)
  refine ⟨?_, k2.trans h5⟩
  rw [k1]
  have hc := addNode_insert hE h0.inv h1
  have he0 : (resetGoalNodes r).configs = [] := he
  rw [he0] at hc
  show gs.foldl insertNew r1.configs = _
  rw [hc]
  simp [insertNew]

theorem shootValid_some (f n : Nat) (h : ∃ i < f, C.check (C.shoot (n + i)) ≠ none) :
    ∃ i q, shootValid C f n = (some q, n + i + 1) ∧ C.check (C.shoot (n + i)) = some q ∧ ∀ i' < i, C.check (C.shoot (n + i')) = none := by
  induction f generalizing n with
  | zero => obtain ⟨i, hi, -⟩ := h; omega
  | succ f ih =>
    cases hc : C.check (C.shoot n) with
    | some q => exact ⟨0, q, by simp [shootValid, hc], by simpa using hc, by omega⟩
    | none =>
      obtain ⟨i, hi, hn⟩ := h
      cases i with
      | zero => exact absurd (by simpa using hc) hn
      | succ i =>
        obtain ⟨i', q, k1, k2, k3⟩ := ih (n + 1) ⟨i, by omega, by rw [show n + 1 + i = n + (i + 1) by omega]; exact hn⟩
        refine ⟨i' + 1, q, ?_, ?_, ?_⟩
        · simp only [shootValid, hc, k1]
          rw [show n + 1 + i' + 1 = n + (i' + 1) + 1 by omega]
        · rw [← k2, show n + (i' + 1) = n + 1 + i' by omega]
        · intro j hj
          cases j with
          | zero => simpa using hc
          | succ j => rw [show n + (j + 1) = n + 1 + j by omega]; exact k3 j (by omega)

variable {q0 : Q} {gs : List Q} {a : Nat}

theorem nodeList_skip (j i : Nat) (h : ∀ i' < i, C.check (C.shoot (a + j + i')) = none) : nodeList C q0 gs a (j + i) = nodeList C q0 gs a j := by
  induction i with
  | zero => rfl
  | succ i ih =>
    rw [← Nat.add_assoc, nodeList, ih (fun i' hi' => h i' (by omega))]
    have := h i (by omega)
    rw [← Nat.add_assoc, this]
    simp

theorem nodeList_full (j i : Nat) (h : C.nodes ≤ (nodeList C q0 gs a j).length) : nodeList C q0 gs a (j + i) = nodeList C q0 gs a j := by
  induction i with
  | zero => rfl
  | succ i ih => rw [← Nat.add_assoc, nodeList, ih, if_neg (by omega)]

theorem nodeList_nodup (j : Nat) : (nodeList C q0 gs a j).Nodup := by
  induction j with
  | zero =>
    unfold nodeList
    have : ∀ (l : List Q) (F : List Q), F.Nodup → (l.foldl insertNew F).Nodup := by
      intro l
      induction l with
      | nil => intro F hF; exact hF
      | cons q l ih => intro F hF; exact ih _ (insertNew_nodup hF q)
    exact this gs [q0] (by simp)
  | succ j ih =>
    unfold nodeList
    split
    · split
      · exact ih
      · exact insertNew_nodup ih _
    · exact ih

theorem nodeList_length (h : (nodeList C q0 gs a 0).length < C.nodes) (j : Nat) : (nodeList C q0 gs a j).length ≤ C.nodes := by
  induction j with
  | zero => omega
  | succ j ih =>
    rw [nodeList]
    split
    · split
      · exact ih
      · unfold insertNew
        split
        · exact ih
        · rw [List.length_append, List.length_singleton]; omega
    · exact ih

/-! ## The whole planner -/

/-- C154: from an empty roadmap, if there are more nodes to generate than init and goal configurations, if the shots contain enough valid configurations (`M` shots), without `tries` invalid ones in a row, and if a chain of
nodes leads from the init configuration to a goal, then kPRM* returns a path that solves the problem, after at most `M + N (k + 1) + 3` steps, unless a limit or an interruption stops it before. -/
theorem C154_kprm (hC : Contract C.toPEnv Valid) (hE : Separates C.toEnv) (hself : ∀ q, C.steer q q ≠ none) (hk : 0 < C.k) (heur : Roadmap Q P → Nat → K) (q0 : Q) (gs : List Q)
    {r : Roadmap Q P} (h : Good C.toPEnv Valid [] r) (hemp : r.configs = []) (s : KState) (hb : (nodeList C q0 gs s.shots 0).length < C.nodes) (M : Nat)
    (hM : C.nodes ≤ (nodeList C q0 gs s.shots M).length) (htry : ∀ j < M, ∃ i < C.tries, C.check (C.shoot (s.shots + j + i)) ≠ none)
    (w : Nat → Q) (k : Nat) (hch : PrmChain C (nodeList C q0 gs s.shots M) q0 gs w k)
    (st : Settings K) (late intr : Nat → Bool) (hstop : st.stop = true) (hlim : ∀ m ≤ M + C.nodes * (C.k + 1) + 3, ¬ Limit st late m)
    (hint : ∀ m ≤ M + C.nodes * (C.k + 1) + 4, intr m = false) (fuel : Nat) (hf : M + C.nodes * (C.k + 1) + 3 < fuel) :
    ∃ l, solve (kprm C heur q0 gs) st late intr fuel (s, r) = .path l ∧ Solves C.toPEnv Valid q0 gs l := by
  have hN : 0 < C.nodes := by omega
  obtain ⟨s0, h1, h2, h3, h4⟩ := kStart_spec (C := C) hN q0 gs (s := (s, r)) h
  obtain ⟨r1, g1, g2, -, g4⟩ := startSolve_spec h q0 gs
  have hF0 := startSolve_insert hE h hemp q0 gs g1
  have hs0 : s0 = ({ s with phase := .build }, r1) := by
    simp only [kStart, g1, if_neg (show ¬ C.nodes = 0 by omega)] at h1
    rw [← Except.ok.inj h1, if_neg]
    rw [hF0.1]
    have : (nodeList C q0 gs s.shots 0).length < C.nodes := hb
    unfold nodeList at this
    omega
  subst hs0
  have hr0 : r.edges = [] := by
    cases he : r.edges with
    | nil => rfl
    | cons e l =>
      have := (h.inv.adj.ends e (by rw [he]; simp)).1
      rw [hemp] at this
      simp at this
  have hsym : SymE r1 := by
    rintro x y ⟨e, he, -⟩
    rw [hF0.2, hr0] at he
    simp at he
  have hlast : (nodeList C q0 gs s.shots M).length = C.nodes := le_antisymm (nodeList_length hb M) hM
  let J : Nat → KState × Roadmap Q P → Prop := fun n t => KInv C Valid [] True t ∧ Tagged q0 gs t.2 ∧ SymE t.2 ∧ (reached t.2).1 = false ∧
    (t.1.phase = .build → ∃ j, n ≤ j ∧ j ≤ M ∧ t.1.shots = s.shots + j ∧ t.2.configs = nodeList C q0 gs s.shots j) ∧
    (t.1.phase ≠ .build → t.2.configs = nodeList C q0 gs s.shots M ∧ n + stepsLeft C t ≤ M + C.nodes * (C.k + 1) + 3)
  let D : KState × Roadmap Q P → Prop := fun t => KInv C Valid [] True t ∧ Tagged q0 gs t.2 ∧ (reached t.2).1 = true
  have hJ0 : KInv C Valid [] True (({ s with phase := .build }, r1) : KState × Roadmap Q P) :=
    ⟨h2.good, h2.init, h2.filled, h2.lnk, h2.nbr, fun hr _ => h2.done hr rfl, h2.conn⟩
  have hstep : ∀ n t, n < M + C.nodes * (C.k + 1) + 4 → J n t → ∃ t', (kprm C heur q0 gs).step t = .ok t' ∧ (D t' ∨ (n + 1 < M + C.nodes * (C.k + 1) + 4 ∧ J (n + 1) t')) := by
    rintro n t hn ⟨j1, j2, j3, j4, j5, j6⟩
    have hnf : t.1.phase ≠ .failure := by
      intro hp
      have hd := j1.done (by rw [hp]; simp [Phase.rank]) trivial
      obtain ⟨hc, -⟩ := j6 (by rw [hp]; simp)
      have := prm_reached j1.good j2 j3 (by rw [hc]; exact nodeList_nodup M) hd (by rw [hc]; exact hch)
      rw [this] at j4
      simp at j4
    rcases kStep_spec hC hk hN j1 (fun _ => trivial) with ⟨t', k1, k2, k3⟩ | ⟨k1, k2⟩
    · refine ⟨t', k1, ?_⟩
      have ht' : Tagged q0 gs t'.2 := j2.mono k3.ext
      by_cases hre : (reached t'.2).1 = true
      · exact Or.inl ⟨k2, ht', hre⟩
      · right
        have hsym' := kStep_sym hC hk j1 k1 j3
        by_cases hpb : t.1.phase = .build
        · obtain ⟨j, e1, e2, e3, e4⟩ := j5 hpb
          have hgen : generate C t.1 t.2 = .ok t' := by simpa only [kStep, hpb] using k1
          by_cases hlt : t.2.configs.length < C.nodes
          · have hjM : j < M := by
              refine lt_of_le_of_ne e2 ?_
              rintro rfl
              rw [e4] at hlt
              omega
            obtain ⟨i, q, m1, m2, m3⟩ := shootValid_some C.tries (s.shots + j) (htry j hjM)
            unfold generate at hgen
            rw [if_pos hlt, e3, m1] at hgen
            simp only at hgen
            cases ha : addNode C.toEnv t.2 q with
            | error e => rw [ha] at hgen; simp at hgen
            | ok p =>
              obtain ⟨r2, n2⟩ := p
              rw [ha] at hgen
              have hte := Except.ok.inj hgen
              have hskip := nodeList_skip (C := C) (q0 := q0) (gs := gs) (a := s.shots) j i m3
              have hc2 : r2.configs = nodeList C q0 gs s.shots (j + i + 1) := by
                rw [addNode_insert hE j1.good.inv ha, e4, nodeList, hskip, ← Nat.add_assoc, m2]
                rw [e4] at hlt
                simp [hlt]
              have hle : j + i + 1 ≤ M := by
                by_contra hcon
                have : nodeList C q0 gs s.shots (j + (M - j)) = nodeList C q0 gs s.shots j := nodeList_skip j (M - j) (fun i' hi' => m3 i' (by omega))
                rw [show j + (M - j) = M by omega] at this
                rw [e4, ← this] at hlt
                omega
              refine ⟨by omega, k2, ht', hsym', by simpa using hre, ?_, ?_⟩
              · intro _
                refine ⟨j + i + 1, by omega, hle, ?_, ?_⟩
                · rw [← hte]
                  show s.shots + j + i + 1 = _
                  omega
                · rw [← hte]; exact hc2
              · intro hp
                exfalso
                rw [← hte] at hp
                exact hp hpb
          · rw [e4] at hlt
            have hfull : C.nodes ≤ (nodeList C q0 gs s.shots j).length := by omega
            have hjM : nodeList C q0 gs s.shots M = nodeList C q0 gs s.shots j := by
              have := nodeList_full (C := C) (q0 := q0) (gs := gs) (a := s.shots) j (M - j) hfull
              rwa [show j + (M - j) = M by omega] at this
            unfold generate at hgen
            rw [e4, if_neg (show ¬ (nodeList C q0 gs s.shots j).length < C.nodes by omega), ← e4] at hgen
            cases hq : t.2.configs[0]? with
            | none => rw [hq] at hgen; simp at hgen
            | some q =>
              rw [hq] at hgen
              simp only at hgen
              cases hl : nearestNodes C t.2 q with
              | none => rw [hl] at hgen; simp at hgen
              | some l =>
                rw [hl] at hgen
                have hte := Except.ok.inj hgen
                have hph : t'.1.phase = .link := by rw [← hte]
                have hcf : t'.2.configs = nodeList C q0 gs s.shots M := by rw [← hte, hjM]; exact e4
                have hsl : stepsLeft C t' ≤ t'.2.configs.length * (C.k + 1) + 2 := by
                  rcases k3.first hpb with hh | ⟨-, hh⟩
                  · rw [hph] at hh; simp at hh
                  · exact hh
                rw [hcf, hlast] at hsl
                refine ⟨by omega, k2, ht', hsym', by simpa using hre, ?_, ?_⟩
                · intro hh; rw [hph] at hh; simp at hh
                · intro _
                  exact ⟨hcf, by omega⟩
        · obtain ⟨hc, hl⟩ := j6 hpb
          have hlt := k3.left hpb
          have hp' : t'.1.phase ≠ .build := by
            intro hh
            have hr := k3.rank.1
            rw [hh] at hr
            cases hq : t.1.phase <;> simp_all [Phase.rank]
          refine ⟨by omega, k2, ht', hsym', by simpa using hre, fun hh => absurd hh hp', fun _ => ⟨by rw [k3.same hpb, hc], by omega⟩⟩
    · exfalso
      rcases k2 with k2 | k2
      · exact hnf k2
      · obtain ⟨j, e1, e2, e3, e4⟩ := j5 k2
        have hgen : generate C t.1 t.2 = .error .failed := by simpa only [kStep, k2] using k1
        unfold generate at hgen
        by_cases hlt : t.2.configs.length < C.nodes
        · have hjM : j < M := by
            refine lt_of_le_of_ne e2 ?_
            rintro rfl
            rw [e4] at hlt
            omega
          obtain ⟨i, q, m1, m2, m3⟩ := shootValid_some C.tries (s.shots + j) (htry j hjM)
          rw [if_pos hlt, e3, m1] at hgen
          simp only at hgen
          split at hgen <;> simp at hgen
        · rw [if_neg hlt] at hgen
          split at hgen
          · simp at hgen
          · split at hgen <;> simp at hgen
  obtain ⟨l, hl⟩ := solve_until (kprm C heur q0 gs) (fun _ => rfl) st late intr (s, r) _ h1 (M + C.nodes * (C.k + 1) + 4) (by omega) hstop (fun m hm => hlim m (by omega)) hint
    J D (fun t ht => ⟨ht.2.2, computePath_some hself ht.1.good ht.2.1 heur ht.2.2⟩) (fun n t ht => ht.2.2.2.1)
    (by
      by_cases hre : (reached r1).1 = true
      · exact Or.inl ⟨hJ0, h3, hre⟩
      · refine Or.inr ⟨hJ0, h3, hsym, by simpa using hre, fun _ => ⟨0, le_rfl, Nat.zero_le _, rfl, ?_⟩, fun hh => absurd rfl hh⟩
        rw [nodeList]
        exact hF0.1)
    hstep fuel (by omega)
  exact ⟨l, hl, C67_kprm hC hk hN heur q0 gs h st late intr fuel l hl⟩

end Verif.Planner
