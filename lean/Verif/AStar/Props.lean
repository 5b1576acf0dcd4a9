import Verif.AStar.Lemmas
import Verif.Roadmap.Props
import Mathlib.Algebra.Order.Ring.Int

/-!
# A* in a roadmap built by any history of calls: C12, C13, C14

The fuel of the model only has to be larger than the number of nodes.
-/
namespace Verif.AStar
open Relation
open Verif.Roadmap (Edge Env Op HasEdge NodeReach run empty run_inv)
variable {Q P K : Type} [DecidableEq Q] [AddCommGroup K] [LinearOrder K] [IsOrderedAddMonoid K]

/-- `es` is a chain of edges of the roadmap (members of `edges()`) from `a` to `b`. -/
def Chain (r : Roadmap.Roadmap Q P) : Nat → List (Edge P) → Nat → Prop
  | a, [], b => a = b
  | a, e :: es, b => e ∈ r.edges ∧ e.src = a ∧ Chain r e.dst es b

omit [DecidableEq Q] in
theorem Walk.chain {r : Roadmap.Roadmap Q P} (h : Roadmap.Adj r) {a b : Nat} {p : List (Edge P)} (hw : Walk r.out a p b) :
    Chain r a p b := by
  induction hw with
  | nil => exact rfl
  | @cons a b e p he _ ih => exact ⟨(h.outOk a e he).2, (h.outOk a e he).1, ih⟩

omit [DecidableEq Q] in
theorem nodeReach_iff_walk {r : Roadmap.Roadmap Q P} (h : Roadmap.Adj r) {a b : Nat} : NodeReach r a b ↔ ∃ p, Walk r.out a p b := by
  constructor
  · intro hr
    unfold NodeReach at hr
    induction hr with
    | refl => exact ⟨[], .nil a⟩
    | @tail y z _ hyz ih =>
      obtain ⟨p, hp⟩ := ih
      obtain ⟨e, he, rfl, rfl⟩ := hyz
      obtain ⟨e', h1, _, _, h4⟩ := h.listed e he
      exact ⟨p ++ [e'], h4 ▸ hp.snoc h1⟩
  · rintro ⟨p, hp⟩
    induction hp with
    | nil => exact .refl
    | @cons a b e p he _ ih => exact ReflTransGen.head ⟨e, (h.outOk a e he).2, (h.outOk a e he).1, rfl⟩ ih

omit [DecidableEq Q] [LinearOrder K] [IsOrderedAddMonoid K] [AddCommGroup K] in
theorem isGoal_iff (I : Input P K) (n : Nat) : isGoal I n = true ↔ n ∈ I.goals := by
  simp [isGoal]

omit [DecidableEq Q] in
/-- All results on the search of one roadmap. -/
theorem solution_spec {V : List (Nat × Nat)} {r : Roadmap.Roadmap Q P} (h : Roadmap.Inv V r) {i : Nat} (hi : r.init = some i)
    (len : P → K) (heur : Nat → K) (fuel : Nat) (hf : r.configs.length + 1 ≤ fuel) :
    (∃ g es, solution (ofRoadmap r i len heur) fuel = .path g es ∧ g ∈ r.goals ∧ Walk r.out i es g ∧
      ((∀ e ∈ r.edges, 0 ≤ len e.path) → (∀ e ∈ r.edges, heur e.src ≤ len e.path + heur e.dst) → (∀ g ∈ r.goals, heur g = 0) →
        ∀ g' ∈ r.goals, ∀ p, Walk r.out i p g' → total len es ≤ total len p)) ∨
    (solution (ofRoadmap r i len heur) fuel = .failed ∧ ∀ g ∈ r.goals, ¬ NodeReach r i g) := by
  set I := ofRoadmap r i len heur with hI
  have hsrc : ∀ n, ∀ e ∈ I.out n, e.src = n := fun n e he => (h.adj.outOk n e he).1
  have hV : ∀ n ∈ List.range r.configs.length, ∀ e ∈ I.out n, e.dst ∈ List.range r.configs.length := fun n _ e he =>
    List.mem_range.2 (h.adj.ends e (h.adj.outOk n e he).2).2
  have hiV : I.init ∈ List.range r.configs.length := List.mem_range.2 (h.init i hi)
  have hopt : ((∀ e ∈ r.edges, 0 ≤ len e.path) ∧ (∀ e ∈ r.edges, heur e.src ≤ len e.path + heur e.dst)) →
      (∀ a ∈ List.range r.configs.length, ∀ e ∈ I.out a, 0 ≤ I.len e.path) ∧
      (∀ a ∈ List.range r.configs.length, ∀ e ∈ I.out a, I.heur a ≤ I.len e.path + I.heur e.dst) := by
    rintro ⟨h1, h2⟩
    refine ⟨fun a _ e he => h1 e (h.adj.outOk a e he).2, fun a _ e he => ?_⟩
    have := h2 e (h.adj.outOk a e he).2
    rw [(h.adj.outOk a e he).1] at this
    exact this
  -- the invariant carried is conditional to the hypotheses of optimality
  have hspec := findPath_spec I hsrc hiV hV
    (R := fun s => ((∀ e ∈ r.edges, 0 ≤ len e.path) ∧ (∀ e ∈ r.edges, heur e.src ≤ len e.path + heur e.dst)) → Opt I s)
    (fun s c rest hh ho hs hg hyp => opt_step I hsrc hV (hopt hyp).2 s c rest hh (ho hyp) hs hg)
    (fun hg hyp => opt_first I hsrc hV hiV (hopt hyp).1 hg) fuel (by simpa using hf)
  rcases hspec with ⟨hg, hfound⟩ | ⟨n, s, hfound, hg, hh, ho, rest, hs⟩ | ⟨hfail, s, hh, hopn⟩
  · left
    refine ⟨i, [], ?_, (isGoal_iff I i).1 hg, .nil i, ?_⟩
    · unfold solution
      rw [hfound]
      obtain ⟨f, rfl⟩ : ∃ f', fuel = f' + 1 := ⟨fuel - 1, by omega⟩
      simp [trace, start, hI, ofRoadmap]
    · intro h1 h2 _ g' _ p hp
      exact total_nonneg I hV (hopt ⟨h1, h2⟩).1 hp hiV
  · left
    have hn : n ∈ s.opn := (sortOpen_perm s).subset (by rw [hs]; simp)
    obtain ⟨p, h1, h2, h3⟩ := trace_open I hh.inv hn
    have hcl : s.closed.length ≤ r.configs.length := by
      have hsub : s.closed.Subperm (List.range r.configs.length) :=
        List.subperm_of_subset hh.inv.closedNodup (fun x hx => hh.inV x (Or.inr hx))
      simpa using hsub.length_le
    refine ⟨n, p, ?_, (isGoal_iff I n).1 hg, h1, ?_⟩
    · unfold solution
      rw [hfound]
      dsimp only
      rw [h3 fuel [] (by omega)]
      simp
    · intro k1 k2 k3 g' hg' q hq
      have hnc : g' ∉ s.closed := fun hc => by
        have := hh.inv.notGoal g' hc
        rw [(isGoal_iff I g').2 hg'] at this; simp at this
      have := head_best I hV (hopt ⟨k1, k2⟩).2 hh (ho ⟨k1, k2⟩) hs hnc hq
      have e1 : I.heur n = 0 := k3 n ((isGoal_iff I n).1 hg)
      have e2 : I.heur g' = 0 := k3 g' hg'
      rw [e1, e2, add_zero, add_zero, ← h2] at this
      exact this
  · right
    refine ⟨by unfold solution; rw [hfail], fun g hg hr => ?_⟩
    obtain ⟨p, hp⟩ := (nodeReach_iff_walk h.adj).1 hr
    have hclosed : ∀ a b p, Walk I.out a p b → a ∈ s.closed → b ∈ s.closed := by
      intro a b p hp
      induction hp with
      | nil => exact id
      | @cons a b e p he _ ih =>
        intro ha
        refine ih ?_
        rcases hh.relaxed a ha e he with hr | ⟨hr, _⟩
        · exact hr
        · rw [hopn] at hr; simp at hr
    have := hh.inv.notGoal g (hclosed i g p hp hh.inv.started)
    rw [(isGoal_iff I g).2 hg] at this; simp at this

/-! ## C12 -/

/-- C12: in the roadmap obtained by any history, when the search returns, the edges it returns are edges of the roadmap, the first starts
at the init node, each one starts where the previous one ends, and the last one ends at a goal node (for any heuristic, consistent or not). -/
theorem C12_chain (E : Env Q P K) (os : List (Op Q P)) (r : Roadmap.Roadmap Q P) (hr : run E empty os = .ok r) (i : Nat)
    (hi : r.init = some i) (len : P → K) (heur : Nat → K) (fuel : Nat) (hf : r.configs.length + 1 ≤ fuel) (g : Nat) (es : List (Edge P))
    (h : solution (ofRoadmap r i len heur) fuel = .path g es) : g ∈ r.goals ∧ Chain r i es g := by
  have hinv := run_inv E os Roadmap.Inv.empty hr
  rcases solution_spec hinv hi len heur fuel hf with ⟨g', es', h1, h2, h3, _⟩ | ⟨h1, _⟩
  · rw [h] at h1
    simp only [Solution.path.injEq] at h1
    obtain ⟨rfl, rfl⟩ := h1
    exact ⟨h2, h3.chain hinv.adj⟩
  · rw [h] at h1; simp at h1

/-! ## C13 -/

/-- C13: in the roadmap obtained by any history, the search ends (it does not run more iterations than the number of nodes plus one), and
throws iff no goal node can be reached from the init node. -/
theorem C13_complete (E : Env Q P K) (os : List (Op Q P)) (r : Roadmap.Roadmap Q P) (hr : run E empty os = .ok r) (i : Nat)
    (hi : r.init = some i) (len : P → K) (heur : Nat → K) (fuel : Nat) (hf : r.configs.length + 1 ≤ fuel) :
    solution (ofRoadmap r i len heur) fuel ≠ .outOfFuel ∧
    (solution (ofRoadmap r i len heur) fuel = .failed ↔ ∀ g ∈ r.goals, ¬ NodeReach r i g) := by
  have hinv := run_inv E os Roadmap.Inv.empty hr
  rcases solution_spec hinv hi len heur fuel hf with ⟨g, es, h1, h2, h3, _⟩ | ⟨h1, h2⟩
  · rw [h1]
    refine ⟨by simp, by simp; exact ⟨g, h2, (nodeReach_iff_walk hinv.adj).2 ⟨es, h3⟩⟩⟩
  · rw [h1]
    exact ⟨by simp, by simpa using h2⟩

/-- C13 (with C05): when no node is created by a one-way insertion, the search succeeds exactly when `pathExists()` answers true. -/
theorem C13_pathExists (E : Env Q P K) (os : List (Op Q P)) (r : Roadmap.Roadmap Q P) (hd : ∀ o ∈ os, o.directed = true)
    (hr : run E empty os = .ok r) (i : Nat)
    (hi : r.init = some i) (len : P → K) (heur : Nat → K) (fuel : Nat) (hf : r.configs.length + 1 ≤ fuel) :
    ∃ ans, Roadmap.pathExists r = .ok (ans, r) ∧
      (ans = true ↔ ∃ g es, solution (ofRoadmap r i len heur) fuel = .path g es) := by
  obtain ⟨ans, h1, h2⟩ := Roadmap.C05_pathExists_exact E os r hd hr i hi
  refine ⟨ans, h1, ?_⟩
  rw [h2]
  have hinv := run_inv E os Roadmap.Inv.empty hr
  rcases solution_spec hinv hi len heur fuel hf with ⟨g, es, k1, k2, k3, _⟩ | ⟨k1, k2⟩
  · exact ⟨fun _ => ⟨g, es, k1⟩, fun _ => ⟨g, k2, (nodeReach_iff_walk hinv.adj).2 ⟨es, k3⟩⟩⟩
  · constructor
    · rintro ⟨g, hg, hh⟩; exact absurd hh (k2 g hg)
    · rintro ⟨g, es, hh⟩; rw [k1] at hh; simp at hh

/-! ## C14 -/

omit [DecidableEq Q] [LinearOrder K] [IsOrderedAddMonoid K] in
/-- A chain of edges can be replaced by a walk along out edges, not longer if parallel edges have the same length. -/
theorem chain_walk {r : Roadmap.Roadmap Q P} (h : Roadmap.Adj r) (len : P → K)
    (hpar : ∀ e ∈ r.edges, ∀ e' ∈ r.edges, e.src = e'.src → e.dst = e'.dst → len e.path = len e'.path) (a b : Nat) (p : List (Edge P))
    (hc : Chain r a p b) : ∃ q, Walk r.out a q b ∧ total len q = total len p := by
  induction p generalizing a with
  | nil => obtain rfl : a = b := hc; exact ⟨[], .nil a, rfl⟩
  | cons e p ih =>
    obtain ⟨he, rfl, hc⟩ := hc
    obtain ⟨q, h1, h2⟩ := ih _ hc
    obtain ⟨e', k1, _, k3, k4⟩ := h.listed e he
    refine ⟨e' :: q, .cons k1 (by rw [k4]; exact h1), ?_⟩
    rw [total_cons, total_cons, h2, hpar e he e' (h.outOk _ _ k1).2 k3.symm k4.symm]

/-- `C14_optimal` for any roadmap that satisfies the invariant. -/
theorem optimal_inv {V : List (Nat × Nat)} {r : Roadmap.Roadmap Q P} (hinv : Roadmap.Inv V r) (i : Nat)
    (hi : r.init = some i) (len : P → K) (heur : Nat → K) (fuel : Nat) (hf : r.configs.length + 1 ≤ fuel) (g : Nat) (es : List (Edge P))
    (hnn : ∀ e ∈ r.edges, 0 ≤ len e.path) (hcons : ∀ e ∈ r.edges, heur e.src ≤ len e.path + heur e.dst)
    (hgoal : ∀ g ∈ r.goals, heur g = 0)
    (hpar : ∀ e ∈ r.edges, ∀ e' ∈ r.edges, e.src = e'.src → e.dst = e'.dst → len e.path = len e'.path)
    (h : solution (ofRoadmap r i len heur) fuel = .path g es) (g' : Nat) (hg' : g' ∈ r.goals) (p : List (Edge P)) (hp : Chain r i p g') :
    (es.map (fun e => len e.path)).sum ≤ (p.map (fun e => len e.path)).sum := by
  rcases solution_spec hinv hi len heur fuel hf with ⟨g', es', h1, h2, h3, h4⟩ | ⟨h1, _⟩
  · rw [h] at h1
    simp only [Solution.path.injEq] at h1
    obtain ⟨rfl, rfl⟩ := h1
    obtain ⟨q, k1, k2⟩ := chain_walk hinv.adj len hpar i _ p hp
    have := h4 hnn hcons hgoal _ hg' q k1
    rw [k2] at this
    exact this
  · rw [h] at h1; simp at h1

/-- C14 (general): if lengths are not negative and the heuristic is consistent and zero at goals, the returned path is not longer than
any chain of edges of the roadmap from the init node to a goal node.  Two edges between the same nodes in the same direction must have the same
length, since only the first one is recorded in `outEdges()` (see `C14_parallel_counterexample`). -/
theorem C14_optimal (E : Env Q P K) (os : List (Op Q P)) (r : Roadmap.Roadmap Q P) (hr : run E empty os = .ok r) (i : Nat)
    (hi : r.init = some i) (len : P → K) (heur : Nat → K) (fuel : Nat) (hf : r.configs.length + 1 ≤ fuel) (g : Nat) (es : List (Edge P))
    (hnn : ∀ e ∈ r.edges, 0 ≤ len e.path) (hcons : ∀ e ∈ r.edges, heur e.src ≤ len e.path + heur e.dst)
    (hgoal : ∀ g ∈ r.goals, heur g = 0)
    (hpar : ∀ e ∈ r.edges, ∀ e' ∈ r.edges, e.src = e'.src → e.dst = e'.dst → len e.path = len e'.path)
    (h : solution (ofRoadmap r i len heur) fuel = .path g es) (g' : Nat) (hg' : g' ∈ r.goals) (p : List (Edge P)) (hp : Chain r i p g') :
    (es.map (fun e => len e.path)).sum ≤ (p.map (fun e => len e.path)).sum :=
  optimal_inv (run_inv E os Roadmap.Inv.empty hr) i hi len heur fuel hf g es hnn hcons hgoal hpar h g' hg' p hp

omit [DecidableEq Q] [AddCommGroup K] [IsOrderedAddMonoid K] in
theorem heuristicLoop_spec (dist : Q → Q → K) (q : Q) (gs : List Q) (res : K) :
    (heuristicLoop dist q gs res ≤ res ∧ ∀ g ∈ gs, heuristicLoop dist q gs res ≤ dist q g) ∧
    (heuristicLoop dist q gs res = res ∨ ∃ g ∈ gs, heuristicLoop dist q gs res = dist q g) := by
  induction gs generalizing res with
  | nil => simp [heuristicLoop]
  | cons g gs ih =>
    unfold heuristicLoop
    split
    · rename_i hlt
      obtain ⟨⟨h1, h2⟩, h3⟩ := ih (dist q g)
      refine ⟨⟨le_trans h1 (le_of_lt hlt), ?_⟩, ?_⟩
      · intro x hx
        rcases List.mem_cons.1 hx with rfl | hx
        · exact h1
        · exact h2 x hx
      · rcases h3 with h3 | ⟨x, hx, h3⟩
        · exact Or.inr ⟨g, by simp, h3⟩
        · exact Or.inr ⟨x, by simp [hx], h3⟩
    · rename_i hlt
      obtain ⟨⟨h1, h2⟩, h3⟩ := ih res
      refine ⟨⟨h1, ?_⟩, ?_⟩
      · intro x hx
        rcases List.mem_cons.1 hx with rfl | hx
        · exact le_trans h1 (not_lt.1 hlt)
        · exact h2 x hx
      · rcases h3 with h3 | ⟨x, hx, h3⟩
        · exact Or.inl h3
        · exact Or.inr ⟨x, by simp [hx], h3⟩

/-- `C14_optimal_distance` for any roadmap that satisfies the invariant. -/
theorem optimal_distance_inv (E : Env Q P K) (inf : K) (hinf : ∀ a b, E.dist a b < inf) (hpos : ∀ a b, 0 ≤ E.dist a b)
    (hzero : ∀ a, E.dist a a = 0) (htri : ∀ a b c, E.dist a c ≤ E.dist a b + E.dist b c)
    {V : List (Nat × Nat)} {r : Roadmap.Roadmap Q P} (hinv : Roadmap.Inv V r) (i : Nat)
    (hi : r.init = some i) (len : P → K) (fuel : Nat) (hf : r.configs.length + 1 ≤ fuel) (g : Nat) (es : List (Edge P))
    (hlen : ∀ e ∈ r.edges, ∀ a b, r.configs[e.src]? = some a → r.configs[e.dst]? = some b → E.dist a b ≤ len e.path)
    (hpar : ∀ e ∈ r.edges, ∀ e' ∈ r.edges, e.src = e'.src → e.dst = e'.dst → len e.path = len e'.path)
    (h : solution (ofRoadmap r i len (heuristic E.dist inf r)) fuel = .path g es) (g' : Nat) (hg' : g' ∈ r.goals) (p : List (Edge P))
    (hp : Chain r i p g') :
    (es.map (fun e => len e.path)).sum ≤ (p.map (fun e => len e.path)).sum := by
  have conf : ∀ n, n < r.configs.length → ∃ q, r.configs[n]? = some q := fun n hn => ⟨_, List.getElem?_eq_getElem hn⟩
  have hne : ∃ x, x ∈ r.goals.filterMap (fun g => r.configs[g]?) := by
    obtain ⟨q, hq⟩ := conf g' (hinv.goals g' hg')
    exact ⟨q, List.mem_filterMap.2 ⟨g', hg', hq⟩⟩
  have hloop : ∀ q, ∃ x ∈ r.goals.filterMap (fun g => r.configs[g]?),
      heuristicLoop E.dist q (r.goals.filterMap (fun g => r.configs[g]?)) inf = E.dist q x := by
    intro q
    obtain ⟨⟨_, h2⟩, h3⟩ := heuristicLoop_spec E.dist q (r.goals.filterMap (fun g => r.configs[g]?)) inf
    rcases h3 with h3 | h3
    · obtain ⟨x, hx⟩ := hne
      have := h2 x hx
      rw [h3] at this
      exact absurd (hinf q x) (not_lt.2 this)
    · exact h3
  refine optimal_inv hinv i hi len _ fuel hf g es ?_ ?_ ?_ hpar h g' hg' p hp
  · intro e he
    obtain ⟨a, ha⟩ := conf _ (hinv.adj.ends e he).1
    obtain ⟨b, hb⟩ := conf _ (hinv.adj.ends e he).2
    exact le_trans (hpos a b) (hlen e he a b ha hb)
  · intro e he
    obtain ⟨a, ha⟩ := conf _ (hinv.adj.ends e he).1
    obtain ⟨b, hb⟩ := conf _ (hinv.adj.ends e he).2
    unfold heuristic
    rw [ha, hb]
    dsimp only
    obtain ⟨x, hx, h1⟩ := hloop b
    have h2 := (heuristicLoop_spec E.dist a (r.goals.filterMap (fun g => r.configs[g]?)) inf).1.2 x hx
    rw [h1]
    exact le_trans h2 (le_trans (htri a b x) (add_le_add_left (hlen e he a b ha hb) _))
  · intro x hx
    obtain ⟨q, hq⟩ := conf x (hinv.goals x hx)
    unfold heuristic
    rw [hq]
    dsimp only
    have hm : q ∈ r.goals.filterMap (fun g => r.configs[g]?) := List.mem_filterMap.2 ⟨x, hx, hq⟩
    have h2 := (heuristicLoop_spec E.dist q (r.goals.filterMap (fun g => r.configs[g]?)) inf).1.2 q hm
    rw [hzero] at h2
    obtain ⟨y, _, h1⟩ := hloop q
    exact le_antisymm h2 (by rw [h1]; exact hpos _ _)

/-- C14: with the heuristic of the code (distance to the closest goal), for a distance that is non negative, zero from a point to itself,
finite and satisfies the triangle inequality, and edges at least as long as the distance between their end configurations, the returned path
is a shortest one among all chains of edges from the init node to a goal node. -/
theorem C14_optimal_distance (E : Env Q P K) (inf : K) (hinf : ∀ a b, E.dist a b < inf) (hpos : ∀ a b, 0 ≤ E.dist a b)
    (hzero : ∀ a, E.dist a a = 0) (htri : ∀ a b c, E.dist a c ≤ E.dist a b + E.dist b c)
    (os : List (Op Q P)) (r : Roadmap.Roadmap Q P) (hr : run E empty os = .ok r) (i : Nat)
    (hi : r.init = some i) (len : P → K) (fuel : Nat) (hf : r.configs.length + 1 ≤ fuel) (g : Nat) (es : List (Edge P))
    (hlen : ∀ e ∈ r.edges, ∀ a b, r.configs[e.src]? = some a → r.configs[e.dst]? = some b → E.dist a b ≤ len e.path)
    (hpar : ∀ e ∈ r.edges, ∀ e' ∈ r.edges, e.src = e'.src → e.dst = e'.dst → len e.path = len e'.path)
    (h : solution (ofRoadmap r i len (heuristic E.dist inf r)) fuel = .path g es) (g' : Nat) (hg' : g' ∈ r.goals) (p : List (Edge P))
    (hp : Chain r i p g') :
    (es.map (fun e => len e.path)).sum ≤ (p.map (fun e => len e.path)).sum :=
  optimal_distance_inv E inf hinf hpos hzero htri (run_inv E os Roadmap.Inv.empty hr) i hi len fuel hf g es hlen hpar h g' hg' p hp

/-! ## Witnesses -/

/-- Points on a line, a path is its length. -/
def intEnv : Env Int Int Int := ⟨fun a b => |a - b|, id, fun _ => false⟩

/-- What the search returns at the end of a history. -/
def result (heur : Roadmap.Roadmap Int Int → Nat → Int) (os : List (Op Int Int)) : Option (Nat × List (Nat × Nat × Int)) :=
  match run intEnv empty os with
  | .error _ => none
  | .ok r =>
    match r.init with
    | none => none
    | some i =>
      match solution (ofRoadmap r i id (heur r)) (r.configs.length + 1) with
      | .path g es => some (g, es.map (fun e => (e.src, e.dst, e.path)))
      | _ => none

/-- A detour of length 2 + 2 is found rather than the direct edge of length 7. -/
def demo : List (Op Int Int) := [.initNode 0, .addNode 2, .addGoalNode 4, .addEdge 0 2 7, .addEdge 0 1 2, .addEdge 1 2 2]

example : result (fun r => heuristic intEnv.dist 1000 r) demo = some (2, [(0, 1, 2), (1, 2, 2)]) := by decide +kernel

/-- the hypotheses of `C14_optimal_distance` hold on `demo` -/
example : (∀ a b, 0 ≤ intEnv.dist a b) ∧ (∀ a, intEnv.dist a a = 0) ∧ (∀ a b c, intEnv.dist a c ≤ intEnv.dist a b + intEnv.dist b c) :=
  ⟨fun a b => abs_nonneg _, fun a => by simp [intEnv], fun a b c => abs_sub_le _ _ _⟩

/-- C14: a shorter parallel edge, listed in `edges()`, is not used by the search, which returns the longer first one. -/
theorem C14_parallel_counterexample :
    ∃ os : List (Op Int Int), ∃ r, run intEnv empty os = .ok r ∧ r.init = some 0 ∧ r.goals = [1] ∧
      (∃ e ∈ r.edges, e.src = 0 ∧ e.dst = 1 ∧ e.path = 4) ∧
      result (fun r => heuristic intEnv.dist 1000 r) os = some (1, [(0, 1, 9)]) := by
  have h : (match run intEnv empty [.initNode 0, .addGoalNode 4, .addEdge 0 1 9, .addEdge 0 1 4] with
    | .error _ => none
    | .ok r => some (r.init, r.goals, r.edges.map (fun e => (e.src, e.dst, e.path)))) = some (some 0, [1], [(0, 1, 9), (0, 1, 4)]) := by
    decide +kernel
  split at h
  · simp at h
  · rename_i r hr
    simp only [Option.some.injEq, Prod.mk.injEq] at h
    obtain ⟨h1, h2, h3⟩ := h
    refine ⟨_, r, hr, h1, h2, ?_, by decide +kernel⟩
    have : ((0, 1, 4) : Nat × Nat × Int) ∈ r.edges.map (fun e => (e.src, e.dst, e.path)) := by rw [h3]; simp
    obtain ⟨e, he, h4⟩ := List.mem_map.1 this
    simp only [Prod.mk.injEq] at h4
    exact ⟨e, he, h4.1, h4.2.1, h4.2.2⟩

/-- C14: consistency cannot be weakened to admissibility (closed nodes are never opened again): with edges 0→1 (1), 0→2 (3), 1→2 (1),
2→3 (6) and the admissible estimate 7 at node 1, the search returns a path of length 9 while one of length 8 exists. -/
theorem C14_inconsistent_counterexample :
    result (fun _ n => if n = 1 then 7 else 0)
      [.initNode 0, .addNode 10, .addNode 20, .addGoalNode 30, .addEdge 0 1 1, .addEdge 0 2 3, .addEdge 1 2 1, .addEdge 2 3 6] =
      some (3, [(0, 2, 3), (2, 3, 6)]) := by
  decide +kernel

end Verif.AStar
