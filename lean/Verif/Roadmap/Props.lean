import Verif.Roadmap.History
import Mathlib.Data.Nat.Basic

/-!
# Properties of the roadmap (C01 – C11, C15 for `nearestNode`, C60)

Histories are lists of public calls (`Op`) executed from the empty roadmap by `run`.
-/
namespace Verif.Roadmap
open Relation
variable {Q P K : Type}

/-! ## Vocabulary of the statements -/

/-- Node `b` can be reached from node `a` along directed edges of `edges()`. -/
def NodeReach (r : Roadmap Q P) (a b : Nat) : Prop := ReflTransGen (HasEdge r) a b

/-- Every edge is inserted by `addEdge`, `addEdges`, `addNodeAndEdges`, `merge`, `insertPathVector(_, true)`: no
one-way insertion of a *new node*. -/
def Op.directed : Op Q P → Bool
  | .addNodeAndEdgeTo .. => false
  | .addNodeAndEdgeFrom .. => false
  | .insertPathVector _ _ b => b
  | _ => true

/-- Every edge is inserted with its reverse. -/
def Op.twoWay : Op Q P → Bool
  | .addEdge .. => false
  | o => o.directed

/-- Nodes are only created by `addNode(q)` (also through `initNode`, `addGoalNode`, `merge`). -/
def Op.globalNodes : Op Q P → Bool
  | .addNodeAndEdges .. => false
  | .addNodeAndEdgeTo .. => false
  | .addNodeAndEdgeFrom .. => false
  | .insertPathVector .. => false
  | _ => true

def Op.isClear : Op Q P → Bool
  | .clear => true
  | _ => false

/-- The arguments of the call are nodes of the roadmap, `pathExists` has an init node, a merged roadmap has edges between its own nodes. -/
def Op.Valid (r : Roadmap Q P) : Op Q P → Prop
  | .addEdge a b _ => a < r.configs.length ∧ b < r.configs.length
  | .addEdges a b _ => a < r.configs.length ∧ b < r.configs.length
  | .addNodeAndEdges a _ _ => a < r.configs.length
  | .addNodeAndEdgeTo a _ _ => a < r.configs.length
  | .addNodeAndEdgeFrom _ a _ => a < r.configs.length
  | .pathExists => r.init ≠ none
  | .canReach a b => a < r.configs.length ∧ b < r.configs.length
  | .merge other => ∀ e ∈ other.edges, e.src < other.configs.length ∧ e.dst < other.configs.length
  | _ => True

variable [DecidableEq Q] [LinearOrder K]

/-! ## Consequences of the invariant -/

theorem runV_directed (E : Env Q P K) (os : List (Op Q P)) (r : Roadmap Q P) (h : ∀ o ∈ os, o.directed = true) :
    runV E r [] os = [] := by
  induction os generalizing r with
  | nil => rfl
  | cons o os ih =>
    unfold runV
    have ho := h o (by simp)
    have hV : stepV E r [] o = [] := by
      cases o <;> simp_all [Op.directed, stepV]
    split
    · rfl
    · rw [hV]; exact ih _ (fun o ho => h o (by simp [ho]))

theorem directed_inv (E : Env Q P K) {os : List (Op Q P)} {r : Roadmap Q P} (h : ∀ o ∈ os, o.directed = true)
    (hr : run E empty os = .ok r) : Inv [] r := by
  have := run_inv E os Inv.empty hr
  rwa [runV_directed E os _ h] at this

omit [DecidableEq Q] [LinearOrder K] in
theorem link_nil (r : Roadmap Q P) : Link r [] = HasEdge r := by
  funext x y; simp [Link]

omit [DecidableEq Q] [LinearOrder K] in
theorem Inv.semNil {r : Roadmap Q P} (h : Inv [] r) : Sem (HasEdge r) r := by
  have := h.sem; rwa [link_nil] at this

omit [DecidableEq Q] [LinearOrder K] in
theorem creach_iff {G : Nat → Nat → Prop} {r : Roadmap Q P} (hw : Wf r) (hs : Sem G r) {a b : Nat}
    (ha : a < r.configs.length) (hb : b < r.configs.length) : CReach r (r.cc a) (r.cc b) ↔ ReflTransGen G a b :=
  ⟨hs.creach_sound hw ha hb, hs.reach_complete⟩

/-! ## C01 -/

/-- C01: two nodes are in the same component iff each can be reached from the other. -/
theorem C01_components_are_mutual_reachability (E : Env Q P K) (os : List (Op Q P)) (r : Roadmap Q P)
    (hd : ∀ o ∈ os, o.directed = true) (hr : run E empty os = .ok r) (a b : Nat)
    (ha : a < r.configs.length) (hb : b < r.configs.length) :
    r.cc a = r.cc b ↔ NodeReach r a b ∧ NodeReach r b a := by
  have h := directed_inv E hd hr
  constructor
  · intro hab
    exact ⟨h.semNil.same a b ha hb hab, h.semNil.same b a hb ha hab.symm⟩
  · rintro ⟨h1, h2⟩
    exact h.semNil.acyclic _ (h.wf.cc_live a ha) _ (h.semNil.reach_complete h1) (h.semNil.reach_complete h2)

/-! ## C02 -/

/-- C02: `cc1->canReach(cc2)` between components of the roadmap terminates, does not change anything, and is true iff
some node, equivalently every node, of `cc1` reaches some, equivalently every, node of `cc2`. -/
theorem C02_canReach_exact (E : Env Q P K) (os : List (Op Q P)) (r : Roadmap Q P)
    (hd : ∀ o ∈ os, o.directed = true) (hr : run E empty os = .ok r) (c d : Nat) (hc : c ∈ r.live) (hdl : d ∈ r.live) :
    ∃ ans, canReach r c d = some (ans, r) ∧
      (ans = true ↔ ∃ a ∈ (r.comp c).nodes, ∃ b ∈ (r.comp d).nodes, NodeReach r a b) ∧
      (ans = true ↔ ∀ a ∈ (r.comp c).nodes, ∀ b ∈ (r.comp d).nodes, NodeReach r a b) := by
  have h := directed_inv E hd hr
  obtain ⟨ans, h1, h2⟩ := canReach_spec h.wf (d := d) hc
  have key : ∀ a ∈ (r.comp c).nodes, ∀ b ∈ (r.comp d).nodes, (ans = true ↔ NodeReach r a b) := by
    intro a ha b hb
    obtain ⟨ha1, ha2⟩ := h.wf.owned c hc a ha
    obtain ⟨hb1, hb2⟩ := h.wf.owned d hdl b hb
    rw [h2, ← ha2, ← hb2]
    exact creach_iff h.wf h.semNil ha1 hb1
  obtain ⟨a0, ha0⟩ := List.exists_mem_of_ne_nil _ (h.wf.nonempty c hc)
  obtain ⟨b0, hb0⟩ := List.exists_mem_of_ne_nil _ (h.wf.nonempty d hdl)
  refine ⟨ans, h1, ⟨fun hh => ⟨a0, ha0, b0, hb0, (key a0 ha0 b0 hb0).1 hh⟩, ?_⟩,
    ⟨fun hh a ha b hb => (key a ha b hb).1 hh, fun hh => (key a0 ha0 b0 hb0).2 (hh a0 ha0 b0 hb0)⟩⟩
  rintro ⟨a, ha, b, hb, hh⟩
  exact (key a ha b hb).2 hh

/-! ## C03 -/

/-- C03: after any history (one-way insertions included) the listed components partition the nodes: the component of each
node is listed, holds the node exactly once, no other listed component holds it; components are listed once, are not empty
and hold only nodes of the roadmap. -/
theorem C03_partition (E : Env Q P K) (os : List (Op Q P)) (r : Roadmap Q P) (hr : run E empty os = .ok r) :
    r.live.Nodup ∧
    (∀ n, n < r.configs.length → r.cc n ∈ r.live ∧ (r.comp (r.cc n)).nodes.count n = 1 ∧
      ∀ c ∈ r.live, n ∈ (r.comp c).nodes → c = r.cc n) ∧
    (∀ c ∈ r.live, (r.comp c).nodes ≠ [] ∧ ∀ n ∈ (r.comp c).nodes, n < r.configs.length) := by
  have h := (run_inv E os Inv.empty hr).wf
  refine ⟨h.live_nodup, fun n hn => ⟨h.cc_live n hn, ?_, fun c hc hm => ((h.owned c hc n hm).2).symm⟩,
    fun c hc => ⟨h.nonempty c hc, fun n hn => (h.owned c hc n hn).1⟩⟩
  rw [(h.nodup _ (h.cc_live n hn)).count, if_pos (h.mem n hn)]

/-! ## C04 -/

/-- C04: the links between listed components only name other listed components, `reachableTo` and
`reachableFrom` are inverse of each other, and there is no cycle. -/
theorem C04_component_graph (E : Env Q P K) (os : List (Op Q P)) (r : Roadmap Q P) (hr : run E empty os = .ok r) :
    (∀ c ∈ r.live, ∀ d, d ∈ (r.comp c).tos → d ∈ r.live ∧ d ≠ c) ∧
    (∀ c ∈ r.live, ∀ d, d ∈ (r.comp c).frms → d ∈ r.live ∧ d ≠ c) ∧
    (∀ c ∈ r.live, ∀ d ∈ r.live, d ∈ (r.comp c).tos ↔ c ∈ (r.comp d).frms) ∧
    (∀ c ∈ r.live, ¬ TransGen (fun x y => y ∈ (r.comp x).tos) c c) := by
  have h := run_inv E os Inv.empty hr
  refine ⟨fun c hc d hd => ⟨(h.wf.to_live c hc d hd).1, (h.wf.to_live c hc d hd).2.1⟩,
    fun c hc d hd => ⟨(h.wf.frm_live c hc d hd).1, (h.wf.frm_live c hc d hd).2.1⟩,
    fun c hc d hd => ⟨fun hh => (h.wf.to_live c hc d hh).2.2, fun hh => (h.wf.frm_live d hd c hh).2.2⟩, ?_⟩
  intro c hc hh
  obtain ⟨d, h1, h2⟩ := TransGen.head'_iff.1 hh
  have hd := h.wf.to_live c hc d h1
  have : c = d := h.sem.acyclic c hc d (ReflTransGen.single h1) h2
  exact hd.2.1 this.symm

/-! ## C05, C06 -/

/-- C05: `pathExists()` is true iff a goal node can be reached from the init node along directed edges. -/
theorem C05_pathExists_exact (E : Env Q P K) (os : List (Op Q P)) (r : Roadmap Q P)
    (hd : ∀ o ∈ os, o.directed = true) (hr : run E empty os = .ok r) (i : Nat) (hi : r.init = some i) :
    ∃ ans, pathExists r = .ok (ans, r) ∧ (ans = true ↔ ∃ g ∈ r.goals, NodeReach r i g) := by
  have h := directed_inv E hd hr
  have hil := h.init i hi
  obtain ⟨ans, h1, h2⟩ := pathExistsLoop_spec h.wf (h.wf.cc_live i hil) r.goals
  refine ⟨ans, by unfold pathExists; rw [hi]; exact h1, ?_⟩
  rw [h2]
  constructor
  · rintro ⟨g, hg, hh⟩; exact ⟨g, hg, (creach_iff h.wf h.semNil hil (h.goals g hg)).1 hh⟩
  · rintro ⟨g, hg, hh⟩; exact ⟨g, hg, (creach_iff h.wf h.semNil hil (h.goals g hg)).2 hh⟩

/-- C06: for every history, `pathExists()` answers reachability in the roadmap in which the links made by `addNodeAndEdge`
when it creates a node are taken in both directions (`runV` lists the reverse directions).  So it never misses a path. -/
theorem C06_pathExists_oneWay_partial (E : Env Q P K) (os : List (Op Q P)) (r : Roadmap Q P)
    (hr : run E empty os = .ok r) (i : Nat) (hi : r.init = some i) :
    ∃ ans, pathExists r = .ok (ans, r) ∧
      (ans = true ↔ ∃ g ∈ r.goals, ReflTransGen (fun x y => HasEdge r x y ∨ (x, y) ∈ runV E empty [] os) i g) ∧
      ((∃ g ∈ r.goals, NodeReach r i g) → ans = true) := by
  have h := run_inv E os Inv.empty hr
  have hil := h.init i hi
  obtain ⟨ans, h1, h2⟩ := pathExistsLoop_spec h.wf (h.wf.cc_live i hil) r.goals
  have hiff : ans = true ↔ ∃ g ∈ r.goals, ReflTransGen (fun x y => HasEdge r x y ∨ (x, y) ∈ runV E empty [] os) i g := by
    rw [h2]
    constructor
    · rintro ⟨g, hg, hh⟩; exact ⟨g, hg, (creach_iff h.wf h.sem hil (h.goals g hg)).1 hh⟩
    · rintro ⟨g, hg, hh⟩; exact ⟨g, hg, (creach_iff h.wf h.sem hil (h.goals g hg)).2 hh⟩
  refine ⟨ans, by unfold pathExists; rw [hi]; exact h1, hiff, ?_⟩
  rintro ⟨g, hg, hh⟩
  exact hiff.2 ⟨g, hg, ReflTransGen.mono (fun _ _ h => Or.inl h) _ _ hh⟩

/-! ## C07 -/

/-- The distance is a metric as far as needed: a configuration at the distance of `q` to itself is `q`. -/
def Separates (E : Env Q P K) : Prop := ∀ x q, E.dist x q ≤ E.dist q q → x = q

/-- C07 (one call): on any roadmap built by calls, `addNode(q)` returns a node whose configuration is `q`; if `q` is in
the roadmap nothing changes; otherwise exactly one node is added, alone in a new component without links. -/
theorem C07_addNode (E : Env Q P K) (hE : Separates E) (os : List (Op Q P)) (r : Roadmap Q P)
    (hr : run E empty os = .ok r) (q : Q) :
    ∃ r' n, addNode E r q = .ok (r', n) ∧ r'.configs[n]? = some q ∧
      (q ∈ r.configs → r' = r) ∧
      (q ∉ r.configs → r'.configs = r.configs ++ [q] ∧ r'.edges = r.edges ∧ r'.init = r.init ∧ r'.goals = r.goals ∧
        r'.cc n ∉ r.live ∧ r'.live = r.live ++ [r'.cc n] ∧ r'.comp (r'.cc n) = ⟨[n], [], []⟩ ∧
        (∀ m, m < r.configs.length → r'.cc m = r.cc m) ∧ (∀ c ∈ r.live, r'.comp c = r.comp c)) := by
  have h := run_inv E os Inv.empty hr
  obtain ⟨r', n, h1, h2, h3, h4, h5, h6, h7, h8⟩ := h.addNode E q
  refine ⟨r', n, h1, h3, ?_, ?_⟩
  · intro hq
    rcases h8 with ⟨h8, _⟩ | ⟨_, _, _, h8 | ⟨k, m, hk, hm⟩⟩
    · exact h8
    · rw [h8] at hq; simp at hq
    · exfalso
      have hne : r.configs ≠ [] := fun hh => by rw [hh] at hq; simp at hq
      obtain ⟨k', m', hk', ⟨c, hc1, hc2⟩, hmin⟩ := nearestNode_spec E h.wf q false hne
      rw [hk] at hk'; cases hk'
      have := hmin q hq
      rw [hc2] at this
      exact hm (by rw [hc1, hE c q this])
  · intro hq
    rcases h8 with ⟨rfl, _⟩ | ⟨rfl, rfl, h8, _⟩
    · exact absurd (List.mem_of_getElem? h3) hq
    · have hnl : r.nextCC ∉ r.live := fun hh => absurd (h.wf.live_lt _ hh) (by omega)
      have e2 : (pushNewNode r q).1.cc = set r.cc r.configs.length r.nextCC := rfl
      have e3 : (pushNewNode r q).1.comp = set r.comp r.nextCC { nodes := [r.configs.length], tos := [], frms := [] } := rfl
      refine ⟨h8, h5, h6, h7, ?_, ?_, ?_, ?_, ?_⟩
      · rw [e2, set_eq]; exact hnl
      · rw [e2, set_eq]; rfl
      · rw [e2, set_eq, e3, set_eq]
      · intro m hm; rw [e2, set_ne _ _ (by omega)]
      · intro c hc
        have hne : c ≠ r.nextCC := fun hh => hnl (hh ▸ hc)
        rw [e3, set_ne _ _ hne]

theorem mergeNodes_nodup (E : Env Q P K) (hE : Separates E) {V : List (Nat × Nat)} (qs : List Q) (r : Roadmap Q P) (h : Inv V r)
    (hn : r.configs.Nodup) {r' : Roadmap Q P} {ns : List Nat} (hm : mergeNodes E qs r = .ok (r', ns)) : r'.configs.Nodup := by
  induction qs generalizing r r' ns with
  | nil => simp only [mergeNodes, Except.ok.injEq, Prod.mk.injEq] at hm; rw [← hm.1]; exact hn
  | cons q qs ih =>
    obtain ⟨r1, n, h1, h2, h3, h4, h5, h6, h7, h8⟩ := h.addNode E q
    obtain ⟨r2, ns2, k1, _⟩ := mergeNodes_spec E qs r1 h2
    unfold mergeNodes at hm
    rw [h1] at hm; dsimp only at hm; rw [k1] at hm
    simp only [Except.ok.injEq, Prod.mk.injEq] at hm
    obtain ⟨rfl, _⟩ := hm
    refine ih r1 h2 ?_ k1
    rcases h8 with ⟨rfl, _⟩ | ⟨_, rfl, h8, h9⟩
    · exact hn
    · rw [h8, List.nodup_append]
      refine ⟨hn, by simp, fun a ha b hb hab => ?_⟩
      rw [List.mem_singleton.1 hb] at hab
      subst hab
      rcases h9 with h9 | ⟨k, m, hk, hm'⟩
      · rw [h9] at ha; simp at ha
      · obtain ⟨k', m', hk', ⟨c, hc1, hc2⟩, hmin⟩ := nearestNode_spec E h.wf a false (List.ne_nil_of_mem ha)
        rw [hk] at hk'; cases hk'
        have := hmin a ha
        rw [hc2] at this
        exact hm' (by rw [hc1, hE c a this])

/-- C07 (histories): without `addNodeAndEdge(s)`/`insertPathVector`, no two nodes ever have the same configuration. -/
theorem C07_no_duplicates (E : Env Q P K) (hE : Separates E) (os : List (Op Q P)) (r : Roadmap Q P)
    (hg : ∀ o ∈ os, o.globalNodes = true) (hr : run E empty os = .ok r) : r.configs.Nodup := by
  have key : ∀ (os : List (Op Q P)) (V : List (Nat × Nat)) (r0 : Roadmap Q P), Inv V r0 → r0.configs.Nodup →
      (∀ o ∈ os, o.globalNodes = true) → run E r0 os = .ok r → r.configs.Nodup := by
    intro os
    induction os with
    | nil => intro V r0 h hn _ hr; simp only [run, Except.ok.injEq] at hr; rw [← hr]; exact hn
    | cons o os ih =>
      intro V r0 h hn hg hr
      unfold run at hr
      cases hs : step E r0 o with
      | error e => rw [hs] at hr; simp at hr
      | ok r1 =>
        rw [hs] at hr
        refine ih _ r1 (step_inv E h o hs).1 ?_ (fun o ho => hg o (by simp [ho])) hr
        have hnode : ∀ q r2 n, addNode E r0 q = .ok (r2, n) → r2.configs.Nodup := by
          intro q r2 n h1
          have : mergeNodes E [q] r0 = .ok (r2, [n]) := by simp [mergeNodes, h1]
          exact mergeNodes_nodup E hE [q] r0 h hn this
        cases o with
        | addNode q =>
          obtain ⟨r2, n, h1, _⟩ := h.addNode E q
          simp only [step, h1, Except.map, Except.ok.injEq] at hs
          rw [← hs]; exact hnode q r2 n h1
        | initNode q =>
          obtain ⟨r2, n, h1, _⟩ := h.addNode E q
          simp only [step, setInit, h1, Except.map, bind, Except.bind, pure, Except.pure, Except.ok.injEq] at hs
          rw [← hs]; exact hnode q r2 n h1
        | addGoalNode q =>
          obtain ⟨r2, n, h1, _⟩ := h.addNode E q
          simp only [step, Roadmap.addGoalNode, h1, Except.map, bind, Except.bind, pure, Except.pure, Except.ok.injEq] at hs
          rw [← hs]; exact hnode q r2 n h1
        | addEdge a b p =>
          simp only [step] at hs
          by_cases hv : a < r0.configs.length ∧ b < r0.configs.length
          · obtain ⟨r2, h1, h2, h3⟩ := h.addEdge p hv.1 hv.2
            rw [h1] at hs; cases hs
            rw [h3.configs]; exact hn
          · have : (r0.configs.length ≤ a || r0.configs.length ≤ b) = true := by simp; omega
            simp [Roadmap.addEdge, this, bind, Except.bind, throw, throwThe, MonadExceptOf.throw] at hs
        | addEdges a b p =>
          simp only [step] at hs
          by_cases hv : a < r0.configs.length ∧ b < r0.configs.length
          · obtain ⟨r2, h1, h2, h3⟩ := h.addEdges E p hv.1 hv.2
            rw [h1] at hs; cases hs
            rw [h3.configs]; exact hn
          · have : (r0.configs.length ≤ a || r0.configs.length ≤ b) = true := by simp; omega
            simp [Roadmap.addEdges, Roadmap.addEdge, this, bind, Except.bind, throw, throwThe, MonadExceptOf.throw] at hs
        | addNodeAndEdges a q p => have := hg _ List.mem_cons_self; simp [Op.globalNodes] at this
        | addNodeAndEdgeTo a q p => have := hg _ List.mem_cons_self; simp [Op.globalNodes] at this
        | addNodeAndEdgeFrom q a p => have := hg _ List.mem_cons_self; simp [Op.globalNodes] at this
        | insertPathVector q l b => have := hg _ List.mem_cons_self; simp [Op.globalNodes] at this
        | resetGoalNodes => simp only [step, Except.ok.injEq] at hs; rw [← hs]; exact hn
        | clear => simp only [step, Except.ok.injEq] at hs; rw [← hs]; simp [Roadmap.clear, Roadmap.empty]
        | pathExists =>
          simp only [step, pathExists] at hs
          cases hi : r0.init with
          | none => rw [hi] at hs; simp [Except.map] at hs
          | some i =>
            rw [hi] at hs
            obtain ⟨ans, h1, _⟩ := pathExistsLoop_spec h.wf (h.wf.cc_live i (h.init i hi)) r0.goals
            simp only [h1, Except.map, Except.ok.injEq] at hs
            rw [← hs]; exact hn
        | canReach a b =>
          simp only [step] at hs
          split at hs
          · simp at hs
          · rename_i hv
            simp at hv
            obtain ⟨ans, h1, _⟩ := canReach_spec h.wf (d := r0.cc b) (h.wf.cc_live a hv.1)
            rw [h1] at hs
            cases hs
            exact hn
        | merge other =>
          simp only [step, mergeRoadmap] at hs
          obtain ⟨r2, ns, h1, h2, h3, h4, h5, h6, h7, h8⟩ := mergeNodes_spec E other.configs r0 h
          rw [h1] at hs
          dsimp only at hs
          have hcn : ∀ n ∈ ns, n < r2.configs.length := by
            intro n hn
            obtain ⟨i, hi, rfl⟩ := List.getElem_of_mem hn
            obtain ⟨n', k1, k2⟩ := h8 i (other.configs[i]'(by omega)) (by simp)
            have : n' = ns[i] := by
              rw [List.getElem?_eq_getElem hi] at k1; exact (Option.some.inj k1).symm
            rw [this] at k2
            exact (List.getElem?_eq_some_iff.1 k2).1
          obtain ⟨k1, k2, k3, _⟩ := (mergeEdges_spec E ns other.edges r2 h2 hcn).1 r1 hs
          rw [k3]; exact mergeNodes_nodup E hE _ r0 h hn h1
  exact key os [] empty Inv.empty (by simp [Roadmap.empty]) hg hr

/-! ## C08 -/

/-- C08: after any history, every edge has its ends in the roadmap; the out (in) edges of a node start (end) at
it, are edges of the roadmap and have pairwise distinct other ends; an edge is an out edge of its start iff it is an in edge of
its end; a pair of nodes is a neighbour pair iff some edge joins it. -/
theorem C08_edges_consistent (E : Env Q P K) (os : List (Op Q P)) (r : Roadmap Q P) (hr : run E empty os = .ok r) :
    (∀ e ∈ r.edges, e.src < r.configs.length ∧ e.dst < r.configs.length) ∧
    (∀ n, ∀ e ∈ r.out n, e.src = n ∧ e ∈ r.edges) ∧ (∀ n, ∀ e ∈ r.inn n, e.dst = n ∧ e ∈ r.edges) ∧
    (∀ n, (r.out n).Pairwise (fun e e' => e.dst ≠ e'.dst)) ∧ (∀ n, (r.inn n).Pairwise (fun e e' => e.src ≠ e'.src)) ∧
    (∀ e : Edge P, e ∈ r.out e.src ↔ e ∈ r.inn e.dst) ∧
    (∀ a b, isOutNeighbor r a b = true ↔ HasEdge r a b) ∧ (∀ a b, isInNeighbor r b a = true ↔ HasEdge r a b) ∧
    (r.edges.map Edge.id).Nodup := by
  have h := (run_inv E os Inv.empty hr).adj
  refine ⟨h.ends, h.outOk, h.innOk, h.outDistinct, h.innDistinct, ?_, fun a b => (h.neighbor_iff a b).1,
    fun a b => (h.neighbor_iff a b).2, by rw [h.ids]; exact List.nodup_range⟩
  intro e
  have uniqO : ∀ (l : List (Edge P)), l.Pairwise (fun e e' => e.dst ≠ e'.dst) → ∀ x ∈ l, ∀ y ∈ l, x.dst = y.dst → x = y := by
    intro l hl x hx y hy hxy
    by_contra hne
    rcases List.pairwise_iff_getElem.1 hl with hl'
    obtain ⟨i, hi, rfl⟩ := List.getElem_of_mem hx
    obtain ⟨j, hj, rfl⟩ := List.getElem_of_mem hy
    rcases Nat.lt_trichotomy i j with hij | hij | hij
    · exact hl' i j hi hj hij hxy
    · subst hij; exact hne rfl
    · exact hl' j i hj hi hij hxy.symm
  have uniqI : ∀ (l : List (Edge P)), l.Pairwise (fun e e' => e.src ≠ e'.src) → ∀ x ∈ l, ∀ y ∈ l, x.src = y.src → x = y := by
    intro l hl x hx y hy hxy
    by_contra hne
    rcases List.pairwise_iff_getElem.1 hl with hl'
    obtain ⟨i, hi, rfl⟩ := List.getElem_of_mem hx
    obtain ⟨j, hj, rfl⟩ := List.getElem_of_mem hy
    rcases Nat.lt_trichotomy i j with hij | hij | hij
    · exact hl' i j hi hj hij hxy
    · subst hij; exact hne rfl
    · exact hl' j i hj hi hij hxy.symm
  constructor
  · intro he
    obtain ⟨e', h1, h2, h3, h4⟩ := h.listed e (h.outOk _ e he).2
    have : e' = e := uniqO _ (h.outDistinct _) e' h1 e he h4
    rw [← this]; rw [h4]; exact h2
  · intro he
    obtain ⟨e', h1, h2, h3, h4⟩ := h.listed e (h.innOk _ e he).2
    have : e' = e := uniqI _ (h.innDistinct _) e' h2 e he h3
    rw [← this]; rw [h3]; exact h1

/-- C08 (no failure): on any roadmap built by calls, a call with valid arguments succeeds; in particular the
"already an out/in neighbour" exceptions of `Node` are never thrown and the searches over the components terminate. -/
theorem C08_calls_succeed (E : Env Q P K) (os : List (Op Q P)) (r : Roadmap Q P) (hr : run E empty os = .ok r)
    (o : Op Q P) (hv : o.Valid r) : ∃ r', step E r o = .ok r' := by
  have h := run_inv E os Inv.empty hr
  cases o with
  | addNode q =>
    obtain ⟨r1, n, h1, _⟩ := h.addNode E q
    exact ⟨r1, by simp [step, h1, Except.map]⟩
  | addEdge a b p => obtain ⟨r1, h1, _⟩ := h.addEdge p hv.1 hv.2; exact ⟨r1, h1⟩
  | addEdges a b p => obtain ⟨r1, h1, _⟩ := h.addEdges E p hv.1 hv.2; exact ⟨r1, h1⟩
  | addNodeAndEdges a q p =>
    obtain ⟨r1, n, h1, _⟩ := h.addNodeAndEdges E q hv p
    exact ⟨r1, by simp [step, h1, Except.map]⟩
  | addNodeAndEdgeTo a q p =>
    obtain ⟨r1, n, h1, _⟩ := h.addNodeAndEdgeTo E q hv p
    exact ⟨r1, by simp [step, h1, Except.map]⟩
  | addNodeAndEdgeFrom q a p =>
    obtain ⟨r1, n, h1, _⟩ := h.addNodeAndEdgeFrom E q hv p
    exact ⟨r1, by simp [step, h1, Except.map]⟩
  | initNode q =>
    obtain ⟨r1, n, h1, _⟩ := h.addNode E q
    exact ⟨_, by simp only [step, setInit, h1, Except.map, bind, Except.bind, pure, Except.pure]; rfl⟩
  | addGoalNode q =>
    obtain ⟨r1, n, h1, _⟩ := h.addNode E q
    exact ⟨_, by simp only [step, Roadmap.addGoalNode, h1, Except.map, bind, Except.bind, pure, Except.pure]; rfl⟩
  | resetGoalNodes => exact ⟨_, rfl⟩
  | clear => exact ⟨_, rfl⟩
  | pathExists =>
    cases hi : r.init with
    | none => exact absurd hi hv
    | some i =>
      obtain ⟨ans, h1, _⟩ := pathExistsLoop_spec h.wf (h.wf.cc_live i (h.init i hi)) r.goals
      exact ⟨r, by simp [step, pathExists, hi, h1, Except.map]⟩
  | canReach a b =>
    obtain ⟨ans, h1, _⟩ := canReach_spec h.wf (d := r.cc b) (h.wf.cc_live a hv.1)
    have hv1 := hv.1
    have hv2 := hv.2
    have : (r.configs.length ≤ a || r.configs.length ≤ b) = false := by simp; omega
    exact ⟨r, by simp [step, this, h1]⟩
  | merge other =>
    obtain ⟨r2, ns, h1, h2, h3, h4, h5, h6, h7, h8⟩ := mergeNodes_spec E other.configs r h
    have hcn : ∀ n ∈ ns, n < r2.configs.length := by
      intro n hn
      obtain ⟨i, hi, rfl⟩ := List.getElem_of_mem hn
      obtain ⟨n', k1, k2⟩ := h8 i (other.configs[i]'(by omega)) (by simp)
      have : n' = ns[i] := by
        rw [List.getElem?_eq_getElem hi] at k1; exact (Option.some.inj k1).symm
      rw [this] at k2
      exact (List.getElem?_eq_some_iff.1 k2).1
    obtain ⟨r3, h9⟩ := (mergeEdges_spec E ns other.edges r2 h2 hcn).2 (by rw [h7]; exact hv)
    exact ⟨r3, by simp [step, mergeRoadmap, h1, h9]⟩
  | insertPathVector q l b =>
    obtain ⟨r1, n, h1, h2, h3, _⟩ := h.addNode E q
    obtain ⟨r2, m, k1, _⟩ := insertLoop_spec E b l n r1 h2 (List.getElem?_eq_some_iff.1 h3).1
    exact ⟨r2, by simp [step, insertPathVector, h1, k1, Except.map]⟩

/-! ## C09 -/

theorem step_symm (E : Env Q P K) {V : List (Nat × Nat)} {r r' : Roadmap Q P} (h : Inv V r) (o : Op Q P) (ho : o.twoWay = true)
    (hr : step E r o = .ok r') (hs : ∀ x y, HasEdge r x y → HasEdge r y x) : ∀ x y, HasEdge r' x y → HasEdge r' y x := by
  cases o with
  | addNode q =>
    obtain ⟨r1, n, h1, h2, h3, h4, h5, _⟩ := h.addNode E q
    simp only [step, h1, Except.map, Except.ok.injEq] at hr
    rw [← hr, hasEdge_of_edges h5]; exact hs
  | initNode q =>
    obtain ⟨r1, n, h1, h2, h3, h4, h5, _⟩ := h.addNode E q
    simp only [step, setInit, h1, Except.map, bind, Except.bind, pure, Except.pure, Except.ok.injEq] at hr
    have : r'.edges = r.edges := by rw [← hr]; exact h5
    rw [hasEdge_of_edges this]; exact hs
  | addGoalNode q =>
    obtain ⟨r1, n, h1, h2, h3, h4, h5, _⟩ := h.addNode E q
    simp only [step, Roadmap.addGoalNode, h1, Except.map, bind, Except.bind, pure, Except.pure, Except.ok.injEq] at hr
    have : r'.edges = r.edges := by rw [← hr]; exact h5
    rw [hasEdge_of_edges this]; exact hs
  | addEdge a b p => simp [Op.twoWay] at ho
  | addEdges a b p =>
    simp only [step] at hr
    by_cases hv : a < r.configs.length ∧ b < r.configs.length
    · obtain ⟨r2, h1, h2, h3⟩ := h.addEdges E p hv.1 hv.2
      rw [h1] at hr; cases hr
      intro x y
      rw [h3.hasEdge, h3.hasEdge]
      have := hs x y
      tauto
    · have : (r.configs.length ≤ a || r.configs.length ≤ b) = true := by simp; omega
      simp [Roadmap.addEdges, Roadmap.addEdge, this, bind, Except.bind, throw, throwThe, MonadExceptOf.throw] at hr
  | addNodeAndEdges a q p =>
    simp only [step] at hr
    by_cases hv : a < r.configs.length
    · obtain ⟨r1, n, h1, h2, h3, h4⟩ := h.addNodeAndEdges E q hv p
      rw [h1] at hr; cases hr
      intro x y
      rw [h4, h4]
      have := hs x y
      tauto
    · simp [Roadmap.addNodeAndEdges, if_pos (Nat.le_of_not_lt hv), bind, Except.bind, throw, throwThe, MonadExceptOf.throw, Except.map] at hr
  | addNodeAndEdgeTo a q p => simp [Op.twoWay, Op.directed] at ho
  | addNodeAndEdgeFrom q a p => simp [Op.twoWay, Op.directed] at ho
  | insertPathVector q l b =>
    have hb : b = true := by simpa [Op.twoWay, Op.directed] using ho
    subst hb
    simp only [step, insertPathVector] at hr
    obtain ⟨r1, n, h1, h2, h3, h4, h5, _⟩ := h.addNode E q
    rw [h1] at hr
    dsimp only at hr
    obtain ⟨r2, m, k1, k2, k3, k4, k5, k6, k7, k8, k9, k10⟩ := insertLoop_spec E true l n r1 h2 (List.getElem?_eq_some_iff.1 h3).1
    rw [k1] at hr
    cases hr
    intro x y hxy
    rcases k10 rfl x y hxy with hh | hh
    · rw [hasEdge_of_edges h5] at hh
      refine k3.hasEdge ?_
      rw [hasEdge_of_edges h5]; exact hs _ _ hh
    · exact hh
  | resetGoalNodes => simp only [step, Except.ok.injEq] at hr; rw [← hr]; exact hs
  | clear =>
    simp only [step, Except.ok.injEq] at hr
    rw [← hr]; rintro x y ⟨e, he, _⟩; simp [Roadmap.clear, Roadmap.empty] at he
  | pathExists =>
    simp only [step, pathExists] at hr
    cases hi : r.init with
    | none => rw [hi] at hr; simp [Except.map] at hr
    | some i =>
      rw [hi] at hr
      obtain ⟨ans, h1, _⟩ := pathExistsLoop_spec h.wf (h.wf.cc_live i (h.init i hi)) r.goals
      simp only [h1, Except.map, Except.ok.injEq] at hr
      rw [← hr]; exact hs
  | canReach a b =>
    simp only [step] at hr
    split at hr
    · simp at hr
    · rename_i hv
      simp at hv
      obtain ⟨ans, h1, _⟩ := canReach_spec h.wf (d := r.cc b) (h.wf.cc_live a hv.1)
      rw [h1] at hr
      cases hr
      exact hs
  | merge other =>
    simp only [step, mergeRoadmap] at hr
    obtain ⟨r2, ns, h1, h2, h3, h4, h5, h6, h7, h8⟩ := mergeNodes_spec E other.configs r h
    rw [h1] at hr
    dsimp only at hr
    have hcn : ∀ n ∈ ns, n < r2.configs.length := by
      intro n hn
      obtain ⟨i, hi, rfl⟩ := List.getElem_of_mem hn
      obtain ⟨n', k1, k2⟩ := h8 i (other.configs[i]'(by omega)) (by simp)
      have : n' = ns[i] := by
        rw [List.getElem?_eq_getElem hi] at k1; exact (Option.some.inj k1).symm
      rw [this] at k2
      exact (List.getElem?_eq_some_iff.1 k2).1
    obtain ⟨k1, k2, k3, k4, k5, k6, k7⟩ := (mergeEdges_spec E ns other.edges r2 h2 hcn).1 r' hr
    intro x y hxy
    rw [k7] at hxy ⊢
    rcases hxy with hxy | ⟨e, he, he0, hh⟩
    · rw [hasEdge_of_edges h4] at hxy ⊢
      exact Or.inl (hs _ _ hxy)
    · exact Or.inr ⟨e, he, he0, hh.symm⟩

theorem run_symm (E : Env Q P K) (os : List (Op Q P)) {V : List (Nat × Nat)} {r r' : Roadmap Q P} (h : Inv V r)
    (ho : ∀ o ∈ os, o.twoWay = true) (hr : run E r os = .ok r') (hs : ∀ x y, HasEdge r x y → HasEdge r y x) :
    ∀ x y, HasEdge r' x y → HasEdge r' y x := by
  induction os generalizing V r with
  | nil => simp only [run, Except.ok.injEq] at hr; rw [← hr]; exact hs
  | cons o os ih =>
    unfold run at hr
    cases hst : step E r o with
    | error e => rw [hst] at hr; simp at hr
    | ok r1 =>
      rw [hst] at hr
      exact ih (step_inv E h o hst).1 (fun o h => ho o (by simp [h])) hr
        (step_symm E h o (ho o (by simp)) hst hs)

/-- C09: if edges are only inserted in pairs, adjacency is symmetric, reachability is symmetric, components have no link
between them, and nodes are in the same component iff one is reachable from the other. -/
theorem C09_twoWay_symmetric (E : Env Q P K) (os : List (Op Q P)) (r : Roadmap Q P)
    (ho : ∀ o ∈ os, o.twoWay = true) (hr : run E empty os = .ok r) :
    (∀ a b, isOutNeighbor r a b = isOutNeighbor r b a) ∧
    (∀ a b, NodeReach r a b → NodeReach r b a) ∧
    (∀ c ∈ r.live, (r.comp c).tos = [] ∧ (r.comp c).frms = []) ∧
    (∀ a b, a < r.configs.length → b < r.configs.length → (r.cc a = r.cc b ↔ NodeReach r a b)) := by
  have hd : ∀ o ∈ os, o.directed = true := by
    intro o h
    have := ho o h
    cases o <;> simp_all [Op.twoWay, Op.directed]
  have h := directed_inv E hd hr
  have hsym := run_symm E os (Inv.empty (Q := Q) (P := P)) ho hr (by rintro x y ⟨e, he, _⟩; simp [Roadmap.empty] at he)
  have hreach : ∀ a b, NodeReach r a b → NodeReach r b a := by
    intro a b hab
    induction hab with
    | refl => exact ReflTransGen.refl
    | tail _ hs ih => exact ReflTransGen.head (hsym _ _ hs) ih
  have hlink : ∀ c ∈ r.live, ∀ d, d ∉ (r.comp c).tos := by
    intro c hc d hd
    obtain ⟨k1, k2, k3⟩ := h.wf.to_live c hc d hd
    obtain ⟨a, ha, rfl⟩ := h.wf.exists_node hc
    obtain ⟨b, hb, rfl⟩ := h.wf.exists_node k1
    have hab := h.semNil.sound a b ha hb hd
    exact k2 (h.semNil.acyclic _ hc _ (ReflTransGen.single hd) (h.semNil.reach_complete (hreach a b hab))).symm
  refine ⟨?_, hreach, ?_, ?_⟩
  · intro a b
    rw [Bool.eq_iff_iff, (h.adj.neighbor_iff a b).1, (h.adj.neighbor_iff b a).1]
    exact ⟨hsym a b, hsym b a⟩
  · intro c hc
    refine ⟨List.eq_nil_iff_forall_not_mem.2 (hlink c hc), List.eq_nil_iff_forall_not_mem.2 ?_⟩
    intro d hd
    obtain ⟨k1, k2, k3⟩ := h.wf.frm_live c hc d hd
    exact hlink d k1 c k3
  · intro a b ha hb
    rw [C01_components_are_mutual_reachability E os r hd hr a b ha hb]
    exact ⟨fun hh => hh.1, fun hh => ⟨hh, hreach a b hh⟩⟩

/-! ## C10 -/

/-- C10: starting from any roadmap built by calls, further calls other than `clear` keep all nodes (with their identity and
configuration), all edges and all directed paths. -/
theorem C10_monotone (E : Env Q P K) (os os' : List (Op Q P)) (r r' : Roadmap Q P)
    (hr : run E empty os = .ok r) (hr' : run E r os' = .ok r') (hc : ∀ o ∈ os', o.isClear = false) :
    (∀ (n : Nat) (q : Q), r.configs[n]? = some q → r'.configs[n]? = some q) ∧ (∀ e ∈ r.edges, e ∈ r'.edges) ∧
    (∀ a b, NodeReach r a b → NodeReach r' a b) := by
  have key : ∀ (os' : List (Op Q P)) (V : List (Nat × Nat)) (r : Roadmap Q P), Inv V r → run E r os' = .ok r' →
      (∀ o ∈ os', o.isClear = false) → Grow r r' := by
    intro os'
    induction os' with
    | nil => intro V r _ hr _; simp only [run, Except.ok.injEq] at hr; rw [← hr]; exact Grow.refl r
    | cons o os ih =>
      intro V r h hr hc
      unfold run at hr
      cases hst : step E r o with
      | error e => rw [hst] at hr; simp at hr
      | ok r1 =>
        rw [hst] at hr
        obtain ⟨k1, k2, k3⟩ := step_inv E h o hst
        have hnc : o ≠ Op.clear := by
          have := hc o (by simp)
          rintro rfl
          simp [Op.isClear] at this
        exact (k3 hnc).trans (ih _ r1 k1 hr (fun o h => hc o (by simp [h])))
  have hg := key os' _ r (run_inv E os Inv.empty hr) hr' hc
  exact ⟨fun n q => hg.get, fun e he => hg.edges.subset he,
    fun a b hab => ReflTransGen.mono (fun _ _ h => hg.hasEdge h) _ _ hab⟩

omit [DecidableEq Q] [LinearOrder K] in
/-- C10 (clear): after `clear` there is nothing left; `pathExists()` must not be called before an init node is set. -/
theorem C10_clear (r : Roadmap Q P) :
    (clear r).configs = [] ∧ (clear r).edges = [] ∧ (clear r).live = [] ∧ (clear r).goals = [] ∧ (clear r).init = none ∧
    (∀ n, (clear r).out n = [] ∧ (clear r).inn n = []) := ⟨rfl, rfl, rfl, rfl, rfl, fun _ => ⟨rfl, rfl⟩⟩

/-! ## C11 -/

/-- C11: merging a roadmap (built by calls) succeeds; every node of the other roadmap has a node with the same configuration, every
edge of positive length of the other roadmap has an edge with the same path between the corresponding nodes (and the
reversed path backwards); nodes, edges, init and goal nodes of the receiving roadmap are kept; there are no other edges. -/
theorem C11_merge_partial (E : Env Q P K) (os os' : List (Op Q P)) (r other : Roadmap Q P)
    (hr : run E empty os = .ok r) (ho : run E empty os' = .ok other) :
    ∃ (r' : Roadmap Q P) (f : Nat → Nat), mergeRoadmap E r other = .ok r' ∧
      (∀ (n : Nat) (q : Q), other.configs[n]? = some q → r'.configs[f n]? = some q) ∧
      (∀ e ∈ other.edges, E.zeroLength e.path = false →
        (∃ x ∈ r'.edges, x.src = f e.src ∧ x.dst = f e.dst ∧ x.path = e.path) ∧
        (∃ x ∈ r'.edges, x.src = f e.dst ∧ x.dst = f e.src ∧ x.path = E.rev e.path)) ∧
      (∀ (n : Nat) (q : Q), r.configs[n]? = some q → r'.configs[n]? = some q) ∧ (∀ e ∈ r.edges, e ∈ r'.edges) ∧
      r'.init = r.init ∧ r'.goals = r.goals ∧
      (∀ x y, HasEdge r' x y → HasEdge r x y ∨ ∃ e ∈ other.edges, E.zeroLength e.path = false ∧
        ((f e.src = x ∧ f e.dst = y) ∨ (f e.src = y ∧ f e.dst = x))) := by
  have h := run_inv E os Inv.empty hr
  have ho' := (run_inv E os' Inv.empty ho).adj
  obtain ⟨r2, ns, h1, h2, h3, h4, h5, h6, h7, h8⟩ := mergeNodes_spec E other.configs r h
  have hcn : ∀ n ∈ ns, n < r2.configs.length := by
    intro n hn
    obtain ⟨i, hi, rfl⟩ := List.getElem_of_mem hn
    obtain ⟨n', k1, k2⟩ := h8 i (other.configs[i]'(by omega)) (by simp)
    have : n' = ns[i] := by
      rw [List.getElem?_eq_getElem hi] at k1; exact (Option.some.inj k1).symm
    rw [this] at k2
    exact (List.getElem?_eq_some_iff.1 k2).1
  obtain ⟨r3, h9⟩ := (mergeEdges_spec E ns other.edges r2 h2 hcn).2 (by rw [h7]; exact ho'.ends)
  obtain ⟨k1, k2, k3, k4, k5, k6, k7⟩ := (mergeEdges_spec E ns other.edges r2 h2 hcn).1 r3 h9
  have hf : ∀ {i a}, ns[i]? = some a → ns.getD i 0 = a := by
    intro i a hi; rw [List.getD_eq_getElem?_getD, hi]; rfl
  refine ⟨r3, fun n => ns.getD n 0, by simp [mergeRoadmap, h1, h9], ?_, ?_, ?_, ?_, by rw [k4, h5], by rw [k5, h6], ?_⟩
  · intro n q hq
    obtain ⟨m, m1, m2⟩ := h8 n q hq
    show r3.configs[ns.getD n 0]? = some q
    rw [k3, hf m1]; exact m2
  · intro e he hz
    obtain ⟨a, b, m1, m2, m3, m4⟩ := k6 e he hz
    dsimp only
    rw [hf m1, hf m2]
    exact ⟨m3, m4⟩
  · intro n q hq; exact (h3.trans k2).get hq
  · intro e he; exact (h3.trans k2).edges.subset he
  · intro x y hxy
    rw [k7, hasEdge_of_edges h4] at hxy
    rcases hxy with hxy | ⟨e, he, hz, hh⟩
    · exact Or.inl hxy
    · refine Or.inr ⟨e, he, hz, ?_⟩
      rcases hh with ⟨m1, m2⟩ | ⟨m1, m2⟩
      · exact Or.inl ⟨hf m1, hf m2⟩
      · exact Or.inr ⟨hf m1, hf m2⟩

/-! ## C60: insertPathVector -/

/-- C60: inserting a path vector creates or finds a node for its initial configuration and one for its final
configuration (when there is at least one sub-path), the latter reachable from the former, and conversely when inserted
`backAndForth`; nothing is removed.  (The final node may be a duplicate of an existing node, see the counterexample.) -/
theorem C60_insertPathVector_partial (E : Env Q P K) (os : List (Op Q P)) (r : Roadmap Q P) (hr : run E empty os = .ok r)
    (q : Q) (l : List (P × Q)) (b : Bool) :
    ∃ (r' : Roadmap Q P) (n m : Nat), insertPathVector E r q l b = .ok (r', n, m) ∧ r'.configs[n]? = some q ∧
      (∀ q', (l.map (·.2)).getLast? = some q' → r'.configs[m]? = some q') ∧
      NodeReach r' n m ∧ (b = true → NodeReach r' m n) ∧
      (∀ (k : Nat) (c : Q), r.configs[k]? = some c → r'.configs[k]? = some c) ∧ (∀ e ∈ r.edges, e ∈ r'.edges) := by
  have h := run_inv E os Inv.empty hr
  obtain ⟨r1, n, h1, h2, h3, h4, h5, _⟩ := h.addNode E q
  obtain ⟨r2, m, k1, k2, k3, k4, k5, k6, k7, k8, k9, k10⟩ := insertLoop_spec E b l n r1 h2 (List.getElem?_eq_some_iff.1 h3).1
  refine ⟨r2, n, m, by simp [insertPathVector, h1, k1], k3.get h3, k9, k7, k8, ?_, ?_⟩
  · intro k c hc; exact (h4.trans k3).get hc
  · intro e he; exact (h4.trans k3).edges.subset he

/-! ## C15: nearestNode -/

/-- C15 (`nearestNode` on the whole roadmap): a node at the reported distance such that no node is strictly closer; the distance
is measured from the node to `q`, or from `q` to the node if `reverse`. -/
theorem C15_nearestNode (E : Env Q P K) (os : List (Op Q P)) (r : Roadmap Q P) (hr : run E empty os = .ok r)
    (q : Q) (rev : Bool) (hne : r.configs ≠ []) :
    ∃ m n c, nearestNode E r q rev = some (m, n) ∧ r.configs[n]? = some c ∧
      m = (if rev then E.dist q c else E.dist c q) ∧
      ∀ y ∈ r.configs, m ≤ (if rev then E.dist q y else E.dist y q) := by
  have h := run_inv E os Inv.empty hr
  obtain ⟨m, n, h1, ⟨c, h2, h3⟩, h4⟩ := nearestNode_spec E h.wf q rev hne
  exact ⟨m, n, c, h1, h2, h3, h4⟩

/-- C15 (`search` in one component): the first closest node of the component. -/
theorem C15_search (E : Env Q P K) (os : List (Op Q P)) (r : Roadmap Q P) (hr : run E empty os = .ok r)
    (q : Q) (rev : Bool) (c : Nat) (hc : c ∈ r.live) :
    ∃ m pre n post x, search E r q c rev = some (m, n) ∧ (r.comp c).nodes = pre ++ n :: post ∧
      r.configs[n]? = some x ∧ m = (if rev then E.dist q x else E.dist x q) ∧
      (∀ k ∈ pre, ∀ y, r.configs[k]? = some y → m < (if rev then E.dist q y else E.dist y q)) ∧
      (∀ k ∈ post, ∀ y, r.configs[k]? = some y → m ≤ (if rev then E.dist q y else E.dist y q)) := by
  have h := run_inv E os Inv.empty hr
  obtain ⟨m, n, h1, pre, post, x, h2, h3, h4, h5, h6⟩ := search_spec E h.wf q hc rev
  exact ⟨m, pre, n, post, x, h1, h2, h3, h4, h5, h6⟩

/-! ## Concrete cases -/

/-- Configurations on a line, paths are unit values. -/
def lineEnv : Env Nat Unit Nat := ⟨fun a b => (a - b) + (b - a), id, fun _ => false⟩

/-- What is observed at the end of a history. -/
def observe {α : Type} (f : Roadmap Nat Unit → α) (os : List (Op Nat Unit)) : Option α :=
  match run lineEnv empty os with
  | .error _ => none
  | .ok r => some (f r)

def answer (r : Roadmap Nat Unit) : Option Bool :=
  match pathExists r with
  | .error _ => none
  | .ok (b, _) => some b

/-- A history with a cycle of one-way edges that merges three components, and a component linked one way. -/
def demo : List (Op Nat Unit) :=
  [.initNode 0, .addNode 5, .addNode 9, .addGoalNode 20, .addEdge 0 1 (), .addEdge 1 2 (), .addEdge 2 0 (), .addEdge 2 3 ()]

example : ∀ o ∈ demo, o.directed = true := by decide
example : observe (fun r => (r.configs, r.cc 0, r.cc 1, r.cc 2, r.cc 3)) demo = some ([0, 5, 9, 20], 2, 2, 2, 3) := by
  decide +kernel
example : observe (fun r => (r.live, (r.comp 2).nodes, (r.comp 2).tos, answer r)) demo
    = some ([2, 3], [2, 0, 1], [3], some true) := by decide +kernel
example : observe answer [.initNode 0, .addGoalNode 4, .addEdge 1 0 ()] = some (some false) := by decide +kernel
example : Separates lineEnv := by
  intro x q h; simp only [lineEnv] at h; omega
/-- two-way history -/
example : ∀ o ∈ ([.initNode 0, .addGoalNode 8, .addEdges 0 1 ()] : List (Op Nat Unit)), o.twoWay = true := by decide
example : observe (fun r => (r.cc 0, r.cc 1, r.live, answer r))
    [.initNode 0, .addGoalNode 8, .addEdges 0 1 ()] = some (1, 1, [1], some true) := by decide +kernel
/-- merging a roadmap with one directed edge into another one: the reverse edge is added as well -/
example : (match run lineEnv empty [.addNode 0, .addNode 7, .addEdge 0 1 ()] with
    | .error _ => none
    | .ok other => observe (fun r => (r.configs, r.edges.map (fun e => (e.src, e.dst)))) [.addNode 7, .merge other])
    = some ([7, 0], [(1, 0), (0, 1)]) := by decide +kernel

theorem observe_some {α : Type} {f : Roadmap Nat Unit → α} {os : List (Op Nat Unit)} {x : α} (h : observe f os = some x) :
    ∃ r, run lineEnv empty os = .ok r ∧ f r = x := by
  unfold observe at h
  split at h
  · simp at h
  · rename_i r hr; exact ⟨r, hr, by simpa using h⟩

/-- C06: the soundness half fails.  A goal is attached by `addNodeAndEdge(q, init)` (edge from the new node to the init node only);
`pathExists()` then answers true though the only edge goes from the goal to the init node. -/
theorem C06_pathExists_oneWay_counterexample :
    ∃ os : List (Op Nat Unit), ∃ r, run lineEnv empty os = .ok r ∧ answer r = some true ∧
      r.init = some 0 ∧ r.goals = [1] ∧ ¬ NodeReach r 0 1 := by
  have h : observe (fun r => (answer r, r.init, r.goals, r.edges.map (fun e => (e.src, e.dst))))
      [.initNode 0, .addNodeAndEdgeFrom 4 0 (), .addGoalNode 4] = some (some true, some 0, [1], [(1, 0)]) := by decide +kernel
  obtain ⟨r, h1, h2⟩ := observe_some h
  simp only [Prod.mk.injEq] at h2
  obtain ⟨h2, h3, h4, h5⟩ := h2
  refine ⟨_, r, h1, h2, h3, h4, ?_⟩
  intro hr
  rcases ReflTransGen.cases_head hr with hr | ⟨c, ⟨e, he, k1, k2⟩, _⟩
  · simp at hr
  · have : (e.src, e.dst) ∈ r.edges.map (fun e => (e.src, e.dst)) := List.mem_map.2 ⟨e, he, rfl⟩
    rw [h5] at this
    simp at this
    omega

/-- C07: `addNodeAndEdges` may create a second node with the configuration of an existing node of another component. -/
theorem C07_addNodeAndEdges_duplicate_counterexample :
    ∃ os : List (Op Nat Unit), ∃ r, run lineEnv empty os = .ok r ∧ ¬ r.configs.Nodup := by
  have h : observe (fun r => r.configs) [.addNode 0, .addNode 4, .addNodeAndEdges 0 4 ()] = some [0, 4, 4] := by decide +kernel
  obtain ⟨r, h1, h2⟩ := observe_some h
  exact ⟨_, r, h1, by rw [h2]; decide⟩

/-- C60: inserting a path vector from the init configuration to the goal configuration does not connect the goal node: a duplicate of
the goal configuration is created and `pathExists()` stays false. -/
theorem C60_insertPathVector_counterexample :
    ∃ r, run lineEnv empty [.initNode 0, .addGoalNode 4, .insertPathVector 0 [((), 4)] true] = .ok r ∧
      answer r = some false ∧ r.configs = [0, 4, 4] := by
  have h : observe (fun r => (answer r, r.configs)) [.initNode 0, .addGoalNode 4, .insertPathVector 0 [((), 4)] true]
      = some (some false, [0, 4, 4]) := by decide +kernel
  obtain ⟨r, h1, h2⟩ := observe_some h
  simp only [Prod.mk.injEq] at h2
  exact ⟨r, h1, h2⟩

end Verif.Roadmap
