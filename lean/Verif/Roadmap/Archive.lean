import Verif.Roadmap.Props
import Mathlib.Data.List.Sort
set_option linter.unusedSectionVars false

/-!
# Saving and loading a roadmap (C113)

`Roadmap::serialize` and the `serialize` methods of the objects of a roadmap (src/serialization.cc, src/nearest-neighbor/serialization.cc).
Simplifications: the archive is a table of the objects reached, as written by Boost with tracking of the pointers (an object is written once); the distance is not changed; the
configurations and paths are read as they were written.  While reading, the components are created in an order that depends on the pointers met: their creation ranks
(`current_id`, which is not in the archive) are an arbitrary renaming to new ranks.
-/
namespace Verif.Roadmap
open Relation
variable {Q P K : Type}

/-- Fields of a node in the archive: `Node::serialize` (src/serialization.cc:55-64). -/
structure NodeRec (Q P : Type) where
  configuration : Q
  outEdges : List (Edge P)
  inEdges : List (Edge P)
  connectedComponent : Nat

/-- Fields of a component in the archive: `ConnectedComponent::serialize` (src/serialization.cc:76-84); neither `explored_` nor `current_id`. `id` is the reference of the
object inside the archive. -/
structure CompRec where
  id : Nat
  nodes : List Nat
  reachableFrom : List Nat
  reachableTo : List Nat

/-- Fields of a roadmap in the archive: `Roadmap::serialize` (src/serialization.cc:87-99). -/
structure Arch (Q P : Type) where
  connectedComponents : List CompRec
  nodes : List (NodeRec Q P)
  edges : List (Edge P)
  initNode : Option Nat
  goalNodes : List Nat

/-- Failures of the writing: `nearestNeighbor::KDTree` is not exported (src/nearest-neighbor/serialization.cc:37-50), nor are some classes of paths. -/
inductive ArchErr where
  | nearestNeighbor | path
deriving DecidableEq, Repr

/-- Writing a roadmap: src/serialization.cc:87-99; `kd`: the nearest neighbor structure is a k-d tree; `savable`: whether the path of an edge can be written. -/
def save (kd : Bool) (savable : P → Bool) (r : Roadmap Q P) : Except ArchErr (Arch Q P) :=
  if kd then .error .nearestNeighbor
  else if r.edges.all (fun e => savable e.path) then
    .ok ⟨r.live.map fun c => ⟨c, (r.comp c).nodes, (r.comp c).frms, (r.comp c).tos⟩,
         r.configs.zipIdx.map fun x => ⟨x.1, r.out x.2, r.inn x.2, r.cc x.2⟩,
         r.edges, r.init, r.goals⟩
  else .error .path

/-- Reading a roadmap: the same method; the objects are built by the default constructors (connected-component.hh:97-101), `next` being the value of `static_id` before and
`alloc` the new rank of each component.  The set of components is ordered by rank (fwd.hh:119-127). -/
def load (next : Nat) (alloc : Nat → Nat) (a : Arch Q P) : Roadmap Q P where
  configs := a.nodes.map (·.configuration)
  cc := fun n => match a.nodes[n]? with
    | some x => alloc x.connectedComponent
    | none => 0
  out := fun n => match a.nodes[n]? with
    | some x => x.outEdges
    | none => []
  inn := fun n => match a.nodes[n]? with
    | some x => x.inEdges
    | none => []
  edges := a.edges
  comp := fun c => match a.connectedComponents.find? (fun x => alloc x.id == c) with
    | some x => ⟨x.nodes, x.reachableTo.map alloc, x.reachableFrom.map alloc⟩
    | none => {}
  live := (a.connectedComponents.map fun x => alloc x.id).insertionSort (· ≤ ·)
  explored := fun _ => false
  nextCC := next + a.connectedComponents.length
  init := a.initNode
  goals := a.goalNodes

/-- The new ranks: distinct, and taken from `static_id` on. -/
structure Fresh (next : Nat) (alloc : Nat → Nat) (a : Arch Q P) : Prop where
  inj : ∀ x ∈ a.connectedComponents, ∀ y ∈ a.connectedComponents, alloc x.id = alloc y.id → x.id = y.id
  lt : ∀ x ∈ a.connectedComponents, next ≤ alloc x.id ∧ alloc x.id < next + a.connectedComponents.length

section
variable {kd : Bool} {savable : P → Bool} {r : Roadmap Q P} {a : Arch Q P} {next : Nat} {alloc : Nat → Nat}

theorem save_eq (h : save kd savable r = .ok a) :
    a = ⟨r.live.map fun c => ⟨c, (r.comp c).nodes, (r.comp c).frms, (r.comp c).tos⟩, r.configs.zipIdx.map fun x => ⟨x.1, r.out x.2, r.inn x.2, r.cc x.2⟩, r.edges, r.init, r.goals⟩ := by
  unfold save at h
  cases kd
  · by_cases hs : r.edges.all (fun e => savable e.path) = true
    · simp only [Bool.false_eq_true, if_false, hs, if_true] at h
      injection h with h
      exact h.symm
    · simp only [Bool.false_eq_true, if_false, hs] at h
      cases h
  · cases h

theorem load_configs (h : save kd savable r = .ok a) : (load next alloc a).configs = r.configs := by
  rw [save_eq h]
  simp only [load, List.map_map]
  have : ((fun x : NodeRec Q P => x.configuration) ∘ fun x : Q × Nat => (⟨x.1, r.out x.2, r.inn x.2, r.cc x.2⟩ : NodeRec Q P)) = Prod.fst := rfl
  rw [this, List.zipIdx_map_fst]

theorem nodes_get (h : save kd savable r = .ok a) (n : Nat) (hn : n < r.configs.length) :
    ∃ q, a.nodes[n]? = some ⟨q, r.out n, r.inn n, r.cc n⟩ := by
  rw [save_eq h]
  refine ⟨r.configs[n], ?_⟩
  simp [List.getElem?_map, List.getElem?_zipIdx, List.getElem?_eq_getElem hn]

theorem nodes_none (h : save kd savable r = .ok a) (n : Nat) (hn : r.configs.length ≤ n) : a.nodes[n]? = none := by
  rw [save_eq h]
  simp [List.getElem?_map, List.getElem?_zipIdx, List.getElem?_eq_none hn]

theorem load_cc (h : save kd savable r = .ok a) (n : Nat) (hn : n < r.configs.length) : (load next alloc a).cc n = alloc (r.cc n) := by
  obtain ⟨q, hq⟩ := nodes_get h n hn
  simp only [load, hq]

theorem load_out (h : save kd savable r = .ok a) (n : Nat) : (load next alloc a).out n = if n < r.configs.length then r.out n else [] := by
  by_cases hn : n < r.configs.length
  · obtain ⟨q, hq⟩ := nodes_get h n hn
    simp only [load, hq, if_pos hn]
  · simp only [load, nodes_none h n (not_lt.1 hn), if_neg hn]

theorem load_inn (h : save kd savable r = .ok a) (n : Nat) : (load next alloc a).inn n = if n < r.configs.length then r.inn n else [] := by
  by_cases hn : n < r.configs.length
  · obtain ⟨q, hq⟩ := nodes_get h n hn
    simp only [load, hq, if_pos hn]
  · simp only [load, nodes_none h n (not_lt.1 hn), if_neg hn]

theorem fresh_inj (h : save kd savable r = .ok a) (hf : Fresh next alloc a) {c d : Nat} (hc : c ∈ r.live) (hd : d ∈ r.live) (he : alloc c = alloc d) : c = d := by
  rw [save_eq h] at hf
  exact hf.inj _ (List.mem_map.2 ⟨c, hc, rfl⟩) _ (List.mem_map.2 ⟨d, hd, rfl⟩) he

theorem load_comp (h : save kd savable r = .ok a) (hf : Fresh next alloc a) (c : Nat) (hc : c ∈ r.live) :
    (load next alloc a).comp (alloc c) = ⟨(r.comp c).nodes, (r.comp c).tos.map alloc, (r.comp c).frms.map alloc⟩ := by
  have key : a.connectedComponents.find? (fun x => alloc x.id == alloc c) = some ⟨c, (r.comp c).nodes, (r.comp c).frms, (r.comp c).tos⟩ := by
    have hf' : ∀ y, y ∈ r.live → alloc y = alloc c → y = c := fun y hy e => fresh_inj h hf hy hc e
    rw [save_eq h]
    simp only
    have : ∀ l : List Nat, (∀ x ∈ l, x ∈ r.live) → c ∈ l →
        (l.map fun c => (⟨c, (r.comp c).nodes, (r.comp c).frms, (r.comp c).tos⟩ : CompRec)).find? (fun x => alloc x.id == alloc c) =
          some ⟨c, (r.comp c).nodes, (r.comp c).frms, (r.comp c).tos⟩ := by
      intro l
      induction l with
      | nil => intro _ hcl; simp at hcl
      | cons y l ih =>
        intro hl hcl
        by_cases hy : alloc y = alloc c
        · have : y = c := hf' y (hl y (by simp)) hy
          subst this
          rw [List.map_cons, List.find?_cons_of_pos (by simp)]
        · rw [List.map_cons, List.find?_cons_of_neg (by simpa using hy)]
          apply ih (fun x hx => hl x (List.mem_cons_of_mem _ hx))
          rcases List.mem_cons.1 hcl with rfl | h2
          · exact absurd rfl hy
          · exact h2
    exact this r.live (fun x hx => hx) hc
  simp only [load, key]

theorem load_live (h : save kd savable r = .ok a) (x : Nat) : x ∈ (load next alloc a).live ↔ ∃ c ∈ r.live, alloc c = x := by
  rw [save_eq h]
  simp [load, List.mem_insertionSort]

/-- Steps between loaded components are the steps between the components saved. -/
theorem load_cstep (h : save kd savable r = .ok a) (hf : Fresh next alloc a) (hw : Wf r) {c : Nat} (hc : c ∈ r.live) (x : Nat) :
    CStep (load next alloc a) (alloc c) x ↔ ∃ d ∈ r.live, alloc d = x ∧ CStep r c d := by
  unfold CStep StepRel
  simp only
  rw [load_comp h hf c hc]
  simp only [List.mem_map]
  constructor
  · rintro ⟨d, h1, h2⟩; exact ⟨d, (hw.to_live c hc d h1).1, h2, h1⟩
  · rintro ⟨d, _, h2, h1⟩; exact ⟨d, h1, h2⟩

theorem load_creach (h : save kd savable r = .ok a) (hf : Fresh next alloc a) (hw : Wf r) {c : Nat} (hc : c ∈ r.live) (x : Nat) :
    CReach (load next alloc a) (alloc c) x ↔ ∃ d ∈ r.live, alloc d = x ∧ CReach r c d := by
  constructor
  · intro hr
    induction hr with
    | refl => exact ⟨c, hc, rfl, ReflTransGen.refl⟩
    | tail _ hs ih =>
      obtain ⟨d, hd, rfl, hcd⟩ := ih
      obtain ⟨e, he, e1, e2⟩ := (load_cstep h hf hw hd _).1 hs
      exact ⟨e, he, e1, hcd.tail e2⟩
  · rintro ⟨d, hd, rfl, hr⟩
    have : ∀ d, CReach r c d → d ∈ r.live ∧ CReach (load next alloc a) (alloc c) (alloc d) := by
      intro d hr
      induction hr with
      | refl => exact ⟨hc, ReflTransGen.refl⟩
      | @tail y z _ hs ih =>
        have hz : z ∈ r.live := (hw.to_live y ih.1 z hs).1
        exact ⟨hz, ih.2.tail ((load_cstep h hf hw ih.1 _).2 ⟨z, hz, rfl, hs⟩)⟩
    exact (this d hr).2

/-- C113: a roadmap read from an archive satisfies the invariant of the roadmap that was written, so that all that is proved of roadmaps holds for what is done with it. -/
theorem C113_invariant (h : save kd savable r = .ok a) (hf : Fresh next alloc a) {V : List (Nat × Nat)} (hi : Inv V r) : Inv V (load next alloc a) := by
  have hw := hi.wf
  have hcfg : (load next alloc a).configs = r.configs := load_configs h
  have hE : (load next alloc a).edges = r.edges := by rw [save_eq h]; rfl
  have hlink : Link (load next alloc a) V = Link r V := by
    unfold Link HasEdge
    rw [hE]
  have creach_iff' : ∀ x y, x < r.configs.length → y < r.configs.length →
      (CReach (load next alloc a) ((load next alloc a).cc x) ((load next alloc a).cc y) ↔ CReach r (r.cc x) (r.cc y)) := by
    intro x y hx hy
    rw [load_cc h x hx, load_cc h y hy, load_creach h hf hw (hw.cc_live x hx)]
    constructor
    · rintro ⟨d, hd, e, hr⟩
      rw [fresh_inj h hf hd (hw.cc_live y hy) e] at hr
      exact hr
    · intro hr
      exact ⟨_, hw.cc_live y hy, rfl, hr⟩
  refine ⟨⟨?_, ?_, ?_, ?_, ?_, ?_, ?_, ?_, ?_, fun _ => rfl⟩, ⟨?_, ?_, ?_, ?_, ?_, ?_, ?_⟩, ?_, ?_, ?_⟩
  · intro n hn
    rw [hcfg] at hn
    rw [load_cc h n hn, load_live h]
    exact ⟨_, hw.cc_live n hn, rfl⟩
  · intro n hn
    rw [hcfg] at hn
    rw [load_cc h n hn, load_comp h hf _ (hw.cc_live n hn)]
    exact hw.mem n hn
  · intro c hc n hn
    obtain ⟨d, hd, rfl⟩ := (load_live h c).1 hc
    rw [load_comp h hf d hd] at hn
    obtain ⟨h1, h2⟩ := hw.owned d hd n hn
    rw [hcfg, load_cc h n h1, h2]
    exact ⟨h1, rfl⟩
  · intro c hc
    obtain ⟨d, hd, rfl⟩ := (load_live h c).1 hc
    rw [load_comp h hf d hd]
    exact hw.nodup d hd
  · intro c hc
    obtain ⟨d, hd, rfl⟩ := (load_live h c).1 hc
    rw [load_comp h hf d hd]
    exact hw.nonempty d hd
  · have hnd : (load next alloc a).live.Nodup := by
      have hp : (load next alloc a).live.Perm (a.connectedComponents.map fun x => alloc x.id) := List.perm_insertionSort _ _
      rw [hp.nodup_iff]
      have : (a.connectedComponents.map fun x => alloc x.id) = r.live.map alloc := by
        rw [save_eq h]
        simp only [List.map_map]
        rfl
      rw [this]
      exact List.Nodup.map_on (fun x hx y hy e => fresh_inj h hf hx hy e) hw.live_nodup
    have hs : (load next alloc a).live.Pairwise (· ≤ ·) := List.pairwise_insertionSort _ _
    exact (hs.and hnd).imp fun hab => lt_of_le_of_ne hab.1 hab.2
  · intro c hc
    have : c ∈ a.connectedComponents.map fun x => alloc x.id := (List.perm_insertionSort _ _).mem_iff.1 hc
    obtain ⟨x, hx, rfl⟩ := List.mem_map.1 this
    exact (hf.lt x hx).2
  · intro c hc d hd
    obtain ⟨c', hc', rfl⟩ := (load_live h c).1 hc
    rw [load_comp h hf c' hc'] at hd
    obtain ⟨d', hd', rfl⟩ := List.mem_map.1 hd
    obtain ⟨k1, k2, k3⟩ := hw.to_live c' hc' d' hd'
    refine ⟨(load_live h _).2 ⟨d', k1, rfl⟩, fun e => k2 (fresh_inj h hf k1 hc' e), ?_⟩
    rw [load_comp h hf d' k1]
    exact List.mem_map.2 ⟨c', k3, rfl⟩
  · intro c hc d hd
    obtain ⟨c', hc', rfl⟩ := (load_live h c).1 hc
    rw [load_comp h hf c' hc'] at hd
    obtain ⟨d', hd', rfl⟩ := List.mem_map.1 hd
    obtain ⟨k1, k2, k3⟩ := hw.frm_live c' hc' d' hd'
    refine ⟨(load_live h _).2 ⟨d', k1, rfl⟩, fun e => k2 (fresh_inj h hf k1 hc' e), ?_⟩
    rw [load_comp h hf d' k1]
    exact List.mem_map.2 ⟨c', k3, rfl⟩
  · rw [hE, hcfg]; exact hi.adj.ends
  · intro n e he
    rw [load_out h] at he
    rw [hE]
    by_cases hn : n < r.configs.length
    · rw [if_pos hn] at he; exact hi.adj.outOk n e he
    · rw [if_neg hn] at he; simp at he
  · intro n e he
    rw [load_inn h] at he
    rw [hE]
    by_cases hn : n < r.configs.length
    · rw [if_pos hn] at he; exact hi.adj.innOk n e he
    · rw [if_neg hn] at he; simp at he
  · intro n
    rw [load_out h]
    by_cases hn : n < r.configs.length
    · rw [if_pos hn]; exact hi.adj.outDistinct n
    · rw [if_neg hn]; exact List.Pairwise.nil
  · intro n
    rw [load_inn h]
    by_cases hn : n < r.configs.length
    · rw [if_pos hn]; exact hi.adj.innDistinct n
    · rw [if_neg hn]; exact List.Pairwise.nil
  · intro e he
    rw [hE] at he
    obtain ⟨k1, k2⟩ := hi.adj.ends e he
    rw [load_out h, load_inn h, if_pos k1, if_pos k2]
    exact hi.adj.listed e he
  · rw [hE]; exact hi.adj.ids
  · rw [hlink]
    refine ⟨?_, ?_, ?_, ?_⟩
    · intro x y hx hy e
      rw [hcfg] at hx hy
      rw [load_cc h x hx, load_cc h y hy] at e
      exact hi.sem.same x y hx hy (fresh_inj h hf (hw.cc_live x hx) (hw.cc_live y hy) e)
    · intro x y hx hy hs
      rw [hcfg] at hx hy
      rw [load_cc h x hx, load_cc h y hy, load_cstep h hf hw (hw.cc_live x hx)] at hs
      obtain ⟨d, hd, e, hs⟩ := hs
      rw [fresh_inj h hf hd (hw.cc_live y hy) e] at hs
      exact hi.sem.sound x y hx hy hs
    · intro x y hxy
      obtain ⟨hx, hy, hr⟩ := hi.sem.complete x y hxy
      rw [hcfg]
      exact ⟨hx, hy, (creach_iff' x y hx hy).2 hr⟩
    · intro c hc d h1 h2
      obtain ⟨c', hc', rfl⟩ := (load_live h c).1 hc
      obtain ⟨d', hd', rfl, h1'⟩ := (load_creach h hf hw hc' _).1 h1
      obtain ⟨c'', hc'', e, h2'⟩ := (load_creach h hf hw hd' _).1 h2
      rw [fresh_inj h hf hc'' hc' e] at h2'
      rw [hi.sem.acyclic c' hc' d' h1' h2']
  · intro i hi'
    rw [hcfg]
    apply hi.init i
    rw [save_eq h] at hi'
    exact hi'
  · intro g hg
    rw [hcfg]
    apply hi.goals g
    rw [save_eq h] at hg
    exact hg

variable [DecidableEq Q] [LinearOrder K]

/-- What can be observed of two roadmaps with the same nodes: nodes, edges (of each node), init and goal nodes, the partition in components, reachability between components, the answer of
`pathExists` and the distance to the nearest node. -/
structure SameObs (E : Env Q P K) (r r' : Roadmap Q P) : Prop where
  configs : r'.configs = r.configs
  edges : r'.edges = r.edges
  init : r'.init = r.init
  goals : r'.goals = r.goals
  out : ∀ n < r.configs.length, r'.out n = r.out n
  inn : ∀ n < r.configs.length, r'.inn n = r.inn n
  comps : ∀ x y, x < r.configs.length → y < r.configs.length → (r'.cc x = r'.cc y ↔ r.cc x = r.cc y)
  members : ∀ n < r.configs.length, (r'.comp (r'.cc n)).nodes = (r.comp (r.cc n)).nodes
  count : r'.live.length = r.live.length
  reach : ∀ x y, x < r.configs.length → y < r.configs.length → (canReach r' (r'.cc x) (r'.cc y)).map (·.1) = (canReach r (r.cc x) (r.cc y)).map (·.1)
  exist : (pathExists r').map (·.1) = (pathExists r).map (·.1)
  nearest : ∀ q rev, (nearestNode E r' q rev).map (·.1) = (nearestNode E r q rev).map (·.1)

/-- C113: whatever the history of calls on a roadmap, the roadmap read from what was written cannot be told from it by its methods, up to the choice between nodes at the same distance. -/
theorem C113_roundtrip (E : Env Q P K) (os : List (Op Q P)) (hr : run E empty os = .ok r) (h : save kd savable r = .ok a) (hf : Fresh next alloc a) :
    SameObs E r (load next alloc a) := by
  have hi := run_inv E os Inv.empty hr
  have hi' := C113_invariant h hf hi
  have hw := hi.wf
  have hcfg : (load next alloc a).configs = r.configs := load_configs h
  have hinit : (load next alloc a).init = r.init := by rw [save_eq h]; rfl
  have hgoals : (load next alloc a).goals = r.goals := by rw [save_eq h]; rfl
  have creach_iff' : ∀ x y, x < r.configs.length → y < r.configs.length →
      (CReach (load next alloc a) ((load next alloc a).cc x) ((load next alloc a).cc y) ↔ CReach r (r.cc x) (r.cc y)) := by
    intro x y hx hy
    rw [load_cc h x hx, load_cc h y hy, load_creach h hf hw (hw.cc_live x hx)]
    constructor
    · rintro ⟨d, hd, e, hr⟩
      rw [fresh_inj h hf hd (hw.cc_live y hy) e] at hr
      exact hr
    · intro hr
      exact ⟨_, hw.cc_live y hy, rfl, hr⟩
  refine ⟨hcfg, by rw [save_eq h]; rfl, hinit, hgoals, ?_, ?_, ?_, ?_, ?_, ?_, ?_, ?_⟩
  · intro n hn; rw [load_out h, if_pos hn]
  · intro n hn; rw [load_inn h, if_pos hn]
  · intro x y hx hy
    rw [load_cc h x hx, load_cc h y hy]
    exact ⟨fun e => fresh_inj h hf (hw.cc_live x hx) (hw.cc_live y hy) e, fun e => by rw [e]⟩
  · intro n hn
    rw [load_cc h n hn, load_comp h hf _ (hw.cc_live n hn)]
  · have hp : (load next alloc a).live.Perm (a.connectedComponents.map fun x => alloc x.id) := List.perm_insertionSort _ _
    rw [hp.length_eq, save_eq h]
    simp
  · intro x y hx hy
    obtain ⟨b, e1, e2⟩ := canReach_spec hw (d := r.cc y) (hw.cc_live x hx)
    obtain ⟨b', e1', e2'⟩ := canReach_spec hi'.wf (d := (load next alloc a).cc y) (hi'.wf.cc_live x (by rw [hcfg]; exact hx))
    rw [e1, e1']
    have : b' = true ↔ b = true := by rw [e2', e2, creach_iff' x y hx hy]
    simp only [Option.map_some, Option.some.injEq]
    cases b <;> cases b' <;> simp_all
  · unfold pathExists
    rw [hinit]
    cases hii : r.init with
    | none => rfl
    | some i =>
      have hil := hi.init i hii
      obtain ⟨b, e1, e2⟩ := pathExistsLoop_spec hw (hw.cc_live i hil) r.goals
      obtain ⟨b', e1', e2'⟩ := pathExistsLoop_spec hi'.wf (hi'.wf.cc_live i (by rw [hcfg]; exact hil)) r.goals
      simp only [hgoals]
      rw [e1, e1']
      have : b' = true ↔ b = true := by
        rw [e2', e2]
        constructor
        · rintro ⟨g, hg, hh⟩; exact ⟨g, hg, (creach_iff' i g hil (hi.goals g hg)).1 hh⟩
        · rintro ⟨g, hg, hh⟩; exact ⟨g, hg, (creach_iff' i g hil (hi.goals g hg)).2 hh⟩
      show Except.ok b' = Except.ok b
      cases b <;> cases b' <;> simp_all
  · intro q rev
    by_cases hne : r.configs = []
    · have hl : r.live = [] := by
        rw [List.eq_nil_iff_forall_not_mem]
        intro c hc
        obtain ⟨n, hn, _⟩ := hw.exists_node hc
        rw [hne] at hn
        simp at hn
      have hl' : (load next alloc a).live = [] := by
        rw [List.eq_nil_iff_forall_not_mem]
        intro c hc
        obtain ⟨d, hd, _⟩ := (load_live h c).1 hc
        rw [hl] at hd
        simp at hd
      unfold nearestNode
      rw [hl, hl']
      rfl
    · obtain ⟨m, n, h1, ⟨c, h2, h3⟩, h4⟩ := nearestNode_spec E hw q rev hne
      obtain ⟨m', n', h1', ⟨c', h2', h3'⟩, h4'⟩ := nearestNode_spec E hi'.wf q rev (by rw [hcfg]; exact hne)
      rw [h1, h1']
      simp only [Option.map_some, Option.some.injEq]
      rw [hcfg] at h2' h4'
      apply le_antisymm
      · rw [h3]; exact h4' c (List.mem_of_getElem? h2)
      · rw [h3']; exact h4 c' (List.mem_of_getElem? h2')

/-- C113: calls made after the roadmap was read keep the invariant. -/
theorem C113_continue (E : Env Q P K) (os os' : List (Op Q P)) (hr : run E empty os = .ok r) (h : save kd savable r = .ok a) (hf : Fresh next alloc a) (r' : Roadmap Q P)
    (hr' : run E (load next alloc a) os' = .ok r') : Inv (runV E (load next alloc a) (runV E empty [] os) os') r' :=
  run_inv E os' (C113_invariant h hf (run_inv E os Inv.empty hr)) hr'

/-- C113: a roadmap is written unless its nearest neighbor structure is a k-d tree or one of its paths cannot be written. -/
theorem C113_written (kd : Bool) (savable : P → Bool) (r : Roadmap Q P) :
    (∃ a, save kd savable r = .ok a) ↔ kd = false ∧ ∀ e ∈ r.edges, savable e.path = true := by
  unfold save
  cases kd
  · by_cases hs : r.edges.all (fun e => savable e.path) = true
    · rw [if_neg (by simp), if_pos hs]
      exact ⟨fun _ => ⟨rfl, by simpa using hs⟩, fun _ => ⟨_, rfl⟩⟩
    · rw [if_neg (by simp), if_neg hs]
      constructor
      · rintro ⟨_, h⟩; cases h
      · rintro ⟨_, h⟩; exact absurd (by simpa using h) hs
  · constructor
    · rintro ⟨_, h⟩; cases h
    · rintro ⟨h, _⟩; cases h
end

/-- Hypotheses of `C113_roundtrip`: three nodes in two components, read after seven components were created, in the other order. -/
example : ∃ (r : Roadmap Nat Unit) (a : Arch Nat Unit), run lineEnv empty [.addNode 0, .addNode 5, .addNode 9, .addEdges 0 1 ()] = .ok r ∧ save false (fun _ => true) r = .ok a ∧
    a.connectedComponents.length = 2 ∧ Fresh 7 (fun c => if c = 2 then 7 else 8) a := by
  refine ⟨_, _, rfl, rfl, rfl, ?_, ?_⟩
  · decide +kernel
  · decide +kernel

end Verif.Roadmap
