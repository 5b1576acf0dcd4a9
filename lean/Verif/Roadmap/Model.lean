/-
Model of the roadmap data structure:
  src/roadmap.cc, src/connected-component.cc, src/node.cc, include/hpp/core/{roadmap,edge,node,connected-component}.hh
and of the linear nearest neighbour search used by it (src/nearest-neighbor/basic.cc).

General simplifications:
* node, edge and component objects are identified by natural numbers (creation rank);
* `double` distances are elements of a linear order `K` without NaN/infinity; the initial value
  `infinity` of minimum searches is `none`;
* `std::set<ConnectedComponent*>` is a list used through membership, insertion and removal; the iteration order of
  the C++ set is by address, here it is insertion order (no property below depends on it);
* derived classes overriding push_node/impl_addEdge/createNode are not modelled.
-/
namespace Verif.Roadmap

/-- External functions used by the roadmap: the `Distance` object, `Path::reverse`, `Path::length() == 0`. -/
structure Env (Q P K : Type) where
  dist : Q → Q → K
  rev : P → P
  zeroLength : P → Bool

/-- `Edge`: include/hpp/core/edge.hh:46-63.  `id` is the identity of the object (rank of creation). -/
structure Edge (P : Type) where
  id : Nat
  src : Nat
  dst : Nat
  path : P

/-- `ConnectedComponent` data: include/hpp/core/connected-component.hh:107-113
(`nodes_`, `reachableTo_`, `reachableFrom_`); the flag `explored_` is kept apart in `Roadmap.explored`. -/
structure Comp where
  nodes : List Nat := []
  tos : List Nat := []
  frms : List Nat := []

/-- `Roadmap`: include/hpp/core/roadmap.hh:255-262, with the heap of nodes and components.
* `configs[n]` is `configuration_` of node `n` (node.hh), `nodes_` is `0, …, configs.length-1`;
* `cc n` is `connectedComponent_` of node `n`, `out n`/`inn n` are `outEdges_`/`inEdges_`;
* `edges` is `edges_`; `live` is the set `connectedComponents_`, ordered by creation rank as `SharedComparator`
  (fwd.hh:119-127) does;
* `comp c` is the memory of component `c`, `explored c` its mutable mark;
* `nextCC` is `ConnectedComponent::static_id`. -/
structure Roadmap (Q P : Type) where
  configs : List Q
  cc : Nat → Nat
  out : Nat → List (Edge P)
  inn : Nat → List (Edge P)
  edges : List (Edge P)
  comp : Nat → Comp
  live : List Nat
  explored : Nat → Bool
  nextCC : Nat
  init : Option Nat
  goals : List Nat

/-- Abnormal outcomes: invalid node argument (dangling/foreign pointer), `std::runtime_error`
thrown by `Node::add*Edge`, null pointer dereference, and running out of the fuel of a search loop (shown impossible). -/
inductive Err where
  | badNode | alreadyConnected | nullPointer | outOfFuel
  deriving DecidableEq, Repr

variable {Q P K : Type}

/-- `Roadmap::Roadmap`: src/roadmap.cc:54-61. -/
def empty : Roadmap Q P where
  configs := []
  cc := fun _ => 0
  out := fun _ => []
  inn := fun _ => []
  edges := []
  comp := fun _ => {}
  live := []
  explored := fun _ => false
  nextCC := 0
  init := none
  goals := []

/-- Assignment in a memory. -/
def set {α : Type} (f : Nat → α) (i : Nat) (v : α) : Nat → α := fun j => if j = i then v else f j

/-- `std::set::insert`. -/
def sInsert (x : Nat) (l : List Nat) : List Nat := if x ∈ l then l else l ++ [x]
/-- `std::set::erase`. -/
def sErase (x : Nat) (l : List Nat) : List Nat := l.filter (fun y => y != x)
/-- `std::set_union`. -/
def sUnion (a b : List Nat) : List Nat := a ++ b.filter (fun y => !a.contains y)

/-! ### Nearest neighbour search -/

/-- Loop of `Basic::search`: src/nearest-neighbor/basic.cc:59-70.  The accumulator is
`(distance, result)`, `none` for `(infinity, NULL)`.  A node outside the memory is skipped (does not happen). -/
def searchLoop [LT K] [DecidableRel (α := K) (· < ·)] (d : Q → K) (configs : List Q) :
    List Nat → Option (K × Nat) → Option (K × Nat)
  | [], acc => acc
  | n :: ns, acc =>
    match configs[n]? with
    | none => searchLoop d configs ns acc
    | some c =>
      match acc with
      | none => searchLoop d configs ns (some (d c, n))
      | some (m, r) =>
        if d c < m then searchLoop d configs ns (some (d c, n)) else searchLoop d configs ns (some (m, r))

/-- `Basic::search(configuration, connectedComponent, distance, reverse)`:
src/nearest-neighbor/basic.cc:52-73. -/
def search [LT K] [DecidableRel (α := K) (· < ·)] (E : Env Q P K) (r : Roadmap Q P) (q : Q) (c : Nat)
    (reverse : Bool) : Option (K × Nat) :=
  searchLoop (fun x => if reverse then E.dist q x else E.dist x q) r.configs (r.comp c).nodes none

/-- Loop of `Roadmap::nearestNode`: src/roadmap.cc:213-223. -/
def nearestLoop [LT K] [DecidableRel (α := K) (· < ·)] (E : Env Q P K) (r : Roadmap Q P) (q : Q)
    (reverse : Bool) : List Nat → Option (K × Nat) → Option (K × Nat)
  | [], acc => acc
  | c :: cs, acc =>
    match search E r q c reverse, acc with
    | none, acc => nearestLoop E r q reverse cs acc
    | some x, none => nearestLoop E r q reverse cs (some x)
    | some (d, n), some (m, b) =>
      if d < m then nearestLoop E r q reverse cs (some (d, n)) else nearestLoop E r q reverse cs (some (m, b))

/-- `Roadmap::nearestNode(configuration, minDistance, reverse)`: src/roadmap.cc:209-225. -/
def nearestNode [LT K] [DecidableRel (α := K) (· < ·)] (E : Env Q P K) (r : Roadmap Q P) (q : Q)
    (reverse : Bool := false) : Option (K × Nat) :=
  nearestLoop E r q reverse r.live none

/-! ### Connected components -/

/-- `ConnectedComponent::clean`: src/connected-component.cc:37-41. -/
def clean (s : List Nat) (flags : Nat → Bool) : Nat → Bool :=
  s.foldl (fun f c => set f c false) flags

/-- State of the breadth first searches: `explored_` marks, the local set `explored`, the queue. -/
structure Bfs where
  flags : Nat → Bool
  seen : List Nat
  queue : List Nat

/-- Loop over the children: src/connected-component.cc:100-108, 130-138, 156-164. -/
def pushChildren : List Nat → Bfs → Bfs
  | [], b => b
  | c :: cs, b =>
    if b.flags c then pushChildren cs b
    else pushChildren cs ⟨set b.flags c true, b.seen ++ [c], b.queue ++ [c]⟩

/-- Loop of `canReach(cc)`: src/connected-component.cc:93-109. -/
def canReachLoop (next : Nat → List Nat) (target : Nat) : Nat → Bfs → Option (Bool × Bfs)
  | 0, _ => none
  | f + 1, b =>
    match b.queue with
    | [] => some (false, b)
    | cur :: q =>
      if cur = target then some (true, { b with queue := q })
      else canReachLoop next target f (pushChildren (next cur) { b with queue := q })

/-- `ConnectedComponent::canReach(cc)`: src/connected-component.cc:86-112.
Returns the answer and the marks after the call.  The fuel bounds the number of visited components. -/
def canReach (r : Roadmap Q P) (this cc : Nat) : Option (Bool × Roadmap Q P) :=
  match canReachLoop (fun c => (r.comp c).tos) cc (r.live.length + 2)
      ⟨set r.explored this true, [this], [this]⟩ with
  | none => none
  | some (b, s) => some (b, { r with explored := clean s.seen s.flags })

/-- The two loops of `canReach(cc, ccToThis)`: src/connected-component.cc:123-140 (forward, stopping at
`cc`) and 150-166 (backward, stopping at `this`).  The Boolean is `reachable`, i.e. whether `stop` was popped. -/
def exploreLoop (next : Nat → List Nat) (stop : Nat) : Nat → Bool → Bfs → Option (Bool × Bfs)
  | 0, _, _ => none
  | f + 1, found, b =>
    match b.queue with
    | [] => some (found, b)
    | cur :: q =>
      if cur = stop then
        exploreLoop next stop f true { b with queue := q, seen := sInsert cur b.seen }
      else exploreLoop next stop f found (pushChildren (next cur) { b with queue := q })

/-- `ConnectedComponent::canReach(cc, ccToThis)`: src/connected-component.cc:114-173.
Returns the answer, the set `ccToThis` and the roadmap with the marks after the call. -/
def canReachSet (r : Roadmap Q P) (this cc : Nat) : Option (Bool × List Nat × Roadmap Q P) :=
  match exploreLoop (fun c => (r.comp c).tos) cc (r.live.length + 2) false
      ⟨set r.explored this true, [this], [this]⟩ with
  | none => none
  | some (found, fw) =>
    let flags := clean fw.seen fw.flags
    if !found then some (false, [], { r with explored := flags })
    else
      match exploreLoop (fun c => (r.comp c).frms) this (r.live.length + 2) false
          ⟨set flags cc true, [cc], [cc]⟩ with
      | none => none
      | some (_, bw) =>
        some (true, fw.seen.filter (fun x => bw.seen.contains x),
          { r with explored := clean bw.seen bw.flags })

/-- First loop of `ConnectedComponent::merge`: src/connected-component.cc:48-51. -/
def retag (c : Nat) : List Nat → (Nat → Nat) → (Nat → Nat)
  | [], f => f
  | n :: ns, f => retag c ns (set f n c)

/-- src/connected-component.cc:56-60: in the components of a list, replace `other` by `this` in `reachableFrom_`. -/
def replaceFrm (this other : Nat) : List Nat → (Nat → Comp) → (Nat → Comp)
  | [], m => m
  | y :: ys, m =>
    replaceFrm this other ys (set m y { m y with frms := sInsert this (sErase other (m y).frms) })

/-- src/connected-component.cc:63-67: same with `reachableTo_`. -/
def replaceTo (this other : Nat) : List Nat → (Nat → Comp) → (Nat → Comp)
  | [], m => m
  | y :: ys, m =>
    replaceTo this other ys (set m y { m y with tos := sInsert this (sErase other (m y).tos) })

/-- `ConnectedComponent::merge(other)`: src/connected-component.cc:43-84. -/
def mergeComp (r : Roadmap Q P) (this other : Nat) : Roadmap Q P :=
  let cc' := retag this (r.comp other).nodes r.cc
  let m1 := set r.comp this { r.comp this with nodes := (r.comp this).nodes ++ (r.comp other).nodes }
  let m2 := replaceFrm this other (m1 other).tos m1
  let m3 := replaceTo this other (m2 other).frms m2
  let m4 := set m3 this { m3 this with
    tos := sErase this (sErase other (sUnion (m3 this).tos (m3 other).tos)) }
  let m5 := set m4 this { m4 this with
    frms := sErase this (sErase other (sUnion (m4 this).frms (m4 other).frms)) }
  { r with cc := cc', comp := m5 }

/-- `Roadmap::merge(cc1, ccs)`: src/roadmap.cc:298-311. -/
def mergeAll (cc1 : Nat) : List Nat → Roadmap Q P → Roadmap Q P
  | [], r => r
  | c :: cs, r =>
    if c ≠ cc1 then
      let r' := mergeComp r cc1 c
      mergeAll cc1 cs { r' with live := sErase c r'.live }
    else mergeAll cc1 cs r

/-- `Roadmap::connect(cc1, cc2)`: src/roadmap.cc:286-296. -/
def connect (r : Roadmap Q P) (c1 c2 : Nat) : Except Err (Roadmap Q P) :=
  match canReach r c1 c2 with
  | none => .error .outOfFuel
  | some (true, r1) => .ok r1
  | some (false, r1) =>
    match canReachSet r1 c2 c1 with
    | none => .error .outOfFuel
    | some (true, ccs, r2) => .ok (mergeAll c1 ccs r2)
    | some (false, _, r2) =>
      let m1 := set r2.comp c1 { r2.comp c1 with tos := sInsert c2 (r2.comp c1).tos }
      let m2 := set m1 c2 { m1 c2 with frms := sInsert c1 (m1 c2).frms }
      .ok { r2 with comp := m2 }

/-! ### Nodes and edges -/

/-- `Node::isOutNeighbor`: src/node.cc:96-101. -/
def isOutNeighbor (r : Roadmap Q P) (a b : Nat) : Bool := (r.out a).any (fun e => e.dst == b)
/-- `Node::isInNeighbor`: src/node.cc:103-108. -/
def isInNeighbor (r : Roadmap Q P) (a b : Nat) : Bool := (r.inn a).any (fun e => e.src == b)

/-- `Node::addOutEdge`: src/node.cc:52-66 (called on `edge->from()`). -/
def addOutEdge (r : Roadmap Q P) (e : Edge P) : Except Err (Roadmap Q P) :=
  if (r.out e.src).any (fun x => x.dst == e.dst) then .error .alreadyConnected
  else .ok { r with out := set r.out e.src (r.out e.src ++ [e]) }

/-- `Node::addInEdge`: src/node.cc:68-82 (called on `edge->to()`). -/
def addInEdge (r : Roadmap Q P) (e : Edge P) : Except Err (Roadmap Q P) :=
  if (r.inn e.dst).any (fun x => x.src == e.src) then .error .alreadyConnected
  else .ok { r with inn := set r.inn e.dst (r.inn e.dst ++ [e]) }

/-- `Roadmap::impl_addEdge`: src/roadmap.cc:313-320. -/
def implAddEdge (r : Roadmap Q P) (e : Edge P) : Except Err (Roadmap Q P) :=
  let r1 := { r with edges := r.edges ++ [e] }
  connect r1 (r1.cc e.src) (r1.cc e.dst)

/-- `Roadmap::addEdge`: src/roadmap.cc:265-272.  Its four statements after the creation of the
edge are also those of each half of `addEdges` (147-149 and 151-153, where the in-edge is added first).
Precondition (pointers to nodes of this roadmap) checked. -/
def addEdge (r : Roadmap Q P) (a b : Nat) (p : P) : Except Err (Roadmap Q P) := do
  if r.configs.length ≤ a || r.configs.length ≤ b then throw .badNode
  let e : Edge P := ⟨r.edges.length, a, b, p⟩
  let r1 ← if !isOutNeighbor r a b then addOutEdge r e else pure r
  let r2 ← if !isInNeighbor r1 b a then addInEdge r1 e else pure r1
  implAddEdge r2 e

/-- Second half of `Roadmap::addEdges`: src/roadmap.cc:150-153; `from`, `to` are the arguments of `addEdges`. -/
def addReverseEdge (r : Roadmap Q P) (a b : Nat) (p : P) : Except Err (Roadmap Q P) := do
  let e : Edge P := ⟨r.edges.length, b, a, p⟩
  let r1 ← if !isInNeighbor r a b then addInEdge r e else pure r
  let r2 ← if !isOutNeighbor r1 b a then addOutEdge r1 e else pure r1
  implAddEdge r2 e

/-- `Roadmap::addEdges`: src/roadmap.cc:144-154. -/
def addEdges (E : Env Q P K) (r : Roadmap Q P) (a b : Nat) (p : P) : Except Err (Roadmap Q P) := do
  let r1 ← addEdge r a b p
  addReverseEdge r1 a b (E.rev p)

/-- Node constructor (src/node.cc:42-44, creates a new component), `push_node` and `addConnectedComponent`
(src/roadmap.cc:112-118, 274-278). -/
def pushNewNode (r : Roadmap Q P) (q : Q) : Roadmap Q P × Nat :=
  let n := r.configs.length
  let c := r.nextCC
  ({ r with
      configs := r.configs ++ [q]
      cc := set r.cc n c
      out := set r.out n []
      inn := set r.inn n []
      comp := set r.comp c { nodes := [n], tos := [], frms := [] }
      explored := set r.explored c false
      live := r.live ++ [c]
      nextCC := r.nextCC + 1 }, n)

/-- `Roadmap::addNode(configuration)`: src/roadmap.cc:104-120. -/
def addNode [DecidableEq Q] [LT K] [DecidableRel (α := K) (· < ·)] (E : Env Q P K) (r : Roadmap Q P)
    (q : Q) : Except Err (Roadmap Q P × Nat) :=
  if r.configs.length ≠ 0 then
    match nearestNode E r q with
    | none => .error .nullPointer
    | some (_, n) => if r.configs[n]? = some q then .ok (r, n) else .ok (pushNewNode r q)
  else .ok (pushNewNode r q)

/-- Node creation in an existing component: src/roadmap.cc:133-140.  The component created by the
`Node` constructor is dropped, but consumes a rank. -/
def pushNodeIn (r : Roadmap Q P) (q : Q) (c : Nat) : Roadmap Q P × Nat :=
  let n := r.configs.length
  ({ r with
      configs := r.configs ++ [q]
      cc := set r.cc n c
      out := set r.out n []
      inn := set r.inn n []
      comp := set r.comp c { r.comp c with nodes := (r.comp c).nodes ++ [n] }
      nextCC := r.nextCC + 1 }, n)

/-- `Roadmap::addNode(configuration, connectedComponent)`: src/roadmap.cc:122-142. -/
def addNodeIn [DecidableEq Q] [LT K] [DecidableRel (α := K) (· < ·)] (E : Env Q P K) (r : Roadmap Q P)
    (q : Q) (c : Nat) : Except Err (Roadmap Q P × Nat) :=
  if r.configs.length ≠ 0 then
    match search E r q c false with
    | none => .error .nullPointer
    | some (_, n) => if r.configs[n]? = some q then .ok (r, n) else .ok (pushNodeIn r q c)
  else .ok (pushNodeIn r q c)

/-- `Roadmap::addNodeAndEdges(from, to, path)`: src/roadmap.cc:156-161. -/
def addNodeAndEdges [DecidableEq Q] [LT K] [DecidableRel (α := K) (· < ·)] (E : Env Q P K)
    (r : Roadmap Q P) (a : Nat) (q : Q) (p : P) : Except Err (Roadmap Q P × Nat) := do
  if r.configs.length ≤ a then throw .badNode
  let (r1, n) ← addNodeIn E r q (r.cc a)
  let r2 ← addEdges E r1 a n p
  return (r2, n)

/-- `Roadmap::addNodeAndEdge(from node, to configuration, path)`: src/roadmap.cc:163-168. -/
def addNodeAndEdgeTo [DecidableEq Q] [LT K] [DecidableRel (α := K) (· < ·)] (E : Env Q P K)
    (r : Roadmap Q P) (a : Nat) (q : Q) (p : P) : Except Err (Roadmap Q P × Nat) := do
  if r.configs.length ≤ a then throw .badNode
  let (r1, n) ← addNodeIn E r q (r.cc a)
  let r2 ← addEdge r1 a n p
  return (r2, n)

/-- `Roadmap::addNodeAndEdge(from configuration, to node, path)`: src/roadmap.cc:170-175. -/
def addNodeAndEdgeFrom [DecidableEq Q] [LT K] [DecidableRel (α := K) (· < ·)] (E : Env Q P K)
    (r : Roadmap Q P) (q : Q) (a : Nat) (p : P) : Except Err (Roadmap Q P × Nat) := do
  if r.configs.length ≤ a then throw .badNode
  let (r1, n) ← addNodeIn E r q (r.cc a)
  let r2 ← addEdge r1 n a p
  return (r2, n)

/-- `Roadmap::clear`: src/roadmap.cc:86-102. Component objects are destroyed (their memory is reset here);
ranks continue to grow. -/
def clear (r : Roadmap Q P) : Roadmap Q P := { (empty : Roadmap Q P) with nextCC := r.nextCC }

/-- `Roadmap::initNode(config)`: include/hpp/core/roadmap.hh:170. -/
def setInit [DecidableEq Q] [LT K] [DecidableRel (α := K) (· < ·)] (E : Env Q P K) (r : Roadmap Q P)
    (q : Q) : Except Err (Roadmap Q P × Nat) := do
  let (r1, n) ← addNode E r q
  return ({ r1 with init := some n }, n)

/-- `Roadmap::addGoalNode`: src/roadmap.cc:257-261. -/
def addGoalNode [DecidableEq Q] [LT K] [DecidableRel (α := K) (· < ·)] (E : Env Q P K) (r : Roadmap Q P)
    (q : Q) : Except Err (Roadmap Q P × Nat) := do
  let (r1, n) ← addNode E r q
  return ({ r1 with goals := r1.goals ++ [n] }, n)

/-- `Roadmap::resetGoalNodes`: include/hpp/core/roadmap.hh:168. -/
def resetGoalNodes (r : Roadmap Q P) : Roadmap Q P := { r with goals := [] }

/-- Loop of `Roadmap::pathExists`: src/roadmap.cc:324-330. -/
def pathExistsLoop (c : Nat) : List Nat → Roadmap Q P → Except Err (Bool × Roadmap Q P)
  | [], r => .ok (false, r)
  | g :: gs, r =>
    match canReach r c (r.cc g) with
    | none => .error .outOfFuel
    | some (true, r1) => .ok (true, r1)
    | some (false, r1) => pathExistsLoop c gs r1

/-- `Roadmap::pathExists`: src/roadmap.cc:322-331.  The marks used by the queries are part of the result. -/
def pathExists (r : Roadmap Q P) : Except Err (Bool × Roadmap Q P) :=
  match r.init with
  | none => .error .nullPointer
  | some i => pathExistsLoop (r.cc i) r.goals r

/-- First loop of `Roadmap::merge(other)`: src/roadmap.cc:179-182.  The map `cNode` is the list of the nodes of this
roadmap associated with the nodes of the other one, in order. -/
def mergeNodes [DecidableEq Q] [LT K] [DecidableRel (α := K) (· < ·)] (E : Env Q P K) :
    List Q → Roadmap Q P → Except Err (Roadmap Q P × List Nat)
  | [], r => .ok (r, [])
  | q :: qs, r =>
    match addNode E r q with
    | .error e => .error e
    | .ok (r1, n) =>
      match mergeNodes E qs r1 with
      | .error e => .error e
      | .ok (r2, ns) => .ok (r2, n :: ns)

/-- Second loop of `Roadmap::merge(other)`: src/roadmap.cc:183-188 (compiled without assertions). -/
def mergeEdges (E : Env Q P K) (cNode : List Nat) : List (Edge P) → Roadmap Q P → Except Err (Roadmap Q P)
  | [], r => .ok r
  | e :: es, r =>
    if E.zeroLength e.path then mergeEdges E cNode es r
    else
      match cNode[e.src]?, cNode[e.dst]? with
      | some a, some b =>
        match addEdges E r a b e.path with
        | .error er => .error er
        | .ok r1 => mergeEdges E cNode es r1
      | _, _ => .error .nullPointer

/-- `Roadmap::merge(other)`: src/roadmap.cc:177-189, for `other` different from this roadmap (merging a roadmap that has
an edge with itself iterates on the list that it extends). -/
def mergeRoadmap [DecidableEq Q] [LT K] [DecidableRel (α := K) (· < ·)] (E : Env Q P K) (r other : Roadmap Q P) :
    Except Err (Roadmap Q P) :=
  match mergeNodes E other.configs r with
  | .error e => .error e
  | .ok (r1, cNode) => mergeEdges E cNode other.edges r1

/-- Loop of `Roadmap::insertPathVector`: src/roadmap.cc:199-206. A sub-path is given with its end configuration. -/
def insertLoop [DecidableEq Q] [LT K] [DecidableRel (α := K) (· < ·)] (E : Env Q P K) (backAndForth : Bool) :
    List (P × Q) → Nat → Roadmap Q P → Except Err (Roadmap Q P × Nat)
  | [], n, r => .ok (r, n)
  | (p, q) :: l, n, r =>
    match (if backAndForth then addNodeAndEdges E r n q p else addNodeAndEdgeTo E r n q p) with
    | .error e => .error e
    | .ok (r1, m) => insertLoop E backAndForth l m r1

/-- `Roadmap::insertPathVector`: src/roadmap.cc:191-207 for a path vector without constraints, given by
its initial configuration and the list of its sub-paths with their end configurations.  Also
returns the first and the last node. -/
def insertPathVector [DecidableEq Q] [LT K] [DecidableRel (α := K) (· < ·)] (E : Env Q P K) (r : Roadmap Q P)
    (q : Q) (l : List (P × Q)) (backAndForth : Bool) : Except Err (Roadmap Q P × Nat × Nat) :=
  match addNode E r q with
  | .error e => .error e
  | .ok (r1, n) =>
    match insertLoop E backAndForth l n r1 with
    | .error e => .error e
    | .ok (r2, m) => .ok (r2, n, m)

/-- Public calls on a roadmap (the histories quantified over).  Node arguments are node identities. -/
inductive Op (Q P : Type) where
  | addNode (q : Q)
  | addEdge (a b : Nat) (p : P)
  | addEdges (a b : Nat) (p : P)
  | addNodeAndEdges (a : Nat) (q : Q) (p : P)
  | addNodeAndEdgeTo (a : Nat) (q : Q) (p : P)
  | addNodeAndEdgeFrom (q : Q) (a : Nat) (p : P)
  | initNode (q : Q)
  | addGoalNode (q : Q)
  | resetGoalNodes
  | pathExists
  | canReach (a b : Nat)
  | merge (other : Roadmap Q P)
  | insertPathVector (q : Q) (l : List (P × Q)) (backAndForth : Bool)
  | clear

/-- Effect of one call.  `pathExists` without init node and calls with foreign nodes are errors. -/
def step [DecidableEq Q] [LT K] [DecidableRel (α := K) (· < ·)] (E : Env Q P K) (r : Roadmap Q P) :
    Op Q P → Except Err (Roadmap Q P)
  | .addNode q => (addNode E r q).map (·.1)
  | .addEdge a b p => addEdge r a b p
  | .addEdges a b p => addEdges E r a b p
  | .addNodeAndEdges a q p => (addNodeAndEdges E r a q p).map (·.1)
  | .addNodeAndEdgeTo a q p => (addNodeAndEdgeTo E r a q p).map (·.1)
  | .addNodeAndEdgeFrom q a p => (addNodeAndEdgeFrom E r q a p).map (·.1)
  | .initNode q => (setInit E r q).map (·.1)
  | .addGoalNode q => (addGoalNode E r q).map (·.1)
  | .resetGoalNodes => .ok (resetGoalNodes r)
  | .pathExists => (pathExists r).map (·.2)
  | .canReach a b =>
    if r.configs.length ≤ a || r.configs.length ≤ b then .error .badNode
    else match canReach r (r.cc a) (r.cc b) with
      | none => .error .outOfFuel
      | some (_, r1) => .ok r1
  | .merge other => mergeRoadmap E r other
  | .insertPathVector q l b => (insertPathVector E r q l b).map (·.1)
  | .clear => .ok (clear r)

/-- Effect of a history. -/
def run [DecidableEq Q] [LT K] [DecidableRel (α := K) (· < ·)] (E : Env Q P K) (r : Roadmap Q P) :
    List (Op Q P) → Except Err (Roadmap Q P)
  | [] => .ok r
  | o :: os => match step E r o with
    | .error e => .error e
    | .ok r' => run E r' os

end Verif.Roadmap
