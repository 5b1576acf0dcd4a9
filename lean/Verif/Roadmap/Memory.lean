import Mathlib.Data.Finset.Basic
import Mathlib.Data.Finset.Lattice.Fold
import Mathlib.Tactic.Linarith
set_option linter.unusedSectionVars false

/-!
# Memory of roadmaps (C142)

Nodes, edges and the nearest neighbour object of a roadmap are allocated with `new`, referenced by raw pointers and released by `Roadmap::clear`, by the destructor and by the setter of the
nearest neighbour object.  This module models these allocations, for any number of roadmaps used at the same time, with an allocator that may give again the address of an object released
before.  Connected components are held by shared pointers: only the lists of nodes that they hold are modelled.
-/
namespace Verif.RoadMem

abbrev Addr := Nat

/-- Objects.  `node`: node.hh:82-86 (configuration, out-edges, in-edges); `edge`: edge.hh:57-59; `nn`: a nearest neighbour object, `tree`: k-d tree (it holds pointers to nodes:
k-d-tree.hh) or linear search (it holds none: nearest-neighbor/basic.hh). -/
inductive Obj (Q : Type) where
  | node (q : Q) (out inn : List Addr)
  | edge (src dst : Addr)
  | nn (tree : Bool) (stored : List Addr)

/-- Memory: addresses of the objects that exist, contents. -/
structure Heap (Q : Type) where
  live : Finset Addr
  cell : Addr → Obj Q

/-- Undefined behaviour: access to a released object, release of a released object, access through the null pointer. -/
inductive Fault where
  | dangling | doubleFree | null
deriving DecidableEq, Repr

variable {Q : Type} [DecidableEq Q]

def readNode (h : Heap Q) (a : Addr) : Except Fault (Q × List Addr × List Addr) :=
  if a ∈ h.live then match h.cell a with
    | .node q o i => .ok (q, o, i)
    | _ => .error .dangling
  else .error .dangling

def readEdge (h : Heap Q) (a : Addr) : Except Fault (Addr × Addr) :=
  if a ∈ h.live then match h.cell a with
    | .edge s d => .ok (s, d)
    | _ => .error .dangling
  else .error .dangling

def readNN (h : Heap Q) (a : Addr) : Except Fault (Bool × List Addr) :=
  if a ∈ h.live then match h.cell a with
    | .nn t s => .ok (t, s)
    | _ => .error .dangling
  else .error .dangling

def write (h : Heap Q) (a : Addr) (o : Obj Q) : Heap Q := { h with cell := fun b => if b = a then o else h.cell b }

/-- `delete`. -/
def free (h : Heap Q) (a : Addr) : Except Fault (Heap Q) := if a ∈ h.live then .ok { h with live := h.live.erase a } else .error .doubleFree

/-- What is not modelled in detail.  `alloc`: address given by `new`; `pick`: the node returned by the search of a nearest node, among those that are examined; `group`: the connected
components after `connect` between the components of two nodes (C01-C06 say which they are). -/
structure Params (Q : Type) where
  alloc : Finset Addr → Addr
  pick : Q → List (Addr × Q) → Addr
  group : List (List Addr) → Addr → Addr → List (List Addr)

/-- What is assumed: `new` gives an address where no object exists; a search that examines nodes returns one of them (so distances are neither infinite nor NaN); connecting components neither adds nor removes nodes. -/
structure Params.Ok (P : Params Q) : Prop where
  alloc : ∀ s, P.alloc s ∉ s
  pick : ∀ q l, l ≠ [] → P.pick q l ∈ l.map (·.1)
  group : ∀ c a b x, x ∈ (P.group c a b).flatten ↔ x ∈ c.flatten

def new (P : Params Q) (h : Heap Q) (o : Obj Q) : Heap Q × Addr :=
  let a := P.alloc h.live
  ({ live := insert a h.live, cell := fun b => if b = a then o else h.cell b }, a)

/-- The members of a roadmap: roadmap.hh:255-262. -/
structure RM where
  nodes : List Addr
  edges : List Addr
  init : Option Addr
  goals : List Addr
  comps : List (List Addr)
  nn : Addr

/-- Constructor: roadmap.cc:52-61. -/
def create (P : Params Q) (h : Heap Q) : Heap Q × RM :=
  let x := new P h (.nn false [])
  (x.1, ⟨[], [], none, [], [], x.2⟩)

/-- Reading the configurations of nodes. -/
def readConfigs (h : Heap Q) : List Addr → Except Fault (List (Addr × Q))
  | [] => .ok []
  | a :: l => match readNode h a with
    | .error e => .error e
    | .ok x => match readConfigs h l with
      | .error e => .error e
      | .ok y => .ok ((a, x.1) :: y)

/-- `nearestNode` in components: roadmap.cc:209-236, basic.cc, k-d-tree.cc.  The k-d tree may examine any of the nodes that it holds; the null pointer is returned when there is none. -/
def nearest (P : Params Q) (h : Heap Q) (nn : Addr) (nodes : List Addr) (q : Q) : Except Fault Addr :=
  match readNN h nn with
  | .error e => .error e
  | .ok x => match readConfigs h (if x.1 then x.2 else nodes) with
    | .error e => .error e
    | .ok [] => .error .null
    | .ok l => .ok (P.pick q l)

/-- `NearestNeighbor::addNode`: basic.hh:48, k-d-tree.cc:119-137. -/
def nnAdd (h : Heap Q) (nn n : Addr) : Except Fault (Heap Q) :=
  match readNN h nn with
  | .error e => .error e
  | .ok x => .ok (if x.1 then write h nn (.nn true (n :: x.2)) else h)

/-- Creation of a node, with the components given: roadmap.cc:113-119, 132-141. -/
def pushNode (P : Params Q) (h : Heap Q) (r : RM) (q : Q) (comps : Addr → List (List Addr)) : Except Fault (Heap Q × RM × Addr) :=
  let x := new P h (.node q [] [])
  match nnAdd x.1 r.nn x.2 with
  | .error e => .error e
  | .ok h' => .ok (h', { r with nodes := r.nodes ++ [x.2], comps := comps x.2 }, x.2)

/-- `addNode`: roadmap.cc:104-119. -/
def addNode (P : Params Q) (h : Heap Q) (r : RM) (q : Q) : Except Fault (Heap Q × RM × Addr) :=
  if r.nodes = [] then pushNode P h r q fun n => r.comps ++ [[n]]
  else match nearest P h r.nn r.comps.flatten q with
    | .error e => .error e
    | .ok a => match readNode h a with
      | .error e => .error e
      | .ok x => if x.1 = q then .ok (h, r, a) else pushNode P h r q fun n => r.comps ++ [[n]]

/-- `addNode` in the component of a node: roadmap.cc:121-141. -/
def addNodeIn (P : Params Q) (h : Heap Q) (r : RM) (src : Addr) (q : Q) : Except Fault (Heap Q × RM × Addr) :=
  match readNode h src with
  | .error e => .error e
  | .ok _ => match nearest P h r.nn ((r.comps.filter fun c => decide (src ∈ c)).flatten) q with
    | .error e => .error e
    | .ok a => match readNode h a with
      | .error e => .error e
      | .ok x => if x.1 = q then .ok (h, r, a) else pushNode P h r q fun n => r.comps.map fun c => if src ∈ c then c ++ [n] else c

/-- `isOutNeighbor`, `isInNeighbor`: node.cc:95-109 (all the edges of the list are read here, the code stops at the first that matches). -/
def ends (h : Heap Q) : List Addr → Except Fault (List (Addr × Addr))
  | [] => .ok []
  | e :: l => match readEdge h e with
    | .error x => .error x
    | .ok x => match ends h l with
      | .error x => .error x
      | .ok y => .ok (x :: y)

/-- `if (!n1->isOutNeighbor(n2)) n1->addOutEdge(edge)`: roadmap.cc:147, 268. -/
def linkOut (h : Heap Q) (e a b : Addr) : Except Fault (Heap Q) :=
  match readNode h a with
  | .error x => .error x
  | .ok x => match ends h x.2.1 with
    | .error x => .error x
    | .ok l => .ok (if l.any (fun y => decide (y.2 = b)) then h else write h a (.node x.1 (x.2.1 ++ [e]) x.2.2))

/-- `if (!n2->isInNeighbor(n1)) n2->addInEdge(edge)`: roadmap.cc:148, 269. -/
def linkIn (h : Heap Q) (e a b : Addr) : Except Fault (Heap Q) :=
  match readNode h b with
  | .error x => .error x
  | .ok x => match ends h x.2.2 with
    | .error x => .error x
    | .ok l => .ok (if l.any (fun y => decide (y.1 = a)) then h else write h b (.node x.1 x.2.1 (x.2.2 ++ [e])))

/-- `addEdge`: roadmap.cc:265-272 with `impl_addEdge` and `connect`, 285-319.  Merging components writes in the nodes of the one that disappears (connected-component.cc:49-52): here all the nodes of the
components are accessed. -/
def addEdge (P : Params Q) (h : Heap Q) (r : RM) (a b : Addr) : Except Fault (Heap Q × RM) :=
  let x := new P h (.edge a b)
  match linkOut x.1 x.2 a b with
  | .error e => .error e
  | .ok h1 => match linkIn h1 x.2 a b with
    | .error e => .error e
    | .ok h2 => match readConfigs h2 r.comps.flatten with
      | .error e => .error e
      | .ok _ => .ok (h2, { r with edges := r.edges ++ [x.2], comps := P.group r.comps a b })

/-- `addEdges`: roadmap.cc:144-154 (the same calls up to the order of the insertions in the nodes). -/
def addEdges (P : Params Q) (h : Heap Q) (r : RM) (a b : Addr) : Except Fault (Heap Q × RM) :=
  match addEdge P h r a b with
  | .error e => .error e
  | .ok x => addEdge P x.1 x.2 b a

def freeAll (h : Heap Q) : List Addr → Except Fault (Heap Q)
  | [] => .ok h
  | a :: l => match free h a with
    | .error e => .error e
    | .ok h' => freeAll h' l

/-- `clear`: roadmap.cc:86-102; the nearest neighbour object forgets its nodes: k-d-tree.cc:138-148. -/
def clear (h : Heap Q) (r : RM) : Except Fault (Heap Q × RM) :=
  match freeAll h r.nodes with
  | .error e => .error e
  | .ok h1 => match freeAll h1 r.edges with
    | .error e => .error e
    | .ok h2 => match readNN h2 r.nn with
      | .error e => .error e
      | .ok x => .ok (write h2 r.nn (.nn x.1 []), ⟨[], [], none, [], [], r.nn⟩)

/-- Destructor: roadmap.cc:63-66. -/
def destroy (h : Heap Q) (r : RM) : Except Fault (Heap Q) :=
  match clear h r with
  | .error e => .error e
  | .ok x => free x.1 x.2.nn

/-- Setter of the nearest neighbour object: roadmap.cc:74-84.  `false`: exception. -/
def setNN (h : Heap Q) (r : RM) (a : Option Addr) : Except Fault (Heap Q × RM × Bool) :=
  if r.nodes ≠ [] then .ok (h, r, false)
  else match a with
    | none => .ok (h, r, true)
    | some a => match free h r.nn with
      | .error e => .error e
      | .ok h' => .ok (h', { r with nn := a }, true)

/-- First loop of `merge` of a roadmap: roadmap.cc:180-183. -/
def mergeNodes (P : Params Q) : List Addr → Heap Q → RM → (Addr → Addr) → Except Fault (Heap Q × RM × (Addr → Addr))
  | [], h, r, m => .ok (h, r, m)
  | a :: l, h, r, m => match readNode h a with
    | .error e => .error e
    | .ok x => match addNode P h r x.1 with
      | .error e => .error e
      | .ok y => mergeNodes P l y.1 y.2.1 fun b => if b = a then y.2.2 else m b

/-- Second loop: roadmap.cc:184-189; `skip`: edges of zero length. -/
def mergeEdges (P : Params Q) (m : Addr → Addr) (skip : Addr → Bool) : List Addr → Heap Q → RM → Except Fault (Heap Q × RM)
  | [], h, r => .ok (h, r)
  | e :: l, h, r => match readEdge h e with
    | .error x => .error x
    | .ok x => if skip e then mergeEdges P m skip l h r
      else match addEdges P h r (m x.1) (m x.2) with
        | .error x => .error x
        | .ok y => mergeEdges P m skip l y.1 y.2

/-- Loop of `insertPathVector`: roadmap.cc:200-207 (`addNodeAndEdges`: 156-164, `addNodeAndEdge`: 166-175). -/
def insertFrom (P : Params Q) (both : Bool) : List Q → Heap Q → RM → Addr → Except Fault (Heap Q × RM)
  | [], h, r, _ => .ok (h, r)
  | q :: l, h, r, n => match addNodeIn P h r n q with
    | .error e => .error e
    | .ok x => match (if both then addEdges P x.1 x.2.1 n x.2.2 else addEdge P x.1 x.2.1 n x.2.2) with
      | .error e => .error e
      | .ok y => insertFrom P both l y.1 y.2 x.2.2

/-- `pathExists`: roadmap.cc:322-331: the init node and the goal nodes are accessed. -/
def pathExists (h : Heap Q) (r : RM) : Except Fault Unit :=
  match r.init with
  | none => .error .null
  | some a => match readConfigs h (a :: r.goals) with
    | .error e => .error e
    | .ok _ => .ok ()

/-! ## Programs -/

/-- Calls of a user; roadmaps are numbered.  `newNN`: the user creates a nearest neighbour object; `merge`: on a roadmap that is not itself (see C11). -/
inductive Op (Q : Type) where
  | create (i : Nat)
  | newNN (tree : Bool)
  | setNN (i : Nat) (a : Option Addr)
  | addNode (i : Nat) (q : Q)
  | addNodeAndEdge (i : Nat) (src : Addr) (q : Q)
  | addNodeAndEdges (i : Nat) (src : Addr) (q : Q)
  | addNodeAndEdgeFrom (i : Nat) (q : Q) (dst : Addr)
  | addEdge (i : Nat) (a b : Addr)
  | addEdges (i : Nat) (a b : Addr)
  | initNode (i : Nat) (q : Q)
  | addGoal (i : Nat) (q : Q)
  | resetGoals (i : Nat)
  | clear (i : Nat)
  | destroy (i : Nat)
  | merge (i j : Nat) (skip : Addr → Bool)
  | pathExists (i : Nat)
  | insertPath (i : Nat) (both : Bool) (q : Q) (l : List Q)

/-- `mine`: the nearest neighbour objects made by the user and not given to a roadmap. -/
structure State (Q : Type) where
  heap : Heap Q
  maps : Nat → Option RM
  mine : List Addr

def put (s : State Q) (i : Nat) (x : Heap Q × RM) : State Q := { s with heap := x.1, maps := fun j => if j = i then some x.2 else s.maps j }

def step (P : Params Q) (s : State Q) : Op Q → Except Fault (State Q)
  | .create i => match s.maps i with
    | some _ => .ok s
    | none => .ok (put s i (create P s.heap))
  | .newNN tree => let x := new P s.heap (.nn tree []); .ok { s with heap := x.1, mine := x.2 :: s.mine }
  | .setNN i a => match s.maps i with
    | none => .ok s
    | some r => match setNN s.heap r a with
      | .error e => .error e
      | .ok (h, r', b) => .ok { put s i (h, r') with mine := if b then match a with | none => s.mine | some a => s.mine.erase a else s.mine }
  | .addNode i q => match s.maps i with
    | none => .ok s
    | some r => match addNode P s.heap r q with
      | .error e => .error e
      | .ok (h, r', _) => .ok (put s i (h, r'))
  | .addNodeAndEdge i src q => match s.maps i with
    | none => .ok s
    | some r => match addNodeIn P s.heap r src q with
      | .error e => .error e
      | .ok (h, r', n) => match addEdge P h r' src n with
        | .error e => .error e
        | .ok x => .ok (put s i x)
  | .addNodeAndEdges i src q => match s.maps i with
    | none => .ok s
    | some r => match addNodeIn P s.heap r src q with
      | .error e => .error e
      | .ok (h, r', n) => match addEdges P h r' src n with
        | .error e => .error e
        | .ok x => .ok (put s i x)
  | .addNodeAndEdgeFrom i q dst => match s.maps i with
    | none => .ok s
    | some r => match addNodeIn P s.heap r dst q with
      | .error e => .error e
      | .ok (h, r', n) => match addEdge P h r' n dst with
        | .error e => .error e
        | .ok x => .ok (put s i x)
  | .addEdge i a b => match s.maps i with
    | none => .ok s
    | some r => match addEdge P s.heap r a b with
      | .error e => .error e
      | .ok x => .ok (put s i x)
  | .addEdges i a b => match s.maps i with
    | none => .ok s
    | some r => match addEdges P s.heap r a b with
      | .error e => .error e
      | .ok x => .ok (put s i x)
  | .initNode i q => match s.maps i with
    | none => .ok s
    | some r => match addNode P s.heap r q with
      | .error e => .error e
      | .ok (h, r', n) => .ok (put s i (h, { r' with init := some n }))
  | .addGoal i q => match s.maps i with
    | none => .ok s
    | some r => match addNode P s.heap r q with
      | .error e => .error e
      | .ok (h, r', n) => .ok (put s i (h, { r' with goals := r'.goals ++ [n] }))
  | .resetGoals i => match s.maps i with
    | none => .ok s
    | some r => .ok (put s i (s.heap, { r with goals := [] }))
  | .clear i => match s.maps i with
    | none => .ok s
    | some r => match clear s.heap r with
      | .error e => .error e
      | .ok x => .ok (put s i x)
  | .destroy i => match s.maps i with
    | none => .ok s
    | some r => match destroy s.heap r with
      | .error e => .error e
      | .ok h => .ok { s with heap := h, maps := fun j => if j = i then none else s.maps j }
  | .merge i j skip => match s.maps i, s.maps j with
    | some r, some r2 => match mergeNodes P r2.nodes s.heap r id with
      | .error e => .error e
      | .ok (h, r', m) => match mergeEdges P m skip r2.edges h r' with
        | .error e => .error e
        | .ok x => .ok (put s i x)
    | _, _ => .ok s
  | .pathExists i => match s.maps i with
    | none => .ok s
    | some r => match pathExists s.heap r with
      | .error e => .error e
      | .ok _ => .ok s
  | .insertPath i both q l => match s.maps i with
    | none => .ok s
    | some r => match addNode P s.heap r q with
      | .error e => .error e
      | .ok (h, r', n) => match insertFrom P both l h r' n with
        | .error e => .error e
        | .ok x => .ok (put s i x)

def run (P : Params Q) : List (Op Q) → State Q → Except Fault (State Q)
  | [], s => .ok s
  | o :: l, s => match step P s o with
    | .error e => .error e
    | .ok s' => run P l s'

def start (c : Addr → Obj Q) : State Q := ⟨⟨∅, c⟩, fun _ => none, []⟩

/-! ## Specification -/

/-- The object belongs to the roadmap. -/
def RM.Owns (r : RM) (a : Addr) : Prop := a ∈ r.nodes ∨ a ∈ r.edges ∨ a = r.nn

/-- What the user must respect: nodes given belong to the roadmap; a nearest neighbour object that is given was made by the user and was not given before; a roadmap is not merged with itself; an init
node is set before `pathExists`. -/
def Respects (s : State Q) : Op Q → Prop
  | .setNN _ (some a) => a ∈ s.mine
  | .addNodeAndEdge i a _ | .addNodeAndEdges i a _ | .addNodeAndEdgeFrom i _ a => ∀ r, s.maps i = some r → a ∈ r.nodes
  | .addEdge i a b | .addEdges i a b => ∀ r, s.maps i = some r → a ∈ r.nodes ∧ b ∈ r.nodes
  | .merge i j _ => i ≠ j
  | .pathExists i => ∀ r, s.maps i = some r → r.init ≠ none
  | _ => True

/-- The program respects these rules at each call. -/
def RespectsAll (P : Params Q) : List (Op Q) → State Q → Prop
  | [], _ => True
  | o :: l, s => Respects s o ∧ ∀ s', step P s o = .ok s' → RespectsAll P l s'

/-- No pointer held by a roadmap, a node, an edge, a component or a nearest neighbour object is dangling. -/
structure Own (h : Heap Q) (r : RM) : Prop where
  nodup : r.nodes.Nodup
  nodupE : r.edges.Nodup
  node : ∀ a ∈ r.nodes, a ∈ h.live ∧ ∃ q o i, h.cell a = .node q o i ∧ (∀ e ∈ o, e ∈ r.edges) ∧ ∀ e ∈ i, e ∈ r.edges
  edge : ∀ e ∈ r.edges, e ∈ h.live ∧ ∃ s d, h.cell e = .edge s d ∧ s ∈ r.nodes ∧ d ∈ r.nodes
  nn : r.nn ∈ h.live ∧ ∃ t l, h.cell r.nn = .nn t l ∧ ∀ a, a ∈ l ↔ a ∈ r.nodes ∧ t = true
  init : ∀ a ∈ r.init, a ∈ r.nodes
  goals : ∀ a ∈ r.goals, a ∈ r.nodes
  comps : ∀ a, a ∈ r.comps.flatten ↔ a ∈ r.nodes

/-- Every object belongs to one roadmap only, or is a nearest neighbour object of the user; nothing is lost. -/
structure Good (s : State Q) : Prop where
  own : ∀ i r, s.maps i = some r → Own s.heap r
  apart : ∀ i j ri rj, s.maps i = some ri → s.maps j = some rj → i ≠ j → ∀ a, ri.Owns a → ¬ rj.Owns a
  mine : s.mine.Nodup ∧ ∀ a ∈ s.mine, a ∈ s.heap.live ∧ (∃ t, s.heap.cell a = .nn t []) ∧ ∀ i r, s.maps i = some r → ¬ r.Owns a
  kept : ∀ a ∈ s.heap.live, a ∈ s.mine ∨ ∃ i r, s.maps i = some r ∧ r.Owns a

/-- Pointers to nodes and edges stay valid; the configuration of a node and the ends of an edge do not change. -/
structure Keeps (h : Heap Q) (r : RM) (h' : Heap Q) (r' : RM) : Prop where
  node : ∀ a ∈ r.nodes, a ∈ r'.nodes ∧ ∀ q o i, h.cell a = .node q o i → ∃ o' i', h'.cell a = .node q o' i'
  edge : ∀ a ∈ r.edges, a ∈ r'.edges ∧ h'.cell a = h.cell a

/-! ## Lemmas -/

/-- A call on one roadmap: its objects are consistent after it, the other objects are not touched, nothing is lost. -/
structure Step (h : Heap Q) (r : RM) (h' : Heap Q) (r' : RM) : Prop where
  own : Own h' r'
  frame : ∀ a ∈ h.live, ¬ r.Owns a → a ∈ h'.live ∧ h'.cell a = h.cell a ∧ ¬ r'.Owns a
  kept : ∀ a ∈ h'.live, r'.Owns a ∨ (a ∈ h.live ∧ ¬ r.Owns a)

theorem Step.refl {h : Heap Q} {r : RM} (k : Own h r) : Step h r h r := ⟨k, fun a h1 h2 => ⟨h1, rfl, h2⟩, fun a ha => by
  by_cases hr : r.Owns a
  · exact Or.inl hr
  · exact Or.inr ⟨ha, hr⟩⟩

theorem Step.trans {h h1 h2 : Heap Q} {r r1 r2 : RM} (a : Step h r h1 r1) (b : Step h1 r1 h2 r2) : Step h r h2 r2 := by
  refine ⟨b.own, fun x hx hr => ?_, fun x hx => ?_⟩
  · obtain ⟨k1, k2, k3⟩ := a.frame x hx hr
    obtain ⟨l1, l2, l3⟩ := b.frame x k1 k3
    exact ⟨l1, l2.trans k2, l3⟩
  · rcases b.kept x hx with k | ⟨k1, k2⟩
    · exact Or.inl k
    · exact Or.inr ((a.kept x k1).resolve_left k2)

theorem Keeps.refl (h : Heap Q) (r : RM) : Keeps h r h r := ⟨fun _ ha => ⟨ha, fun _ o i e => ⟨o, i, e⟩⟩, fun _ ha => ⟨ha, rfl⟩⟩

theorem Keeps.trans {h h1 h2 : Heap Q} {r r1 r2 : RM} (a : Keeps h r h1 r1) (b : Keeps h1 r1 h2 r2) : Keeps h r h2 r2 := by
  refine ⟨fun x hx => ?_, fun x hx => ?_⟩
  · obtain ⟨k1, k2⟩ := a.node x hx
    obtain ⟨l1, l2⟩ := b.node x k1
    refine ⟨l1, fun q o i e => ?_⟩
    obtain ⟨o', i', e'⟩ := k2 q o i e
    exact l2 q o' i' e'
  · obtain ⟨k1, k2⟩ := a.edge x hx
    obtain ⟨l1, l2⟩ := b.edge x k1
    exact ⟨l1, l2.trans k2⟩

variable {P : Params Q} {h : Heap Q} {r : RM}

theorem readNode_ok (k : Own h r) {a : Addr} (ha : a ∈ r.nodes) : ∃ q o i, readNode h a = .ok (q, o, i) ∧ h.cell a = .node q o i ∧ (∀ e ∈ o, e ∈ r.edges) ∧ ∀ e ∈ i, e ∈ r.edges := by
  obtain ⟨h1, q, o, i, h2, h3, h4⟩ := k.node a ha
  exact ⟨q, o, i, by simp only [readNode, if_pos h1, h2], h2, h3, h4⟩

theorem readConfigs_ok (k : Own h r) (l : List Addr) (hl : ∀ a ∈ l, a ∈ r.nodes) : ∃ y, readConfigs h l = .ok y ∧ y.map (·.1) = l := by
  induction l with
  | nil => exact ⟨[], rfl, rfl⟩
  | cons a l ih =>
    obtain ⟨q, o, i, h1, -⟩ := readNode_ok k (hl a (by simp))
    obtain ⟨y, h2, h3⟩ := ih fun b hb => hl b (by simp [hb])
    exact ⟨(a, q) :: y, by simp only [readConfigs, h1, h2], by simp [h3]⟩

theorem nearest_ok (hP : P.Ok) (k : Own h r) (nodes : List Addr) (hn : nodes ≠ []) (hl : ∀ a ∈ nodes, a ∈ r.nodes) (q : Q) : ∃ a, nearest P h r.nn nodes q = .ok a ∧ a ∈ r.nodes := by
  obtain ⟨h1, t, l, h2, h3⟩ := k.nn
  have e : readNN h r.nn = .ok (t, l) := by simp only [readNN, if_pos h1, h2]
  have hin : ∀ a ∈ (if t then l else nodes), a ∈ r.nodes := by
    intro a ha
    split at ha
    · exact ((h3 a).1 ha).1
    · exact hl a ha
  have hne : (if t then l else nodes) ≠ [] := by
    split
    · next ht =>
      obtain ⟨a, ha⟩ := List.exists_mem_of_ne_nil nodes hn
      have := (h3 a).2 ⟨hl a ha, ht⟩
      exact List.ne_nil_of_mem this
    · exact hn
  obtain ⟨y, h4, h5⟩ := readConfigs_ok k _ hin
  have hy : y ≠ [] := by
    rintro rfl
    exact hne (by rw [← h5]; rfl)
  refine ⟨P.pick q y, ?_, hin _ (by rw [← h5]; exact hP.pick q y hy)⟩
  obtain ⟨z, y, rfl⟩ := List.exists_cons_of_ne_nil hy
  simp only [nearest, e, h4]

theorem owns_live (k : Own h r) {a : Addr} (ha : r.Owns a) : a ∈ h.live := by
  rcases ha with ha | ha | rfl
  · exact (k.node a ha).1
  · exact (k.edge a ha).1
  · exact k.nn.1

theorem node_ne_edge (k : Own h r) {a : Addr} (ha : a ∈ r.nodes) : a ∉ r.edges := by
  intro hb
  obtain ⟨-, q, o, i, h1, -⟩ := k.node a ha
  obtain ⟨-, s, d, h2, -⟩ := k.edge a hb
  rw [h1] at h2; cases h2

theorem node_ne_nn (k : Own h r) {a : Addr} (ha : a ∈ r.nodes) : a ≠ r.nn := by
  rintro rfl
  obtain ⟨-, q, o, i, h1, -⟩ := k.node _ ha
  obtain ⟨-, t, l, h2, -⟩ := k.nn
  rw [h1] at h2; cases h2

theorem edge_ne_nn (k : Own h r) {a : Addr} (ha : a ∈ r.edges) : a ≠ r.nn := by
  rintro rfl
  obtain ⟨-, s, d, h1, -⟩ := k.edge _ ha
  obtain ⟨-, t, l, h2, -⟩ := k.nn
  rw [h1] at h2; cases h2

/-- Creation of a node. -/
theorem pushNode_ok (hP : P.Ok) (k : Own h r) (q : Q) (comps : Addr → List (List Addr)) (hc : ∀ n x, x ∈ (comps n).flatten ↔ x ∈ r.nodes ∨ x = n) :
    ∃ h' r' n, pushNode P h r q comps = .ok (h', r', n) ∧ Step h r h' r' ∧ n ∈ r'.nodes ∧ Keeps h r h' r' := by
  obtain ⟨h1, t, l, h2, h3⟩ := k.nn
  have hfresh := hP.alloc h.live
  generalize hn : P.alloc h.live = n at hfresh
  have hnn : r.nn ≠ n := by rintro rfl; exact hfresh h1
  have ho : ∀ a, r.Owns a → a ≠ n := fun a ha e => hfresh (e ▸ owns_live k ha)
  have e1 : readNN (new P h (.node q [] [])).1 r.nn = .ok (t, l) := by
    simp only [new, hn, readNN, Finset.mem_insert, h1, or_true, if_true, hnn, if_false, h2]
  -- the new memory
  set h' : Heap Q := if t then write (new P h (.node q [] [])).1 r.nn (.nn true (n :: l)) else (new P h (.node q [] [])).1 with hh'
  have hlive : h'.live = insert n h.live := by rw [hh']; split <;> simp [write, new, hn]
  have hcell : ∀ a, a ≠ n → a ≠ r.nn → h'.cell a = h.cell a := by
    intro a ha hb
    rw [hh']; split <;> simp [write, new, hn, ha, hb]
  have hnew : h'.cell n = .node q [] [] := by
    rw [hh']; split
    · simp [write, new, hn, hnn.symm]
    · simp [new, hn]
  have hnn' : h'.cell r.nn = .nn t (if t then n :: l else l) := by
    rw [hh']
    cases t with
    | true => simp [write]
    | false => simp [new, hn, hnn, h2]
  refine ⟨h', { r with nodes := r.nodes ++ [n], comps := comps n }, n, ?_, ⟨?_, ?_, ?_⟩, by simp,
    ⟨fun a ha => ⟨by simp [ha], fun q' o i e => ⟨o, i, by rw [hcell a (ho a (Or.inl ha)) (node_ne_nn k ha)]; exact e⟩⟩,
      fun a ha => ⟨ha, hcell a (ho a (Or.inr (Or.inl ha))) (edge_ne_nn k ha)⟩⟩⟩
  · simp only [pushNode, nnAdd]
    have e2 : (new P h (.node q [] [])).2 = n := hn
    rw [e1, e2]
  · refine ⟨?_, k.nodupE, ?_, ?_, ?_, ?_, ?_, ?_⟩
    · exact List.nodup_append.2 ⟨k.nodup, by simp, by
        intro a ha b hb e
        rw [List.mem_singleton.1 hb] at e
        exact ho a (Or.inl ha) e⟩
    · intro a ha
      rcases List.mem_append.1 ha with ha | ha
      · obtain ⟨k1, q', o, i, k2, k3, k4⟩ := k.node a ha
        exact ⟨by rw [hlive]; exact Finset.mem_insert_of_mem k1, q', o, i, by rw [hcell a (ho a (Or.inl ha)) (node_ne_nn k ha)]; exact k2, k3, k4⟩
      · rw [List.mem_singleton.1 ha]
        exact ⟨by rw [hlive]; exact Finset.mem_insert_self _ _, q, [], [], hnew, by simp, by simp⟩
    · intro e he
      obtain ⟨k1, s, d, k2, k3, k4⟩ := k.edge e he
      exact ⟨by rw [hlive]; exact Finset.mem_insert_of_mem k1, s, d, by rw [hcell e (ho e (Or.inr (Or.inl he))) (edge_ne_nn k he)]; exact k2, by simp [k3], by simp [k4]⟩
    · refine ⟨by rw [hlive]; exact Finset.mem_insert_of_mem h1, t, _, hnn', fun a => ?_⟩
      simp only [List.mem_append, List.mem_singleton]
      cases t with
      | true =>
        simp only [if_true, List.mem_cons, h3 a, and_true]
        tauto
      | false =>
        simp only [Bool.false_eq_true, if_false, and_false, iff_false]
        intro ha
        exact absurd ((h3 a).1 ha).2 (by simp)
    · intro a ha; exact List.mem_append_left _ (k.init a ha)
    · intro a ha; exact List.mem_append_left _ (k.goals a ha)
    · intro a
      rw [hc n a]
      simp
  · intro a ha hr
    have hne : a ≠ n := fun e => hfresh (e ▸ ha)
    have hne' : a ≠ r.nn := fun e => hr (Or.inr (Or.inr e))
    refine ⟨by rw [hlive]; exact Finset.mem_insert_of_mem ha, hcell a hne hne', ?_⟩
    rintro (h | h | h)
    · rcases List.mem_append.1 h with h | h
      · exact hr (Or.inl h)
      · exact hne (List.mem_singleton.1 h)
    · exact hr (Or.inr (Or.inl h))
    · exact hne' h
  · intro a ha
    rw [hlive] at ha
    rcases Finset.mem_insert.1 ha with rfl | ha
    · exact Or.inl (Or.inl (by simp))
    · by_cases hr : r.Owns a
      · left
        rcases hr with h | h | h
        · exact Or.inl (List.mem_append_left _ h)
        · exact Or.inr (Or.inl h)
        · exact Or.inr (Or.inr h)
      · exact Or.inr ⟨ha, hr⟩

theorem addNode_ok (hP : P.Ok) (k : Own h r) (q : Q) :
    ∃ h' r' n, addNode P h r q = .ok (h', r', n) ∧ Step h r h' r' ∧ n ∈ r'.nodes ∧ Keeps h r h' r' := by
  have hc : ∀ n x, x ∈ (r.comps ++ [[n]]).flatten ↔ x ∈ r.nodes ∨ x = n := by
    intro n x
    rw [List.flatten_append, List.mem_append, k.comps x]
    simp
  unfold addNode
  split
  · exact pushNode_ok hP k q _ hc
  · next hne =>
    have : r.comps.flatten ≠ [] := by
      obtain ⟨a, ha⟩ := List.exists_mem_of_ne_nil _ hne
      exact List.ne_nil_of_mem ((k.comps a).2 ha)
    obtain ⟨a, h1, h2⟩ := nearest_ok hP k _ this (fun a ha => (k.comps a).1 ha) q
    obtain ⟨q', o, i, h3, -⟩ := readNode_ok k h2
    simp only [h1, h3]
    split
    · exact ⟨h, r, a, rfl, Step.refl k, h2, Keeps.refl h r⟩
    · exact pushNode_ok hP k q _ hc

theorem addNodeIn_ok (hP : P.Ok) (k : Own h r) {src : Addr} (hs : src ∈ r.nodes) (q : Q) :
    ∃ h' r' n, addNodeIn P h r src q = .ok (h', r', n) ∧ Step h r h' r' ∧ n ∈ r'.nodes ∧ Keeps h r h' r' := by
  have hc : ∀ n x, x ∈ (r.comps.map fun c => if src ∈ c then c ++ [n] else c).flatten ↔ x ∈ r.nodes ∨ x = n := by
    intro n x
    rw [← k.comps x]
    simp only [List.mem_flatten, List.mem_map]
    constructor
    · rintro ⟨l, ⟨c, hc, rfl⟩, hx⟩
      split at hx
      · rcases List.mem_append.1 hx with hx | hx
        · exact Or.inl ⟨c, hc, hx⟩
        · exact Or.inr (List.mem_singleton.1 hx)
      · exact Or.inl ⟨c, hc, hx⟩
    · rintro (⟨c, hc, hx⟩ | rfl)
      · refine ⟨_, ⟨c, hc, rfl⟩, ?_⟩
        split
        · exact List.mem_append_left _ hx
        · exact hx
      · obtain ⟨c, hc, hx⟩ := List.mem_flatten.1 ((k.comps src).2 hs)
        exact ⟨_, ⟨c, hc, rfl⟩, by rw [if_pos hx]; simp⟩
  obtain ⟨q0, o0, i0, h0, -⟩ := readNode_ok k hs
  have hne : (r.comps.filter fun c => decide (src ∈ c)).flatten ≠ [] := by
    obtain ⟨c, hc, hx⟩ := List.mem_flatten.1 ((k.comps src).2 hs)
    exact List.ne_nil_of_mem (List.mem_flatten.2 ⟨c, List.mem_filter.2 ⟨hc, by simpa using hx⟩, hx⟩)
  obtain ⟨a, h1, h2⟩ := nearest_ok hP k _ hne (fun a ha => by
    obtain ⟨c, hc, hx⟩ := List.mem_flatten.1 ha
    exact (k.comps a).1 (List.mem_flatten.2 ⟨c, (List.mem_filter.1 hc).1, hx⟩)) q
  obtain ⟨q', o, i, h3, -⟩ := readNode_ok k h2
  simp only [addNodeIn, h0, h1, h3]
  split
  · exact ⟨h, r, a, rfl, Step.refl k, h2, Keeps.refl h r⟩
  · exact pushNode_ok hP k q _ hc

/-- Consistency with one more edge that is not yet in the list. -/
structure Mid (h : Heap Q) (r : RM) (e a b : Addr) : Prop where
  fresh : ¬ r.Owns e
  live : e ∈ h.live ∧ h.cell e = .edge a b
  node : ∀ x ∈ r.nodes, x ∈ h.live ∧ ∃ q o i, h.cell x = .node q o i ∧ (∀ y ∈ o, y ∈ r.edges ∨ y = e) ∧ ∀ y ∈ i, y ∈ r.edges ∨ y = e
  edge : ∀ x ∈ r.edges, x ∈ h.live ∧ ∃ s d, h.cell x = .edge s d ∧ s ∈ r.nodes ∧ d ∈ r.nodes
  nn : r.nn ∈ h.live ∧ ∃ t l, h.cell r.nn = .nn t l ∧ ∀ x, x ∈ l ↔ x ∈ r.nodes ∧ t = true

theorem ends_ok {e a b : Addr} (m : Mid h r e a b) (l : List Addr) (hl : ∀ y ∈ l, y ∈ r.edges ∨ y = e) : ∃ y, ends h l = .ok y := by
  induction l with
  | nil => exact ⟨[], rfl⟩
  | cons x l ih =>
    obtain ⟨y, hy⟩ := ih fun z hz => hl z (by simp [hz])
    have : ∃ s d, readEdge h x = .ok (s, d) := by
      rcases hl x (by simp) with hx | rfl
      · obtain ⟨k1, s, d, k2, -⟩ := m.edge x hx
        exact ⟨s, d, by simp only [readEdge, if_pos k1, k2]⟩
      · exact ⟨a, b, by simp only [readEdge, if_pos m.live.1, m.live.2]⟩
    obtain ⟨s, d, h1⟩ := this
    exact ⟨(s, d) :: y, by simp only [ends, h1, hy]⟩

/-- Writing in a node. -/
theorem Mid.write {e a b x : Addr} (m : Mid h r e a b) (hne : ∀ y ∈ r.edges, y ∉ r.nodes) (hx : x ∈ r.nodes) (q : Q) (o i : List Addr)
    (ho : ∀ y ∈ o, y ∈ r.edges ∨ y = e) (hi : ∀ y ∈ i, y ∈ r.edges ∨ y = e) : Mid (write h x (.node q o i)) r e a b := by
  have hxe : e ≠ x := fun h => m.fresh (Or.inl (h ▸ hx))
  have hxn : r.nn ≠ x := by
    rintro rfl
    obtain ⟨-, t, l, h1, -⟩ := m.nn
    obtain ⟨-, q, o, i, h2, -⟩ := m.node _ hx
    rw [h1] at h2; cases h2
  refine ⟨m.fresh, ⟨m.live.1, ?_⟩, fun y hy => ?_, fun y hy => ?_, ⟨m.nn.1, ?_⟩⟩
  · simp only [RoadMem.write, if_neg hxe]; exact m.live.2
  · obtain ⟨k1, k2⟩ := m.node y hy
    refine ⟨k1, ?_⟩
    by_cases e' : y = x
    · exact ⟨q, o, i, by simp only [RoadMem.write, if_pos e'], ho, hi⟩
    · simp only [RoadMem.write, if_neg e']; exact k2
  · obtain ⟨k1, k2⟩ := m.edge y hy
    have : y ≠ x := fun h => hne y hy (h ▸ hx)
    refine ⟨k1, ?_⟩
    simp only [RoadMem.write, if_neg this]; exact k2
  · simp only [RoadMem.write, if_neg hxn]; exact m.nn.2

theorem linkOut_ok {e a b : Addr} (m : Mid h r e a b) (hne : ∀ y ∈ r.edges, y ∉ r.nodes) (ha : a ∈ r.nodes) :
    ∃ h', linkOut h e a b = .ok h' ∧ Mid h' r e a b ∧ h'.live = h.live ∧ (∀ x, x ≠ a → h'.cell x = h.cell x) ∧
      ∀ x q o i, h.cell x = .node q o i → ∃ o' i', h'.cell x = .node q o' i' := by
  obtain ⟨k1, q, o, i, k2, k3, k4⟩ := m.node a ha
  obtain ⟨y, hy⟩ := ends_ok m o k3
  have e1 : readNode h a = .ok (q, o, i) := by simp only [readNode, if_pos k1, k2]
  simp only [linkOut, e1, hy]
  split
  · exact ⟨h, rfl, m, rfl, fun _ _ => rfl, fun _ _ o i e => ⟨o, i, e⟩⟩
  · refine ⟨_, rfl, m.write hne ha q _ _ (fun y hy => ?_) k4, rfl, fun x hx => by simp only [write, if_neg hx], fun x q' o' i' e' => ?_⟩
    · rcases List.mem_append.1 hy with h | h
      · exact k3 y h
      · exact Or.inr (List.mem_singleton.1 h)
    · by_cases hx : x = a
      · rw [hx, k2] at e'
        injection e' with e1
        exact ⟨o ++ [e], i, by simp only [write, if_pos hx, e1]⟩
      · exact ⟨o', i', by simp only [write, if_neg hx]; exact e'⟩

theorem linkIn_ok {e a b : Addr} (m : Mid h r e a b) (hne : ∀ y ∈ r.edges, y ∉ r.nodes) (hb : b ∈ r.nodes) :
    ∃ h', linkIn h e a b = .ok h' ∧ Mid h' r e a b ∧ h'.live = h.live ∧ (∀ x, x ≠ b → h'.cell x = h.cell x) ∧
      ∀ x q o i, h.cell x = .node q o i → ∃ o' i', h'.cell x = .node q o' i' := by
  obtain ⟨k1, q, o, i, k2, k3, k4⟩ := m.node b hb
  obtain ⟨y, hy⟩ := ends_ok m i k4
  have e1 : readNode h b = .ok (q, o, i) := by simp only [readNode, if_pos k1, k2]
  simp only [linkIn, e1, hy]
  split
  · exact ⟨h, rfl, m, rfl, fun _ _ => rfl, fun _ _ o i e => ⟨o, i, e⟩⟩
  · refine ⟨_, rfl, m.write hne hb q _ _ k3 (fun y hy => ?_), rfl, fun x hx => by simp only [write, if_neg hx], fun x q' o' i' e' => ?_⟩
    · rcases List.mem_append.1 hy with h | h
      · exact k4 y h
      · exact Or.inr (List.mem_singleton.1 h)
    · by_cases hx : x = b
      · rw [hx, k2] at e'
        injection e' with e1
        exact ⟨o, i ++ [e], by simp only [write, if_pos hx, e1]⟩
      · exact ⟨o', i', by simp only [write, if_neg hx]; exact e'⟩

theorem addEdge_ok (hP : P.Ok) (k : Own h r) {a b : Addr} (ha : a ∈ r.nodes) (hb : b ∈ r.nodes) :
    ∃ h' r', addEdge P h r a b = .ok (h', r') ∧ Step h r h' r' ∧ r'.nodes = r.nodes ∧ Keeps h r h' r' := by
  have hfresh := hP.alloc h.live
  generalize he : P.alloc h.live = e at hfresh
  have ho : ∀ x, r.Owns x → x ≠ e := fun x hx e' => hfresh (e' ▸ owns_live k hx)
  have hne : ∀ y ∈ r.edges, y ∉ r.nodes := fun y hy hn => node_ne_edge k hn hy
  have e2 : (new P h (.edge a b)).2 = e := he
  have hcell : ∀ x, x ≠ e → (new P h (.edge a b)).1.cell x = h.cell x := by intro x hx; simp [new, he, hx]
  have hlive : (new P h (.edge a b)).1.live = insert e h.live := by simp [new, he]
  have m0 : Mid (new P h (.edge a b)).1 r e a b := by
    refine ⟨fun hr => ho e hr rfl, ⟨by rw [hlive]; simp, by simp [new, he]⟩, fun x hx => ?_, fun x hx => ?_, ?_⟩
    · obtain ⟨k1, q, o, i, k2, k3, k4⟩ := k.node x hx
      exact ⟨by rw [hlive]; exact Finset.mem_insert_of_mem k1, q, o, i, by rw [hcell x (ho x (Or.inl hx))]; exact k2, fun y hy => Or.inl (k3 y hy), fun y hy => Or.inl (k4 y hy)⟩
    · obtain ⟨k1, k2⟩ := k.edge x hx
      exact ⟨by rw [hlive]; exact Finset.mem_insert_of_mem k1, by rw [hcell x (ho x (Or.inr (Or.inl hx)))]; exact k2⟩
    · exact ⟨by rw [hlive]; exact Finset.mem_insert_of_mem k.nn.1, by rw [hcell _ (ho _ (Or.inr (Or.inr rfl)))]; exact k.nn.2⟩
  obtain ⟨h1, g1, m1, l1, c1, p1⟩ := linkOut_ok m0 hne ha
  obtain ⟨h2, g2, m2, l2, c2, p2⟩ := linkIn_ok m1 hne hb
  have own : Own h2 { r with edges := r.edges ++ [e], comps := P.group r.comps a b } := by
    refine ⟨k.nodup, ?_, fun x hx => ?_, fun x hx => ?_, m2.nn, k.init, k.goals, fun x => ?_⟩
    · exact List.nodup_append.2 ⟨k.nodupE, by simp, by
        intro x hx y hy e'
        rw [List.mem_singleton.1 hy] at e'
        exact ho x (Or.inr (Or.inl hx)) e'⟩
    · obtain ⟨k1, q, o, i, k2, k3, k4⟩ := m2.node x hx
      exact ⟨k1, q, o, i, k2, fun y hy => by simpa using k3 y hy, fun y hy => by simpa using k4 y hy⟩
    · rcases List.mem_append.1 hx with hx | hx
      · exact m2.edge x hx
      · rw [List.mem_singleton.1 hx]
        exact ⟨m2.live.1, a, b, m2.live.2, ha, hb⟩
    · rw [hP.group]; exact k.comps x
  obtain ⟨y, hy, -⟩ := readConfigs_ok own r.comps.flatten fun x hx => (k.comps x).1 hx
  refine ⟨h2, _, ?_, ⟨own, fun x hx hr => ?_, fun x hx => ?_⟩, rfl, ⟨fun x hx => ⟨hx, fun q o i e' => ?_⟩, fun x hx => ⟨List.mem_append_left _ hx, ?_⟩⟩⟩
  · simp only [addEdge, e2, g1, g2, hy]
  · have hxe : x ≠ e := fun h => hfresh (h ▸ hx)
    have hxa : x ≠ a := fun h => hr (Or.inl (h ▸ ha))
    have hxb : x ≠ b := fun h => hr (Or.inl (h ▸ hb))
    refine ⟨by rw [l2, l1, hlive]; exact Finset.mem_insert_of_mem hx, by rw [c2 x hxb, c1 x hxa, hcell x hxe], ?_⟩
    rintro (h | h | h)
    · exact hr (Or.inl h)
    · rcases List.mem_append.1 h with h | h
      · exact hr (Or.inr (Or.inl h))
      · exact hxe (List.mem_singleton.1 h)
    · exact hr (Or.inr (Or.inr h))
  · rw [l2, l1, hlive] at hx
    rcases Finset.mem_insert.1 hx with rfl | hx
    · exact Or.inl (Or.inr (Or.inl (by simp)))
    · by_cases hr : r.Owns x
      · left
        rcases hr with h | h | h
        · exact Or.inl h
        · exact Or.inr (Or.inl (List.mem_append_left _ h))
        · exact Or.inr (Or.inr h)
      · exact Or.inr ⟨hx, hr⟩
  · obtain ⟨o', i', e1⟩ := p1 x q o i (by rw [hcell x (ho x (Or.inl hx))]; exact e')
    exact p2 x q o' i' e1
  · rw [c2 x fun e' => hne x hx (e' ▸ hb), c1 x fun e' => hne x hx (e' ▸ ha), hcell x (ho x (Or.inr (Or.inl hx)))]

theorem addEdges_ok (hP : P.Ok) (k : Own h r) {a b : Addr} (ha : a ∈ r.nodes) (hb : b ∈ r.nodes) :
    ∃ h' r', addEdges P h r a b = .ok (h', r') ∧ Step h r h' r' ∧ r'.nodes = r.nodes ∧ Keeps h r h' r' := by
  obtain ⟨h1, r1, e1, s1, n1, p1⟩ := addEdge_ok hP k ha hb
  obtain ⟨h2, r2, e2, s2, n2, p2⟩ := addEdge_ok hP s1.own (a := b) (b := a) (by rw [n1]; exact hb) (by rw [n1]; exact ha)
  exact ⟨h2, r2, by simp only [addEdges, e1, e2], s1.trans s2, n2.trans n1, p1.trans p2⟩

theorem freeAll_ok (l : List Addr) (hl : ∀ a ∈ l, a ∈ h.live) (hn : l.Nodup) : ∃ h', freeAll h l = .ok h' ∧ h'.cell = h.cell ∧ ∀ a, a ∈ h'.live ↔ a ∈ h.live ∧ a ∉ l := by
  induction l generalizing h with
  | nil => exact ⟨h, rfl, rfl, by simp⟩
  | cons a l ih =>
    obtain ⟨n1, n2⟩ := List.nodup_cons.1 hn
    obtain ⟨h', k1, k2, k3⟩ := ih (h := { h with live := h.live.erase a }) (fun b hb => Finset.mem_erase.2 ⟨fun e => n1 (e ▸ hb), hl b (by simp [hb])⟩) n2
    refine ⟨h', by simp only [freeAll, free, if_pos (hl a (by simp)), k1], k2, fun b => ?_⟩
    rw [k3]
    simp only [Finset.mem_erase, List.mem_cons, not_or]
    tauto

theorem clear_ok (k : Own h r) : ∃ h' r', clear h r = .ok (h', r') ∧ Step h r h' r' ∧ r' = ⟨[], [], none, [], [], r.nn⟩ := by
  obtain ⟨h1, e1, c1, l1⟩ := freeAll_ok r.nodes (fun a ha => (k.node a ha).1) k.nodup
  obtain ⟨h2, e2, c2, l2⟩ := freeAll_ok (h := h1) r.edges (fun a ha => (l1 a).2 ⟨(k.edge a ha).1, fun hn => node_ne_edge k hn ha⟩) k.nodupE
  obtain ⟨n1, t, l, n2, n3⟩ := k.nn
  have hl : ∀ a, a ∈ h2.live ↔ a ∈ h.live ∧ a ∉ r.nodes ∧ a ∉ r.edges := by intro a; rw [l2, l1]; tauto
  have hnn : r.nn ∈ h2.live := (hl _).2 ⟨n1, fun h => node_ne_nn k h rfl, fun h => edge_ne_nn k h rfl⟩
  have hr : readNN h2 r.nn = .ok (t, l) := by simp only [readNN, if_pos hnn, c2, c1, n2]
  refine ⟨write h2 r.nn (.nn t []), _, by simp only [clear, e1, e2, hr], ⟨?_, fun a ha hr => ?_, fun a ha => ?_⟩, rfl⟩
  · refine ⟨by simp, by simp, by simp, by simp, ⟨hnn, t, [], by simp [write], by simp⟩, by simp, by simp, by simp⟩
  · have h3 : a ≠ r.nn := fun h => hr (Or.inr (Or.inr h))
    refine ⟨(hl a).2 ⟨ha, fun h => hr (Or.inl h), fun h => hr (Or.inr (Or.inl h))⟩, by simp only [write, if_neg h3, c2, c1], ?_⟩
    rintro (h | h | h)
    · simp at h
    · simp at h
    · exact h3 h
  · have h3 := (hl a).1 ha
    by_cases e : a = r.nn
    · exact Or.inl (Or.inr (Or.inr e))
    · refine Or.inr ⟨h3.1, ?_⟩
      rintro (h | h | h)
      · exact h3.2.1 h
      · exact h3.2.2 h
      · exact e h

theorem mergeNodes_ok (hP : P.Ok) (k : Own h r) {h0 : Heap Q} {r0 : RM} (st : Step h0 r0 h r) {r2 : RM} (k2 : Own h0 r2) (hd : ∀ a, r2.Owns a → ¬ r0.Owns a) (l : List Addr)
    (hl : ∀ a ∈ l, a ∈ r2.nodes) (m : Addr → Addr) (done : List Addr) (hm : ∀ a ∈ done, m a ∈ r.nodes) :
    ∃ h' r' m', mergeNodes P l h r m = .ok (h', r', m') ∧ Step h r h' r' ∧ (∀ a, a ∈ done ∨ a ∈ l → m' a ∈ r'.nodes) ∧ Keeps h r h' r' := by
  induction l generalizing h r m done with
  | nil => exact ⟨h, r, m, rfl, Step.refl k, fun a ha => hm a (by simpa using ha), Keeps.refl h r⟩
  | cons a l ih =>
    have ha := hl a (by simp)
    obtain ⟨f1, f2, -⟩ := st.frame a (owns_live k2 (Or.inl ha)) (hd a (Or.inl ha))
    obtain ⟨-, q, o, i, c, -⟩ := k2.node a ha
    have hr : readNode h a = .ok (q, o, i) := by simp only [readNode, if_pos f1, f2, c]
    obtain ⟨h1, r1, n, e1, s1, n1, n2⟩ := addNode_ok hP k q
    obtain ⟨h2, r2', m', e2, s2, n3, p2⟩ := ih s1.own (st.trans s1) (fun b hb => hl b (by simp [hb])) (fun b => if b = a then n else m b) (a :: done) (by
      intro b hb
      show (if b = a then n else m b) ∈ _
      split
      · exact n1
      · next hne => exact (n2.node _ (hm b ((List.mem_cons.1 hb).resolve_left hne))).1)
    refine ⟨h2, r2', m', by simp only [mergeNodes, hr, e1, e2], s1.trans s2, fun b hb => n3 b ?_, n2.trans p2⟩
    simp only [List.mem_cons] at hb ⊢
    tauto

theorem mergeEdges_ok (hP : P.Ok) (k : Own h r) {h0 : Heap Q} {r0 : RM} (st : Step h0 r0 h r) {r2 : RM} (k2 : Own h0 r2) (hd : ∀ a, r2.Owns a → ¬ r0.Owns a) (skip : Addr → Bool)
    (m : Addr → Addr) (hm : ∀ a ∈ r2.nodes, m a ∈ r.nodes) (l : List Addr) (hl : ∀ e ∈ l, e ∈ r2.edges) :
    ∃ h' r', mergeEdges P m skip l h r = .ok (h', r') ∧ Step h r h' r' ∧ Keeps h r h' r' := by
  induction l generalizing h r with
  | nil => exact ⟨h, r, rfl, Step.refl k, Keeps.refl h r⟩
  | cons e l ih =>
    have he := hl e (by simp)
    obtain ⟨f1, f2, -⟩ := st.frame e (owns_live k2 (Or.inr (Or.inl he))) (hd e (Or.inr (Or.inl he)))
    obtain ⟨-, s, d, c, hs, hd'⟩ := k2.edge e he
    have hr : readEdge h e = .ok (s, d) := by simp only [readEdge, if_pos f1, f2, c]
    simp only [mergeEdges, hr]
    split
    · exact ih k st hm fun b hb => hl b (by simp [hb])
    · obtain ⟨h1, r1, e1, s1, n1, p1⟩ := addEdges_ok hP k (hm s hs) (hm d hd')
      obtain ⟨h2, r2', e2, s2, p2⟩ := ih s1.own (st.trans s1) (by rw [n1]; exact hm) fun b hb => hl b (by simp [hb])
      exact ⟨h2, r2', by simp only [e1, e2], s1.trans s2, p1.trans p2⟩

theorem insertFrom_ok (hP : P.Ok) (both : Bool) (k : Own h r) (l : List Q) {n : Addr} (hn : n ∈ r.nodes) :
    ∃ h' r', insertFrom P both l h r n = .ok (h', r') ∧ Step h r h' r' ∧ Keeps h r h' r' := by
  induction l generalizing h r n with
  | nil => exact ⟨h, r, rfl, Step.refl k, Keeps.refl h r⟩
  | cons q l ih =>
    obtain ⟨h1, r1, m, e1, s1, m1, p1⟩ := addNodeIn_ok hP k hn q
    have : ∃ h2 r2, (if both then addEdges P h1 r1 n m else addEdge P h1 r1 n m) = .ok (h2, r2) ∧ Step h1 r1 h2 r2 ∧ r2.nodes = r1.nodes ∧ Keeps h1 r1 h2 r2 := by
      cases both with
      | true => exact addEdges_ok hP s1.own (p1.node n hn).1 m1
      | false => exact addEdge_ok hP s1.own (p1.node n hn).1 m1
    obtain ⟨h2, r2, e2, s2, n2, p2⟩ := this
    obtain ⟨h3, r3, e3, s3, p3⟩ := ih s2.own (n := m) (by rw [n2]; exact m1)
    exact ⟨h3, r3, by simp only [insertFrom, e1, e2, e3], (s1.trans s2).trans s3, (p1.trans p2).trans p3⟩

/-- A call on one roadmap among others. -/
theorem Good.put {s : State Q} (g : Good s) {i : Nat} {r : RM} (hi : s.maps i = some r) {h' : Heap Q} {r' : RM} (st : Step s.heap r h' r') : Good (RoadMem.put s i (h', r')) := by
  have other : ∀ j rj, j ≠ i → s.maps j = some rj → ∀ a, rj.Owns a → a ∈ s.heap.live ∧ ¬ r.Owns a := fun j rj hj hr a ha =>
    ⟨owns_live (g.own j rj hr) ha, g.apart j i rj r hr hi hj a ha⟩
  have hmaps : ∀ j rj, (RoadMem.put s i (h', r')).maps j = some rj → (j = i ∧ rj = r') ∨ (j ≠ i ∧ s.maps j = some rj) := by
    intro j rj hj
    simp only [RoadMem.put] at hj
    split at hj
    · next e => exact Or.inl ⟨e, (Option.some.inj hj).symm⟩
    · next e => exact Or.inr ⟨e, hj⟩
  refine ⟨fun j rj hj => ?_, fun j1 j2 r1 r2 h1 h2 hne a => ?_, ⟨g.mine.1, fun a ha => ?_⟩, fun a ha => ?_⟩
  · rcases hmaps j rj hj with ⟨-, rfl⟩ | ⟨e, hj⟩
    · exact st.own
    · have k := g.own j rj hj
      have fr : ∀ a, rj.Owns a → a ∈ h'.live ∧ h'.cell a = s.heap.cell a := fun a ha =>
        ⟨(st.frame a (other j rj e hj a ha).1 (other j rj e hj a ha).2).1, (st.frame a (other j rj e hj a ha).1 (other j rj e hj a ha).2).2.1⟩
      refine ⟨k.nodup, k.nodupE, fun a ha => ?_, fun a ha => ?_, ?_, k.init, k.goals, k.comps⟩
      · obtain ⟨f1, f2⟩ := fr a (Or.inl ha)
        exact ⟨f1, by simp only [RoadMem.put, f2]; exact (k.node a ha).2⟩
      · obtain ⟨f1, f2⟩ := fr a (Or.inr (Or.inl ha))
        exact ⟨f1, by simp only [RoadMem.put, f2]; exact (k.edge a ha).2⟩
      · obtain ⟨f1, f2⟩ := fr rj.nn (Or.inr (Or.inr rfl))
        exact ⟨f1, by simp only [RoadMem.put, f2]; exact k.nn.2⟩
  · rcases hmaps j1 r1 h1 with ⟨e1, rfl⟩ | ⟨e1, k1⟩ <;> rcases hmaps j2 r2 h2 with ⟨e2, rfl⟩ | ⟨e2, k2⟩
    · exact absurd (e1.trans e2.symm) hne
    · intro ha hb
      exact (st.frame a (other j2 r2 e2 k2 a hb).1 (other j2 r2 e2 k2 a hb).2).2.2 ha
    · intro ha
      exact (st.frame a (other j1 r1 e1 k1 a ha).1 (other j1 r1 e1 k1 a ha).2).2.2
    · exact g.apart j1 j2 r1 r2 k1 k2 hne a
  · obtain ⟨m1, ⟨t, m2⟩, m3⟩ := g.mine.2 a ha
    obtain ⟨f1, f2, f3⟩ := st.frame a m1 (m3 i r hi)
    refine ⟨f1, ⟨t, f2.trans m2⟩, fun j rj hj => ?_⟩
    rcases hmaps j rj hj with ⟨-, rfl⟩ | ⟨-, k⟩
    · exact f3
    · exact m3 j rj k
  · rcases st.kept a ha with k | ⟨k1, k2⟩
    · exact Or.inr ⟨i, r', by simp [RoadMem.put], k⟩
    · rcases g.kept a k1 with k | ⟨j, rj, hj, k⟩
      · exact Or.inl k
      · have : j ≠ i := by
          rintro rfl
          rw [hi] at hj
          exact k2 (Option.some.inj hj ▸ k)
        exact Or.inr ⟨j, rj, by simp [RoadMem.put, this, hj], k⟩

/-- Result of a call: `t`: the roadmap that it changes, `er`: the roadmap that it empties. -/
structure Result (s : State Q) (t er : Option Nat) (s' : State Q) : Prop where
  good : Good s'
  others : ∀ j rj, s.maps j = some rj → t ≠ some j → s'.maps j = some rj ∧ ∀ a, rj.Owns a → a ∈ s'.heap.live ∧ s'.heap.cell a = s.heap.cell a
  keeps : ∀ j rj, s.maps j = some rj → er ≠ some j → ∃ r', s'.maps j = some r' ∧ Keeps s.heap rj s'.heap r'

theorem Keeps.same {h h' : Heap Q} {r : RM} (e : ∀ a, r.Owns a → h'.cell a = h.cell a) : Keeps h r h' r :=
  ⟨fun a ha => ⟨ha, fun _ o i c => ⟨o, i, (e a (Or.inl ha)).trans c⟩⟩, fun a ha => ⟨ha, e a (Or.inr (Or.inl ha))⟩⟩

theorem Result.refl {s : State Q} (g : Good s) (t er : Option Nat) : Result s t er s :=
  ⟨g, fun j rj hj _ => ⟨hj, fun _ ha => ⟨owns_live (g.own j rj hj) ha, rfl⟩⟩, fun _ rj hj _ => ⟨rj, hj, Keeps.refl _ _⟩⟩

/-- A call on one roadmap. -/
theorem Result.put {s : State Q} (g : Good s) {i : Nat} {r : RM} (hi : s.maps i = some r) {h' : Heap Q} {r' : RM} (st : Step s.heap r h' r') (er : Option Nat)
    (kp : er ≠ some i → Keeps s.heap r h' r') : Result s (some i) er (RoadMem.put s i (h', r')) := by
  have ot : ∀ j rj, s.maps j = some rj → j ≠ i → (RoadMem.put s i (h', r')).maps j = some rj ∧ ∀ a, rj.Owns a → a ∈ h'.live ∧ h'.cell a = s.heap.cell a := by
    intro j rj hj hne
    refine ⟨by simp [RoadMem.put, hne, hj], fun a ha => ?_⟩
    obtain ⟨f1, f2, -⟩ := st.frame a (owns_live (g.own j rj hj) ha) (g.apart j i rj r hj hi hne a ha)
    exact ⟨f1, f2⟩
  refine ⟨g.put hi st, fun j rj hj hne => ot j rj hj fun e => hne (by rw [e]), fun j rj hj hne => ?_⟩
  by_cases e : j = i
  · subst e
    rw [hi] at hj
    cases hj
    exact ⟨r', by simp [RoadMem.put], kp hne⟩
  · exact ⟨rj, (ot j rj hj e).1, Keeps.same fun a ha => ((ot j rj hj e).2 a ha).2⟩

theorem Own.mono {h h' : Heap Q} {r : RM} (k : Own h r) (e : ∀ a, r.Owns a → a ∈ h'.live ∧ h'.cell a = h.cell a) : Own h' r := by
  refine ⟨k.nodup, k.nodupE, fun a ha => ?_, fun a ha => ?_, ?_, k.init, k.goals, k.comps⟩
  · obtain ⟨f1, f2⟩ := e a (Or.inl ha)
    exact ⟨f1, by rw [f2]; exact (k.node a ha).2⟩
  · obtain ⟨f1, f2⟩ := e a (Or.inr (Or.inl ha))
    exact ⟨f1, by rw [f2]; exact (k.edge a ha).2⟩
  · obtain ⟨f1, f2⟩ := e r.nn (Or.inr (Or.inr rfl))
    exact ⟨f1, by rw [f2]; exact k.nn.2⟩

theorem new_frame (hP : P.Ok) (h : Heap Q) (o : Obj Q) : (new P h o).2 ∉ h.live ∧ (new P h o).1.live = insert (new P h o).2 h.live ∧ (new P h o).1.cell (new P h o).2 = o ∧
    ∀ a ∈ h.live, (new P h o).1.cell a = h.cell a := by
  refine ⟨hP.alloc _, rfl, by simp [new], fun a ha => ?_⟩
  have : a ≠ P.alloc h.live := fun e => hP.alloc h.live (e ▸ ha)
  simp [new, this]

theorem create_ok (hP : P.Ok) {s : State Q} (g : Good s) {i : Nat} (hi : s.maps i = none) : Result s (some i) none (put s i (create P s.heap)) := by
  obtain ⟨n1, n2, n3, n4⟩ := new_frame hP s.heap (.nn false [])
  set x := new P s.heap (.nn false []) with hx
  have hc : create P s.heap = (x.1, ⟨[], [], none, [], [], x.2⟩) := rfl
  rw [hc]
  have hmaps : ∀ j rj, (put s i (x.1, ⟨[], [], none, [], [], x.2⟩)).maps j = some rj → (j = i ∧ rj = ⟨[], [], none, [], [], x.2⟩) ∨ (j ≠ i ∧ s.maps j = some rj) := by
    intro j rj hj
    simp only [put] at hj
    split at hj
    · next e => exact Or.inl ⟨e, (Option.some.inj hj).symm⟩
    · next e => exact Or.inr ⟨e, hj⟩
  have ne : ∀ j rj, s.maps j = some rj → j ≠ i := by rintro j rj hj rfl; rw [hi] at hj; cases hj
  have fr : ∀ j rj, s.maps j = some rj → ∀ a, rj.Owns a → a ∈ x.1.live ∧ x.1.cell a = s.heap.cell a := fun j rj hj a ha => by
    have := owns_live (g.own j rj hj) ha
    exact ⟨by rw [n2]; exact Finset.mem_insert_of_mem this, n4 a this⟩
  have ownNew : ∀ a, (⟨[], [], none, [], [], x.2⟩ : RM).Owns a → a = x.2 := by rintro a (h | h | h) <;> simp_all
  refine ⟨⟨fun j rj hj => ?_, fun j1 j2 r1 r2 h1 h2 hne a ha hb => ?_, ⟨g.mine.1, fun a ha => ?_⟩, fun a ha => ?_⟩, fun j rj hj _ => ⟨by simp [put, ne j rj hj, hj], fr j rj hj⟩,
    fun j rj hj _ => ⟨rj, by simp [put, ne j rj hj, hj], Keeps.same fun a ha => (fr j rj hj a ha).2⟩⟩
  · rcases hmaps j rj hj with ⟨-, rfl⟩ | ⟨-, hj⟩
    · exact ⟨by simp, by simp, by simp, by simp, ⟨by simp only [put]; rw [n2]; simp, false, [], n3, by simp⟩, by simp, by simp, by simp⟩
    · exact (g.own j rj hj).mono (fr j rj hj)
  · rcases hmaps j1 r1 h1 with ⟨e1, rfl⟩ | ⟨e1, k1⟩ <;> rcases hmaps j2 r2 h2 with ⟨e2, rfl⟩ | ⟨e2, k2⟩
    · exact hne (e1.trans e2.symm)
    · exact n1 (ownNew a ha ▸ owns_live (g.own _ _ k2) hb)
    · exact n1 (ownNew a hb ▸ owns_live (g.own _ _ k1) ha)
    · exact g.apart j1 j2 r1 r2 k1 k2 hne a ha hb
  · obtain ⟨m1, ⟨t, m2⟩, m3⟩ := g.mine.2 a ha
    refine ⟨by simp only [put]; rw [n2]; exact Finset.mem_insert_of_mem m1, ⟨t, (n4 a m1).trans m2⟩, fun j rj hj => ?_⟩
    rcases hmaps j rj hj with ⟨-, rfl⟩ | ⟨-, k⟩
    · exact fun h => n1 (ownNew a h ▸ m1)
    · exact m3 j rj k
  · simp only [put] at ha
    rw [n2] at ha
    rcases Finset.mem_insert.1 ha with rfl | ha
    · exact Or.inr ⟨i, ⟨[], [], none, [], [], x.2⟩, by simp [put], Or.inr (Or.inr rfl)⟩
    · rcases g.kept a ha with k | ⟨j, rj, hj, k⟩
      · exact Or.inl k
      · exact Or.inr ⟨j, rj, by simp [put, ne j rj hj, hj], k⟩

theorem newNN_ok (hP : P.Ok) {s : State Q} (g : Good s) (tree : Bool) :
    Result s none none { s with heap := (new P s.heap (.nn tree [])).1, mine := (new P s.heap (.nn tree [])).2 :: s.mine } := by
  obtain ⟨n1, n2, n3, n4⟩ := new_frame hP s.heap (.nn tree [])
  set x := new P s.heap (.nn tree []) with hx
  have fr : ∀ j rj, s.maps j = some rj → ∀ a, rj.Owns a → a ∈ x.1.live ∧ x.1.cell a = s.heap.cell a := fun j rj hj a ha => by
    have := owns_live (g.own j rj hj) ha
    exact ⟨by rw [n2]; exact Finset.mem_insert_of_mem this, n4 a this⟩
  refine ⟨⟨fun j rj hj => (g.own j rj hj).mono (fr j rj hj), g.apart, ⟨?_, fun a ha => ?_⟩, fun a ha => ?_⟩, fun j rj hj _ => ⟨hj, fr j rj hj⟩,
    fun j rj hj _ => ⟨rj, hj, Keeps.same fun a ha => (fr j rj hj a ha).2⟩⟩
  · exact List.nodup_cons.2 ⟨fun h => n1 (g.mine.2 _ h).1, g.mine.1⟩
  · rcases List.mem_cons.1 ha with rfl | ha
    · exact ⟨by simp only; rw [n2]; simp, ⟨tree, n3⟩, fun j rj hj h => n1 (owns_live (g.own j rj hj) h)⟩
    · obtain ⟨m1, ⟨t, m2⟩, m3⟩ := g.mine.2 a ha
      exact ⟨by simp only; rw [n2]; exact Finset.mem_insert_of_mem m1, ⟨t, (n4 a m1).trans m2⟩, m3⟩
  · simp only at ha
    rw [n2] at ha
    rcases Finset.mem_insert.1 ha with rfl | ha
    · exact Or.inl (by simp)
    · rcases g.kept a ha with k | k
      · exact Or.inl (by simp [k])
      · exact Or.inr k

/-- A roadmap without nodes has no edges. -/
theorem no_edges (k : Own h r) (hn : r.nodes = []) : r.edges = [] := by
  refine List.eq_nil_iff_forall_not_mem.2 fun e he => ?_
  obtain ⟨-, s, d, -, hs, -⟩ := k.edge e he
  rw [hn] at hs
  simp at hs

theorem owns_empty (hn : r.nodes = []) (he : r.edges = []) {a : Addr} : r.Owns a ↔ a = r.nn := by simp [RM.Owns, hn, he]

/-- Replacement of the nearest neighbour object of a roadmap without nodes. -/
theorem setNN_ok {s : State Q} (g : Good s) {i : Nat} {r : RM} (hi : s.maps i = some r) (hn : r.nodes = []) {a : Addr} (ha : a ∈ s.mine) (er : Option Nat) :
    r.nn ∈ s.heap.live ∧ Result s (some i) er { put s i ({ s.heap with live := s.heap.live.erase r.nn }, { r with nn := a }) with mine := s.mine.erase a } := by
  have k := g.own i r hi
  have he := no_edges k hn
  have hro : ∀ x, r.Owns x ↔ x = r.nn := fun x => owns_empty hn he
  have hro' : ∀ x, ({ r with nn := a } : RM).Owns x ↔ x = a := fun x => owns_empty (r := { r with nn := a }) hn he
  obtain ⟨m1, ⟨t, m2⟩, m3⟩ := g.mine.2 a ha
  have hne : a ≠ r.nn := fun e => m3 i r hi ((hro a).2 e)
  set s' : State Q := { put s i ({ s.heap with live := s.heap.live.erase r.nn }, { r with nn := a }) with mine := s.mine.erase a } with hs'
  have hmaps : ∀ j rj, s'.maps j = some rj → (j = i ∧ rj = { r with nn := a }) ∨ (j ≠ i ∧ s.maps j = some rj) := by
    intro j rj hj
    simp only [hs', put] at hj
    split at hj
    · next e => exact Or.inl ⟨e, (Option.some.inj hj).symm⟩
    · next e => exact Or.inr ⟨e, hj⟩
  have keep : ∀ j rj, s.maps j = some rj → j ≠ i → s'.maps j = some rj := by intro j rj hj hne; simp [hs', put, hne, hj]
  have fr : ∀ j rj, s.maps j = some rj → j ≠ i → ∀ x, rj.Owns x → x ∈ s'.heap.live ∧ s'.heap.cell x = s.heap.cell x := fun j rj hj hji x hx =>
    ⟨Finset.mem_erase.2 ⟨fun e => g.apart j i rj r hj hi hji x hx ((hro x).2 e), owns_live (g.own j rj hj) hx⟩, rfl⟩
  refine ⟨k.nn.1, ⟨fun j rj hj => ?_, fun j1 j2 r1 r2 h1 h2 hne' x hx hy => ?_, ⟨g.mine.1.erase a, fun x hx => ?_⟩, fun x hx => ?_⟩, fun j rj hj hji => ?_, fun j rj hj _ => ?_⟩
  · rcases hmaps j rj hj with ⟨-, rfl⟩ | ⟨hji, hj⟩
    · refine ⟨k.nodup, k.nodupE, ?_, ?_, ⟨Finset.mem_erase.2 ⟨hne, m1⟩, t, [], m2, by simp [hn]⟩, k.init, k.goals, k.comps⟩
      · simp [hn]
      · simp [he]
    · exact (g.own j rj hj).mono (fr j rj hj hji)
  · rcases hmaps j1 r1 h1 with ⟨e1, rfl⟩ | ⟨e1, k1⟩ <;> rcases hmaps j2 r2 h2 with ⟨e2, rfl⟩ | ⟨e2, k2⟩
    · exact hne' (e1.trans e2.symm)
    · exact m3 _ _ k2 ((hro' x).1 hx ▸ hy)
    · exact m3 _ _ k1 ((hro' x).1 hy ▸ hx)
    · exact g.apart j1 j2 r1 r2 k1 k2 hne' x hx hy
  · have hxm : x ∈ s.mine := List.mem_of_mem_erase hx
    have hxa : x ≠ a := fun e => (List.Nodup.mem_erase_iff g.mine.1).1 (show x ∈ s.mine.erase a from hx) |>.1 e
    obtain ⟨q1, q2, q3⟩ := g.mine.2 x hxm
    refine ⟨Finset.mem_erase.2 ⟨fun e => q3 i r hi ((hro x).2 e), q1⟩, q2, fun j rj hj => ?_⟩
    rcases hmaps j rj hj with ⟨-, rfl⟩ | ⟨-, hj⟩
    · exact fun h => hxa ((hro' x).1 h)
    · exact q3 j rj hj
  · obtain ⟨x1, x2⟩ := Finset.mem_erase.1 hx
    by_cases e : x = a
    · exact Or.inr ⟨i, { r with nn := a }, by simp [hs', put], (hro' x).2 e⟩
    · rcases g.kept x x2 with q | ⟨j, rj, hj, q⟩
      · exact Or.inl ((List.Nodup.mem_erase_iff g.mine.1).2 ⟨e, q⟩)
      · have : j ≠ i := by
          rintro rfl
          rw [hi] at hj
          cases hj
          exact x1 ((hro x).1 q)
        exact Or.inr ⟨j, rj, keep j rj hj this, q⟩
  · have hji' : j ≠ i := fun e => hji (by rw [e])
    exact ⟨keep j rj hj hji', fr j rj hj hji'⟩
  · by_cases e : j = i
    · subst e
      rw [hi] at hj
      cases hj
      exact ⟨{ r with nn := a }, by simp [hs', put], ⟨fun x hx => absurd hx (by simp [hn]), fun x hx => absurd hx (by simp [he])⟩⟩
    · exact ⟨rj, keep j rj hj e, Keeps.same fun x hx => (fr j rj hj e x hx).2⟩

/-- Removal of a roadmap without nodes. -/
theorem drop_ok {s : State Q} (g : Good s) {i : Nat} {r : RM} (hi : s.maps i = some r) (hn : r.nodes = []) :
    r.nn ∈ s.heap.live ∧ Result s (some i) (some i) { s with heap := { s.heap with live := s.heap.live.erase r.nn }, maps := fun j => if j = i then none else s.maps j } := by
  have k := g.own i r hi
  have he := no_edges k hn
  have hro : ∀ x, r.Owns x ↔ x = r.nn := fun x => owns_empty hn he
  set s' : State Q := { s with heap := { s.heap with live := s.heap.live.erase r.nn }, maps := fun j => if j = i then none else s.maps j } with hs'
  have hmaps : ∀ j rj, s'.maps j = some rj → j ≠ i ∧ s.maps j = some rj := by
    intro j rj hj
    simp only [hs'] at hj
    split at hj
    · cases hj
    · next e => exact ⟨e, hj⟩
  have keep : ∀ j rj, s.maps j = some rj → j ≠ i → s'.maps j = some rj := by intro j rj hj hne; simp [hs', hne, hj]
  have fr : ∀ j rj, s.maps j = some rj → j ≠ i → ∀ x, rj.Owns x → x ∈ s'.heap.live ∧ s'.heap.cell x = s.heap.cell x := fun j rj hj hji x hx =>
    ⟨Finset.mem_erase.2 ⟨fun e => g.apart j i rj r hj hi hji x hx ((hro x).2 e), owns_live (g.own j rj hj) hx⟩, rfl⟩
  refine ⟨k.nn.1, ⟨fun j rj hj => ?_, fun j1 j2 r1 r2 h1 h2 => ?_, ⟨g.mine.1, fun x hx => ?_⟩, fun x hx => ?_⟩, fun j rj hj hji => ?_, fun j rj hj hji => ?_⟩
  · exact (g.own j rj (hmaps j rj hj).2).mono (fr j rj (hmaps j rj hj).2 (hmaps j rj hj).1)
  · exact g.apart j1 j2 r1 r2 (hmaps _ _ h1).2 (hmaps _ _ h2).2
  · obtain ⟨q1, q2, q3⟩ := g.mine.2 x hx
    exact ⟨Finset.mem_erase.2 ⟨fun e => q3 i r hi ((hro x).2 e), q1⟩, q2, fun j rj hj => q3 j rj (hmaps j rj hj).2⟩
  · obtain ⟨x1, x2⟩ := Finset.mem_erase.1 hx
    rcases g.kept x x2 with q | ⟨j, rj, hj, q⟩
    · exact Or.inl q
    · have : j ≠ i := by
        rintro rfl
        rw [hi] at hj
        cases hj
        exact x1 ((hro x).1 q)
      exact Or.inr ⟨j, rj, keep j rj hj this, q⟩
  · have hji' : j ≠ i := fun e => hji (by rw [e])
    exact ⟨keep j rj hj hji', fr j rj hj hji'⟩
  · have hji' : j ≠ i := fun e => hji (by rw [e])
    exact ⟨rj, keep j rj hj hji', Keeps.same fun x hx => (fr j rj hj hji' x hx).2⟩

/-- The roadmap that a call may change. -/
def changes : Op Q → Option Nat
  | .newNN _ | .pathExists _ => none
  | .create i | .setNN i _ | .addNode i _ | .addNodeAndEdge i _ _ | .addNodeAndEdges i _ _ | .addNodeAndEdgeFrom i _ _ | .addEdge i _ _ | .addEdges i _ _ | .initNode i _ | .addGoal i _
  | .resetGoals i | .clear i | .destroy i | .merge i _ _ | .insertPath i _ _ _ => some i

/-- The roadmap that a call empties. -/
def empties : Op Q → Option Nat
  | .clear i | .destroy i => some i
  | _ => none

theorem Step.init {h' : Heap Q} {r' : RM} (st : Step h r h' r') {n : Addr} (hn : n ∈ r'.nodes) : Step h r h' { r' with init := some n } :=
  ⟨⟨st.own.nodup, st.own.nodupE, st.own.node, st.own.edge, st.own.nn, fun a ha => by cases ha; exact hn, st.own.goals, st.own.comps⟩, st.frame, st.kept⟩

theorem Step.goals {h' : Heap Q} {r' : RM} (st : Step h r h' r') {l : List Addr} (hn : ∀ n ∈ l, n ∈ r'.nodes) : Step h r h' { r' with goals := l } :=
  ⟨⟨st.own.nodup, st.own.nodupE, st.own.node, st.own.edge, st.own.nn, st.own.init, hn, st.own.comps⟩, st.frame, st.kept⟩

/-- C142, one call: it does not fault, and every object is accounted for after it; other roadmaps are not touched; pointers to nodes and edges stay valid unless the roadmap is emptied. -/
theorem C142_call_partial (hP : P.Ok) {s : State Q} (g : Good s) (o : Op Q) (ho : Respects s o) : ∃ s', step P s o = .ok s' ∧ Result s (changes o) (empties o) s' := by
  cases o with
  | create i =>
    cases hi : s.maps i with
    | some r => exact ⟨s, by simp only [step, hi], Result.refl g _ _⟩
    | none => exact ⟨_, by simp only [step, hi], create_ok hP g hi⟩
  | newNN tree => exact ⟨_, rfl, newNN_ok hP g tree⟩
  | setNN i a =>
    cases hi : s.maps i with
    | none => exact ⟨s, by simp only [step, hi], Result.refl g _ _⟩
    | some r =>
      by_cases hn : r.nodes = []
      · cases a with
        | none =>
          refine ⟨put s i (s.heap, r), by simp [step, hi, setNN, hn, put], ?_⟩
          exact Result.put g hi (Step.refl (g.own i r hi)) _ fun _ => Keeps.refl _ _
        | some a =>
          obtain ⟨h1, h2⟩ := setNN_ok g hi hn ho none
          exact ⟨_, by simp [step, hi, setNN, hn, free, h1], h2⟩
      · refine ⟨put s i (s.heap, r), by simp [step, hi, setNN, hn, put], ?_⟩
        exact Result.put g hi (Step.refl (g.own i r hi)) _ fun _ => Keeps.refl _ _
  | addNode i q =>
    cases hi : s.maps i with
    | none => exact ⟨s, by simp only [step, hi], Result.refl g _ _⟩
    | some r =>
      obtain ⟨h', r', n, e, st, -, kp⟩ := addNode_ok hP (g.own i r hi) q
      exact ⟨_, by simp only [step, hi, e], Result.put g hi st _ fun _ => kp⟩
  | addNodeAndEdge i src q =>
    cases hi : s.maps i with
    | none => exact ⟨s, by simp only [step, hi], Result.refl g _ _⟩
    | some r =>
      obtain ⟨h', r', n, e, st, hn, kp⟩ := addNodeIn_ok hP (g.own i r hi) (ho r hi) q
      obtain ⟨h2, r2, e2, st2, -, kp2⟩ := addEdge_ok hP st.own (kp.node _ (ho r hi)).1 hn
      exact ⟨_, by simp only [step, hi, e, e2], Result.put g hi (st.trans st2) _ fun _ => kp.trans kp2⟩
  | addNodeAndEdges i src q =>
    cases hi : s.maps i with
    | none => exact ⟨s, by simp only [step, hi], Result.refl g _ _⟩
    | some r =>
      obtain ⟨h', r', n, e, st, hn, kp⟩ := addNodeIn_ok hP (g.own i r hi) (ho r hi) q
      obtain ⟨h2, r2, e2, st2, -, kp2⟩ := addEdges_ok hP st.own (kp.node _ (ho r hi)).1 hn
      exact ⟨_, by simp only [step, hi, e, e2], Result.put g hi (st.trans st2) _ fun _ => kp.trans kp2⟩
  | addNodeAndEdgeFrom i q dst =>
    cases hi : s.maps i with
    | none => exact ⟨s, by simp only [step, hi], Result.refl g _ _⟩
    | some r =>
      obtain ⟨h', r', n, e, st, hn, kp⟩ := addNodeIn_ok hP (g.own i r hi) (ho r hi) q
      obtain ⟨h2, r2, e2, st2, -, kp2⟩ := addEdge_ok hP st.own hn (kp.node _ (ho r hi)).1
      exact ⟨_, by simp only [step, hi, e, e2], Result.put g hi (st.trans st2) _ fun _ => kp.trans kp2⟩
  | addEdge i a b =>
    cases hi : s.maps i with
    | none => exact ⟨s, by simp only [step, hi], Result.refl g _ _⟩
    | some r =>
      obtain ⟨h2, r2, e2, st2, -, kp2⟩ := addEdge_ok hP (g.own i r hi) (ho r hi).1 (ho r hi).2
      exact ⟨_, by simp only [step, hi, e2], Result.put g hi st2 _ fun _ => kp2⟩
  | addEdges i a b =>
    cases hi : s.maps i with
    | none => exact ⟨s, by simp only [step, hi], Result.refl g _ _⟩
    | some r =>
      obtain ⟨h2, r2, e2, st2, -, kp2⟩ := addEdges_ok hP (g.own i r hi) (ho r hi).1 (ho r hi).2
      exact ⟨_, by simp only [step, hi, e2], Result.put g hi st2 _ fun _ => kp2⟩
  | initNode i q =>
    cases hi : s.maps i with
    | none => exact ⟨s, by simp only [step, hi], Result.refl g _ _⟩
    | some r =>
      obtain ⟨h', r', n, e, st, hn, kp⟩ := addNode_ok hP (g.own i r hi) q
      exact ⟨_, by simp only [step, hi, e], Result.put g hi (st.init hn) _ fun _ => ⟨kp.node, kp.edge⟩⟩
  | addGoal i q =>
    cases hi : s.maps i with
    | none => exact ⟨s, by simp only [step, hi], Result.refl g _ _⟩
    | some r =>
      obtain ⟨h', r', n, e, st, hn, kp⟩ := addNode_ok hP (g.own i r hi) q
      refine ⟨_, by simp only [step, hi, e], Result.put g hi (st.goals (l := r'.goals ++ [n]) fun x hx => ?_) _ fun _ => ⟨kp.node, kp.edge⟩⟩
      rcases List.mem_append.1 hx with hx | hx
      · exact st.own.goals x hx
      · rw [List.mem_singleton.1 hx]; exact hn
  | resetGoals i =>
    cases hi : s.maps i with
    | none => exact ⟨s, by simp only [step, hi], Result.refl g _ _⟩
    | some r => exact ⟨_, by simp only [step, hi], Result.put g hi ((Step.refl (g.own i r hi)).goals (l := []) (by simp)) _ fun _ => ⟨(Keeps.refl _ _).node, (Keeps.refl _ _).edge⟩⟩
  | clear i =>
    cases hi : s.maps i with
    | none => exact ⟨s, by simp only [step, hi], Result.refl g _ _⟩
    | some r =>
      obtain ⟨h', r', e, st, -⟩ := clear_ok (g.own i r hi)
      exact ⟨_, by simp only [step, hi, e], Result.put g hi st _ fun h => absurd rfl h⟩
  | destroy i =>
    cases hi : s.maps i with
    | none => exact ⟨s, by simp only [step, hi], Result.refl g _ _⟩
    | some r =>
      obtain ⟨h', r', e, st, er⟩ := clear_ok (g.own i r hi)
      have R := Result.put g hi st (some i) fun h => absurd rfl h
      obtain ⟨d1, d2⟩ := drop_ok R.good (i := i) (r := r') (by simp [put]) (by rw [er])
      have d1' : r'.nn ∈ h'.live := d1
      have em : (fun j => if j = i then none else (put s i (h', r')).maps j) = fun j => if j = i then none else s.maps j := by
        funext j
        by_cases hj : j = i <;> simp [put, hj]
      rw [em] at d2
      refine ⟨_, by simp only [step, hi, destroy, e, free, if_pos d1']; rfl, d2.good, fun j rj hj hne => ?_, fun j rj hj hne => ?_⟩
      · obtain ⟨k1, k2⟩ := R.others j rj hj hne
        obtain ⟨k3, k4⟩ := d2.others j rj k1 hne
        exact ⟨k3, fun a ha => ⟨(k4 a ha).1, (k4 a ha).2.trans (k2 a ha).2⟩⟩
      · obtain ⟨rj', k1, k2⟩ := R.keeps j rj hj hne
        obtain ⟨rj2, k3, k4⟩ := d2.keeps j rj' k1 hne
        exact ⟨rj2, k3, k2.trans k4⟩
  | merge i j skip =>
    cases hi : s.maps i with
    | none => exact ⟨s, by simp only [step, hi], Result.refl g _ _⟩
    | some r =>
      cases hj : s.maps j with
      | none => exact ⟨s, by simp only [step, hi, hj], Result.refl g _ _⟩
      | some r2 =>
        have k := g.own i r hi
        have k2 := g.own j r2 hj
        have hd : ∀ a, r2.Owns a → ¬ r.Owns a := g.apart j i r2 r hj hi (Ne.symm ho)
        obtain ⟨h1, r1, m, e1, st1, hm, kp1⟩ := mergeNodes_ok hP k (Step.refl k) k2 hd r2.nodes (fun a ha => ha) id [] (by simp)
        obtain ⟨h3, r3, e3, st3, kp3⟩ := mergeEdges_ok hP st1.own st1 k2 hd skip m (fun a ha => hm a (Or.inr ha)) r2.edges fun e he => he
        exact ⟨_, by simp only [step, hi, hj, e1, e3], Result.put g hi (st1.trans st3) _ fun _ => kp1.trans kp3⟩
  | pathExists i =>
    cases hi : s.maps i with
    | none => exact ⟨s, by simp only [step, hi], Result.refl g _ _⟩
    | some r =>
      have k := g.own i r hi
      obtain ⟨a, ha⟩ := Option.ne_none_iff_exists'.1 (ho r hi)
      obtain ⟨y, hy, -⟩ := readConfigs_ok k (a :: r.goals) (by
        intro x hx
        rcases List.mem_cons.1 hx with rfl | hx
        · exact k.init _ ha
        · exact k.goals x hx)
      exact ⟨s, by simp only [step, hi, pathExists, ha, hy], Result.refl g _ _⟩
  | insertPath i both q l =>
    cases hi : s.maps i with
    | none => exact ⟨s, by simp only [step, hi], Result.refl g _ _⟩
    | some r =>
      obtain ⟨h1, r1, n, e1, st1, hn, kp1⟩ := addNode_ok hP (g.own i r hi) q
      obtain ⟨h2, r2, e2, st2, kp2⟩ := insertFrom_ok hP both st1.own l hn
      exact ⟨_, by simp only [step, hi, e1, e2], Result.put g hi (st1.trans st2) _ fun _ => kp1.trans kp2⟩

theorem good_start (c : Addr → Obj Q) : Good (start c) := ⟨by simp [start], by simp [start], by simp [start], by simp [start]⟩

/-- C142: a program that respects the rules never faults, whatever the allocator does, and every object is accounted for after it.  Partial: without the rules it does (see below). -/
theorem C142_history_partial (hP : P.Ok) (l : List (Op Q)) (s : State Q) (g : Good s) (hl : RespectsAll P l s) : ∃ s', run P l s = .ok s' ∧ Good s' := by
  induction l generalizing s with
  | nil => exact ⟨s, rfl, g⟩
  | cons o l ih =>
    obtain ⟨s1, e1, R⟩ := C142_call_partial hP g o hl.1
    obtain ⟨s2, e2, g2⟩ := ih s1 R.good (hl.2 s1 e1)
    exact ⟨s2, by simp only [run, e1, e2], g2⟩

/-- C142: once a program has destroyed its roadmaps and given its nearest neighbour objects, nothing is left in memory. -/
theorem C142_no_leak_partial (hP : P.Ok) (c : Addr → Obj Q) (l : List (Op Q)) (hl : RespectsAll P l (start c)) {s : State Q} (e : run P l (start c) = .ok s) (hm : ∀ i, s.maps i = none)
    (hn : s.mine = []) : s.heap.live = ∅ := by
  obtain ⟨s', e', g⟩ := C142_history_partial hP l _ (good_start c) hl
  rw [e] at e'
  cases e'
  refine Finset.eq_empty_iff_forall_notMem.2 fun a ha => ?_
  rcases g.kept a ha with h | ⟨i, r, hi, -⟩
  · rw [hn] at h; simp at h
  · rw [hm i] at hi; cases hi

/-- C142: a node and an edge given by a roadmap stay valid, with the same configuration and the same ends, as long as the roadmap is neither emptied nor destroyed. -/
theorem C142_pointers_partial (hP : P.Ok) (l : List (Op Q)) (s : State Q) (g : Good s) (hl : RespectsAll P l s) (i : Nat) (hk : ∀ o ∈ l, empties o ≠ some i) {r : RM} (hi : s.maps i = some r) :
    ∃ s' r', run P l s = .ok s' ∧ s'.maps i = some r' ∧ Keeps s.heap r s'.heap r' := by
  induction l generalizing s r with
  | nil => exact ⟨s, r, rfl, hi, Keeps.refl _ _⟩
  | cons o l ih =>
    obtain ⟨s1, e1, R⟩ := C142_call_partial hP g o hl.1
    obtain ⟨r1, h1, k1⟩ := R.keeps i r hi (hk o (by simp))
    obtain ⟨s2, r2, e2, h2, k2⟩ := ih s1 R.good (hl.2 s1 e1) (fun o ho => hk o (by simp [ho])) h1
    exact ⟨s2, r2, by simp only [run, e1, e2], h2, k1.trans k2⟩

/-- C142: what is released by `clear`: the nodes and edges of the roadmap, all of them and nothing else. -/
theorem C142_clear {s s' : State Q} (g : Good s) {i : Nat} {r : RM} (hi : s.maps i = some r) (e : step P s (.clear i) = .ok s') :
    ∀ a, a ∈ s'.heap.live ↔ a ∈ s.heap.live ∧ a ∉ r.nodes ∧ a ∉ r.edges := by
  have k := g.own i r hi
  obtain ⟨h', r', e1, st, er⟩ := clear_ok k
  simp only [step, hi, e1] at e
  cases e
  intro a
  constructor
  · intro ha
    rcases st.kept a ha with h | ⟨h1, h2⟩
    · rw [owns_empty (by rw [er]) (by rw [er])] at h
      rw [er] at h
      subst h
      exact ⟨k.nn.1, fun h => node_ne_nn k h rfl, fun h => edge_ne_nn k h rfl⟩
    · exact ⟨h1, fun h => h2 (Or.inl h), fun h => h2 (Or.inr (Or.inl h))⟩
  · rintro ⟨h1, h2, h3⟩
    by_cases hn : a = r.nn
    · have := st.own.nn.1
      rw [er] at this
      rw [hn]
      exact this
    · refine (st.frame a h1 ?_).1
      rintro (h | h | h)
      · exact h2 h
      · exact h3 h
      · exact hn h

/-- C142: what is released by the destructor: the objects of the roadmap, all of them and nothing else. -/
theorem C142_destroy {s s' : State Q} (g : Good s) {i : Nat} {r : RM} (hi : s.maps i = some r) (e : step P s (.destroy i) = .ok s') :
    s'.maps i = none ∧ ∀ a, a ∈ s'.heap.live ↔ a ∈ s.heap.live ∧ ¬ r.Owns a := by
  have k := g.own i r hi
  obtain ⟨h', r', e1, st, er⟩ := clear_ok k
  have hc := C142_clear (P := P) (s' := put s i (h', r')) g hi (by simp only [step, hi, e1])
  have hn : r'.nn = r.nn := by rw [er]
  have hl : r'.nn ∈ h'.live := st.own.nn.1
  simp only [step, hi, destroy, e1, free, if_pos hl] at e
  cases e
  refine ⟨by simp, fun a => ?_⟩
  have := hc a
  simp only [put] at this
  simp only [Finset.mem_erase, this, RM.Owns, hn]
  tauto

/-! ## Examples and counterexamples -/

/-- An allocator that gives released addresses again, a search by equality, components that are joined. -/
def ex : Params Nat :=
  ⟨fun s => s.sup id + 1, fun q l => if (l.filter fun x => x.2 == q) = [] then (l.map (·.1)).headD 0 else ((l.filter fun x => x.2 == q).map (·.1)).headD 0,
    fun c a b => (c.filter fun x => !(decide (a ∈ x) || decide (b ∈ x))) ++ [(c.filter fun x => decide (a ∈ x) || decide (b ∈ x)).flatten]⟩

theorem ex_ok : ex.Ok := by
  refine ⟨fun s h => ?_, fun q l hl => ?_, fun c a b x => ?_⟩
  · have := Finset.le_sup (f := id) h
    exact absurd this (Nat.not_succ_le_self _)
  · have hd : ∀ (l : List (Addr × Nat)), l ≠ [] → (l.map (·.1)).headD 0 ∈ l.map (·.1) := by
      intro l hl
      obtain ⟨z, l, rfl⟩ := List.exists_cons_of_ne_nil hl
      simp
    simp only [ex]
    split
    · exact hd l hl
    · next h =>
      have := hd _ h
      obtain ⟨y, hy, e⟩ := List.mem_map.1 this
      exact List.mem_map.2 ⟨y, (List.mem_filter.1 hy).1, e⟩
  · simp only [ex, List.flatten_append, List.mem_append, List.mem_flatten, List.mem_filter, List.mem_singleton]
    constructor
    · rintro (⟨l, ⟨h1, -⟩, h2⟩ | ⟨l, rfl, h2⟩)
      · exact ⟨l, h1, h2⟩
      · obtain ⟨l, hl, h2⟩ := List.mem_flatten.1 h2
        exact ⟨l, (List.mem_filter.1 hl).1, h2⟩
    · rintro ⟨l, h1, h2⟩
      by_cases h : (decide (a ∈ l) || decide (b ∈ l)) = true
      · exact Or.inr ⟨_, rfl, List.mem_flatten.2 ⟨l, List.mem_filter.2 ⟨h1, h⟩, h2⟩⟩
      · exact Or.inl ⟨l, ⟨h1, by simpa using h⟩, h2⟩

def fault {α : Type} : Except Fault α → Option Fault
  | .ok _ => none
  | .error e => some e

def live : Except Fault (State Nat) → Option (Finset Addr)
  | .ok s => some s.heap.live
  | .error _ => none

def exStart : State Nat := start fun _ => .edge 0 0

/-- C142 without the rules: giving to a roadmap the nearest neighbour object that it already has leaves it with a released object: the next insertion faults, and so does the destructor. -/
theorem C142_same_nn_counterexample :
    fault (run ex [.create 0, .newNN true, .setNN 0 (some 2), .setNN 0 (some 2), .addNode 0 7] exStart) = some .dangling ∧
    fault (run ex [.create 0, .newNN true, .setNN 0 (some 2), .setNN 0 (some 2), .destroy 0] exStart) = some .dangling := by decide

/-- C142 without the rules: two roadmaps that share a nearest neighbour object: the second destructor faults. -/
theorem C142_shared_nn_counterexample :
    fault (run ex [.create 0, .create 1, .newNN true, .setNN 0 (some 3), .setNN 1 (some 3), .destroy 0, .destroy 1] exStart) = some .dangling := by decide

/-- C142 without the rules: nodes kept across `clear` are dangling. -/
theorem C142_kept_node_counterexample :
    fault (run ex [.create 0, .addNode 0 7, .addNode 0 8, .clear 0, .addEdge 0 2 3] exStart) = some .dangling := by decide

/-- C142 without the rules: an edge to a node of another roadmap is accepted, and makes a later call on the other roadmap fault, once the first roadmap has been cleared. -/
theorem C142_foreign_node_counterexample :
    fault (run ex [.create 0, .create 1, .addNode 0 7, .addNode 1 8, .addNode 1 9, .addEdge 0 3 4] exStart) = none ∧
    fault (run ex [.create 0, .create 1, .addNode 0 7, .addNode 1 8, .addNode 1 9, .addEdge 0 3 4, .clear 0, .addNode 1 10, .addEdge 1 5 4] exStart) = some .dangling := by decide

/-- C142 without the rules: `pathExists` before an init node is set accesses the null pointer. -/
theorem C142_no_init_counterexample : fault (run ex [.create 0, .addNode 0 7, .addGoal 0 8, .pathExists 0] exStart) = some .null := by decide

/-- Two roadmaps, a k-d tree, a merge, everything released; addresses are used again after `clear`. -/
def prog : List (Op Nat) :=
  [.create 0, .create 1, .newNN true, .setNN 0 (some 3), .initNode 0 7, .addGoal 0 8, .addNodeAndEdges 0 4 9, .addEdge 0 4 5, .insertPath 0 true 7 [6, 9], .pathExists 0, .merge 1 0 (fun _ => false), .clear 0, .addNode 0 7,
    .destroy 0, .destroy 1]

/-- Decision of the rules. -/
def okB (s : State Nat) : Op Nat → Bool
  | .setNN _ (some a) => decide (a ∈ s.mine)
  | .addNodeAndEdge i a _ | .addNodeAndEdges i a _ | .addNodeAndEdgeFrom i _ a => match s.maps i with
    | some r => decide (a ∈ r.nodes)
    | none => true
  | .addEdge i a b | .addEdges i a b => match s.maps i with
    | some r => decide (a ∈ r.nodes ∧ b ∈ r.nodes)
    | none => true
  | .merge i j _ => decide (i ≠ j)
  | .pathExists i => match s.maps i with
    | some r => r.init.isSome
    | none => true
  | _ => true

def allB (P : Params Nat) : List (Op Nat) → State Nat → Bool
  | [], _ => true
  | o :: l, s => okB s o && match step P s o with
    | .ok s' => allB P l s'
    | .error _ => true

theorem okB_ok {s : State Nat} {o : Op Nat} (h : okB s o = true) : Respects s o := by
  cases o with
  | setNN i a => cases a with
    | none => trivial
    | some a => simpa [okB, Respects] using h
  | addNodeAndEdge i a q => intro r hr; simpa [okB, hr] using h
  | addNodeAndEdges i a q => intro r hr; simpa [okB, hr] using h
  | addNodeAndEdgeFrom i q a => intro r hr; simpa [okB, hr] using h
  | addEdge i a b => intro r hr; simpa [okB, hr] using h
  | addEdges i a b => intro r hr; simpa [okB, hr] using h
  | merge i j k => simpa [okB, Respects] using h
  | pathExists i => intro r hr e; simp [okB, hr, e] at h
  | _ => trivial

theorem allB_ok {P : Params Nat} {l : List (Op Nat)} {s : State Nat} (h : allB P l s = true) : RespectsAll P l s := by
  induction l generalizing s with
  | nil => trivial
  | cons o l ih =>
    simp only [allB, Bool.and_eq_true] at h
    refine ⟨okB_ok h.1, fun s' e => ih ?_⟩
    have := h.2
    rw [e] at this
    exact this

/-- The program respects the rules: its run is covered by the theorems. -/
example : RespectsAll ex prog exStart := allB_ok (by decide)
example : ∃ s, run ex prog exStart = .ok s ∧ Good s := C142_history_partial ex_ok prog _ (good_start _) (allB_ok (by decide))
example : ((live (run ex (prog.take 13) exStart)).map Finset.card) = some 21 := by decide
example : live (run ex prog exStart) = some ∅ := by decide

end Verif.RoadMem
