import Verif.Roadmap.Model
import Mathlib.Algebra.Order.Group.Defs
import Mathlib.Algebra.BigOperators.Group.List.Basic
import Mathlib.Data.List.Sort

/-!
# A* search in a roadmap (src/astar.hh)

The search reads the roadmap only through `initNode()`, `goalNodes()`, `Node::outEdges()`, `Edge::from/to/path`; node pointers are node
ranks as in `Verif.Roadmap`.  `std::map` look-ups with `operator[]` on an absent key create the value 0: the two
cost maps are total functions with initial value 0.
-/
namespace Verif.AStar
open Verif.Roadmap (Edge)
variable {Q P K : Type} [AddCommGroup K] [LinearOrder K]

/-- Members of `Astar`: src/astar.hh:47-51. -/
structure State (P K : Type) where
  closed : List Nat
  opn : List Nat
  cost : Nat → K
  est : Nat → K
  parent : Nat → Option (Edge P)

/-- What the search reads. -/
structure Input (P K : Type) where
  out : Nat → List (Edge P)
  init : Nat
  goals : List Nat
  /-- `edgeCost`: src/astar.hh:151, `edge->path()->length()`. -/
  len : P → K
  /-- `heuristic`: src/astar.hh:137-149. -/
  heur : Nat → K

/-- `isGoal`: src/astar.hh:88-96. -/
def isGoal (I : Input P K) (n : Nat) : Bool := I.goals.any (fun g => g == n)

/-- Reset and first insertion: src/astar.hh:99-105. -/
def start (I : Input P K) : State P K :=
  { closed := [], opn := [I.init], cost := fun _ => 0, est := fun _ => 0, parent := fun _ => none }

/-- Body of the loop on the out edges of `current`: src/astar.hh:117-131. -/
def relax (I : Input P K) (current : Nat) (s : State P K) (e : Edge P) : State P K :=
  if e.dst ∈ s.closed then s
  else
    let tmpCost := s.cost current + I.len e.path
    let notOpen : Bool := decide (e.dst ∉ s.opn)
    if notOpen = true ∨ tmpCost < s.cost e.dst then
      { s with
        parent := Roadmap.set s.parent e.dst (some e)
        cost := Roadmap.set s.cost e.dst tmpCost
        est := Roadmap.set s.est e.dst (tmpCost + I.heur e.dst)
        opn := if notOpen then s.opn ++ [e.dst] else s.opn }
    else s

/-- `open_.sort`: a stable sort (`std::list::sort`) by `estimatedCostToGoal_`: src/astar.hh:107. -/
def sortOpen (s : State P K) : List Nat := s.opn.insertionSort (fun a b => s.est a ≤ s.est b)

/-- Outcome of `findPath`: a goal node, the exception "A* failed to find a solution to the goal.", or the fuel of the model is exhausted. -/
inductive Outcome (P K : Type) where
  | found (n : Nat) (s : State P K)
  | failed
  | outOfFuel

/-- Loop of `findPath`: src/astar.hh:98-135. -/
def loop (I : Input P K) : Nat → State P K → Outcome P K
  | 0, _ => .outOfFuel
  | f + 1, s =>
    match sortOpen s with
    | [] => .failed
    | current :: rest =>
      if isGoal I current then .found current s
      else loop I f ((I.out current).foldl (relax I current) { s with opn := rest, closed := s.closed ++ [current] })

/-- `findPath`: src/astar.hh:98-135. -/
def findPath (I : Input P K) (fuel : Nat) : Outcome P K := loop I fuel (start I)

/-- Loop following the parents: src/astar.hh:63-71.  `none`: fuel of the model exhausted. -/
def trace (parent : Nat → Option (Edge P)) : Nat → Nat → List (Edge P) → Option (List (Edge P))
  | 0, _, _ => none
  | f + 1, n, acc =>
    match parent n with
    | none => some acc
    | some e => trace parent f e.src (e :: acc)

/-- Outcome of `solution`. -/
inductive Solution (P : Type) where
  | path (goal : Nat) (edges : List (Edge P))
  | failed
  | outOfFuel

/-- `solution`: src/astar.hh:59-77 (the paths of the edges are appended in order to the path vector). -/
def solution (I : Input P K) (fuel : Nat) : Solution P :=
  match findPath I fuel with
  | .failed => .failed
  | .outOfFuel => .outOfFuel
  | .found n s =>
    match trace s.parent fuel n [] with
    | none => .outOfFuel
    | some es => .path n es

/-- Loop of `heuristic`: src/astar.hh:140-147; `inf` stands for the infinity of `double`. -/
def heuristicLoop (dist : Q → Q → K) (q : Q) : List Q → K → K
  | [], res => res
  | g :: gs, res => if dist q g < res then heuristicLoop dist q gs (dist q g) else heuristicLoop dist q gs res

/-- `heuristic`: src/astar.hh:137-149, with the configurations of the nodes of the roadmap (a node always has one). -/
def heuristic (dist : Q → Q → K) (inf : K) (r : Roadmap.Roadmap Q P) (n : Nat) : K :=
  match r.configs[n]? with
  | none => inf
  | some q => heuristicLoop dist q (r.goals.filterMap (fun g => r.configs[g]?)) inf

/-- The search on a roadmap whose init node is `i`. -/
def ofRoadmap (r : Roadmap.Roadmap Q P) (i : Nat) (len : P → K) (heur : Nat → K) : Input P K :=
  { out := r.out, init := i, goals := r.goals, len := len, heur := heur }

end Verif.AStar
