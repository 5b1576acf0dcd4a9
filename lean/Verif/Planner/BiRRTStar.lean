import Verif.Planner.ShortestTree
set_option linter.unusedSectionVars false

/-!
# `pathPlanner::BiRrtStar` (C66, C67, C83)

Two trees rooted at the init node and at the goal node grow until they are connected; then new nodes improve the costs from both roots.
-/
namespace Verif.Planner.Star
open Verif.Roadmap Verif.Planner
variable {Q P K : Type} [DecidableEq Q] [AddCommGroup K] [LinearOrder K] [IsOrderedAddMonoid K]

/-! ## Model -/

/-- External calls and parameters of BiRRT*.
* `adjust x q`: the configuration after the projection loop of `extend` around the configuration `x` (bi-rrt-star.cc:329-341), `q` without constraints;
* `radius n`: radius of the ball for a roadmap of `n` nodes (352-355, 447-450);
* `maxLen`, `minLen`: `extendMaxLength_`, `minimalPathLength_`; `eps`: 1e-16;
* `between k x y z`: configuration sampled near the best path at step `k` (252-267), from the configurations of three consecutive nodes. -/
structure SEnv (Q P K : Type) extends PEnv Q P K where
  adjust : Q → Q → Q
  radius : Nat → K
  maxLen : K
  minLen : K
  eps : K
  between : Nat → Q → Q → Q → Q

/-- Assumptions: those common to the planners, and lengths are not negative and not changed by `reverse`; the minimal length is positive. -/
structure SContract (C : SEnv Q P K) (Valid : P → Prop) : Prop where
  base : Contract C.toPEnv Valid
  nonneg : ∀ p, 0 ≤ C.len p
  rev : ∀ p, C.len (C.rev p) = C.len p
  minLen : 0 < C.minLen

/-- Path projection: bi-rrt-star.cc:291-299. -/
def project (C : PEnv Q P K) (p : P) : Bool × Option P := match C.projector with
  | none => (true, some p)
  | some f => f p

/-- Reduction to a maximal length: bi-rrt-star.cc:301-304 (`none`: negative argument). -/
def cut (C : PEnv Q P K) (l : Option K) (p : P) : P := match l with
  | none => p
  | some l => if 0 < l ∧ l < C.len p then C.extract p (C.t0 p) (C.t0 p + l) else p

/-- `buildPath`: bi-rrt-star.cc:281-319; the Boolean and the path (`none`: null pointer). -/
def buildPath (C : PEnv Q P K) (a b : Q) (l : Option K) (validatePath : Bool) : Bool × Option P :=
  match C.steer a b with
  | none => (false, none)
  | some p => match project C p with
    | (_, none) => (false, none)
    | (ok, some p) =>
      if validatePath then (ok && (C.validate false (cut C l p)).1, some (C.validate false (cut C l p)).2)
      else (ok, some (cut C l p))

/-- An element of `nearNodes` with the element of `paths` of the same rank: node, whether validation was run, path. -/
abbrev Entry (P : Type) := Nat × Bool × Option P

/-- State of the loop on the close nodes: best parent, path from it, cost, `paths`. -/
structure Scan (P K : Type) where
  near : Nat
  path : P
  cost : K
  paths : List (Entry P)

/-- Loop on the close nodes: bi-rrt-star.cc:360-393 (`extend`) and 464-495 (`improve`).  `cmp` gives the node compared to the elements of the list and its
path: `near`, `path` in `extend` (364-369), `nearQ`, `nearQ_qnew` in `improve` (467-471). -/
def scan (C : PEnv Q P K) (configs : List Q) (cost : Nat → Except SErr K) (q : Q) (cmp : Scan P K → Nat × P) : List Nat → Scan P K → Except SErr (Scan P K)
  | [], s => .ok s
  | n :: ns, s =>
    if n = (cmp s).1 then scan C configs cost q cmp ns { s with paths := s.paths ++ [(n, true, some (cmp s).2)] }
    else match configs[n]? with
      | none => .error (.road .badNode)
      | some x => match buildPath C x q none false with
        | (false, _) => scan C configs cost q cmp ns { s with paths := s.paths ++ [(n, false, none)] }
        | (true, none) => .error (.road .nullPointer)
        | (true, some p) => match cost n with
          | .error e => .error e
          | .ok c =>
            if c + C.len p < s.cost then
              if (C.validate false p).1 then scan C configs cost q cmp ns ⟨n, p, c + C.len p, s.paths ++ [(n, true, some p)]⟩
              else scan C configs cost q cmp ns { s with paths := s.paths ++ [(n, true, none)] }
            else scan C configs cost q cmp ns { s with paths := s.paths ++ [(n, false, some p)] }

/-- Insertion of an edge in the roadmap, returning it: `Roadmap::addEdge`. -/
def newEdge (r : Roadmap Q P) (a b : Nat) (p : P) : Except SErr (Roadmap Q P × Edge P) := match addEdge r a b p with
  | .error e => .error (.road e)
  | .ok r' => .ok (r', ⟨r.edges.length, a, b, p⟩)

/-- Loop that changes the parent of the close nodes: bi-rrt-star.cc:402-417, 504-520. -/
def rewire (C : PEnv Q P K) (nnew near : Nat) (costq : K) : List (Entry P) → Roadmap Q P → PMap P → Except SErr (Roadmap Q P × PMap P)
  | [], r, m => .ok (r, m)
  | (_, _, none) :: l, r, m => rewire C nnew near costq l r m
  | (n, b, some p) :: l, r, m =>
    if n = near then rewire C nnew near costq l r m
    else match computeCost C.len m (r.configs.length + 1) n with
      | .error e => .error e
      | .ok c =>
        if costq + C.len p < c ∧ (b = true ∨ (C.validate false p).1 = true) then match newEdge r n nnew p with
          | .error e => .error e
          | .ok (r1, _) => match newEdge r1 nnew n (C.rev p) with
            | .error e => .error e
            | .ok (r2, e) => match setParent m n (some e) false with
              | .error e => .error e
              | .ok m' => rewire C nnew near costq l r2 m'
        else rewire C nnew near costq l r m

/-- Insertion of the edges of the new node, of its parent, and change of the parents of the close nodes: bi-rrt-star.cc:396-418, 497-520.  The Boolean is false
when the map already has the node. -/
def attach (C : PEnv Q P K) (nnew : Nat) (s : Scan P K) (r : Roadmap Q P) (m : PMap P) : Except SErr (Roadmap Q P × PMap P × Bool) :=
  match newEdge r s.near nnew s.path with
  | .error e => .error e
  | .ok (r1, e) => match newEdge r1 nnew s.near (C.rev s.path) with
    | .error e => .error e
    | .ok (r2, _) =>
      if m nnew ≠ none then .ok (r2, m, false)
      else match setParent m nnew (some e) true with
        | .error e => .error e
        | .ok m1 => match rewire C nnew s.near s.cost s.paths r2 m1 with
          | .error e => .error e
          | .ok (r3, m2) => .ok (r3, m2, true)

/-- `Roadmap::nodesWithinBall` for a component: basic.cc:170-181. -/
def ball (C : PEnv Q P K) (r : Roadmap Q P) (q : Q) (c : Nat) (rad : K) : List Nat :=
  NN.withinBall (fun n => match r.configs[n]? with
    | none => rad
    | some x => C.dist x q) rad (r.comp c).nodes

/-- `extend`: bi-rrt-star.cc:321-419.  Returns the roadmap, the parent map, the configuration and the Boolean. -/
def extend (C : SEnv Q P K) (target : Nat) (q : Q) (r : Roadmap Q P) (m : PMap P) : Except SErr (Roadmap Q P × PMap P × Q × Bool) :=
  match search C.toEnv r q (r.cc target) false with
  | none => .error (.road .nullPointer)
  | some (d, near) =>
    if d < C.eps then .ok (r, m, q, false)
    else match r.configs[near]? with
      | none => .error (.road .badNode)
      | some x => match (buildPath C.toPEnv x (C.adjust x q) (some C.maxLen) true).2 with
        | none => .ok (r, m, C.adjust x q, false)
        | some p =>
          if C.len p < C.minLen then .ok (r, m, C.adjust x q, false)
          else match computeCost C.len m (r.configs.length + 1) near with
            | .error e => .error e
            | .ok c => match scan C.toPEnv r.configs (fun n => computeCost C.len m (r.configs.length + 1) n) (C.fin p) (fun s => (s.near, s.path))
                (ball C.toPEnv r (C.fin p) (r.cc target) (C.radius r.configs.length)) ⟨near, p, c + C.len p, []⟩ with
              | .error e => .error e
              | .ok s => match addNode C.toEnv r (C.fin p) with
                | .error e => .error (.road e)
                | .ok (r1, nnew) => match attach C.toPEnv nnew s r1 m with
                  | .error e => .error e
                  | .ok (r2, m', b) => .ok (r2, m', C.fin p, b)

/-- `connect`: bi-rrt-star.cc:421-431.  The first argument bounds the number of iterations. -/
def connectLoop (C : SEnv Q P K) (b : Nat) (q : Q) : Nat → Roadmap Q P → PMap P → Except SErr (Roadmap Q P × PMap P × Bool)
  | 0, _, _ => .error .fuel
  | f + 1, r, m =>
    if r.live.length = 2 then match extend C b q r m with
      | .error e => .error e
      | .ok (r', m', _, false) => .ok (r', m', false)
      | .ok (r', m', _, true) => connectLoop C b q f r' m'
    else .ok (r, m, true)

/-- One iteration of the loop of `improve` on the trees: bi-rrt-star.cc:458-520. -/
def improveTree (C : SEnv Q P K) (nearQ : Nat) (pathQ : P) (nodes : List Nat) (nnew : Nat) (r : Roadmap Q P) (m : PMap P) :
    Except SErr (Roadmap Q P × PMap P) :=
  match computeCost C.len m (r.configs.length + 1) nearQ with
  | .error e => .error e
  | .ok c => match scan C.toPEnv r.configs (fun n => computeCost C.len m (r.configs.length + 1) n) (C.fin pathQ) (fun _ => (nearQ, pathQ)) nodes
      ⟨nearQ, pathQ, c + C.len pathQ, []⟩ with
    | .error e => .error e
    | .ok s => match attach C.toPEnv nnew s r m with
      | .error e => .error e
      | .ok (r', m', _) => .ok (r', m')

/-- Roots and parent maps: members `roots_`, `toRoot_`. -/
structure Trees (P : Type) where
  root0 : Nat
  root1 : Nat
  map0 : PMap P
  map1 : PMap P

/-- `improve`: bi-rrt-star.cc:433-523. -/
def improve (C : SEnv Q P K) (q : Q) (r : Roadmap Q P) (t : Trees P) : Except SErr (Roadmap Q P × Trees P) :=
  match nearestNode C.toEnv r q with
  | none => .error (.road .nullPointer)
  | some (d, nearQ) =>
    if d < C.eps then .ok (r, t)
    else match r.configs[nearQ]? with
      | none => .error (.road .badNode)
      | some x => match (buildPath C.toPEnv x q (some C.maxLen) true).2 with
        | none => .ok (r, t)
        | some p =>
          if C.len p < C.minLen then .ok (r, t)
          else match addNode C.toEnv r (C.fin p) with
            | .error e => .error (.road e)
            | .ok (r1, nnew) =>
              let nodes := ball C.toPEnv r (C.fin p) (r.cc t.root0) (C.radius r.configs.length)
              match improveTree C nearQ p nodes nnew r1 t.map0 with
              | .error e => .error e
              | .ok (r2, m0) => match improveTree C nearQ p nodes nnew r2 t.map1 with
                | .error e => .error e
                | .ok (r3, m1) => .ok (r3, { t with map0 := m0, map1 := m1 })

/-- Random draws of a step: the configuration of the shooter, whether the first draw is greater than 0.2, the draw that chooses a node of the best path, rank. -/
structure Draw (Q : Type) where
  shot : Q
  informed : Bool
  pick : Nat
  rank : Nat

/-- The edge reached after `k` steps up from `n`: bi-rrt-star.cc:245-248. -/
def climb (m : PMap P) : Nat → Nat → Except SErr (Edge P)
  | 0, n => match m n with
    | none => .error .endIterator
    | some none => .error (.road .nullPointer)
    | some (some e) => .ok e
  | k + 1, n => match m n with
    | none => .error .endIterator
    | some none => .error (.road .nullPointer)
    | some (some e) => climb m k e.src

/-- `sample`: bi-rrt-star.cc:225-273.  The number of edges is counted by the same loop as in `computeCost` (234-241). -/
def sample (C : SEnv Q P K) (w : Draw Q) (r : Roadmap Q P) (t : Trees P) : Except SErr Q :=
  if r.live.length = 1 ∧ w.informed = true then
    match computeCost (fun _ => (1 : Int)) t.map0 (r.configs.length + 1) t.root1 with
    | .error e => .error e
    | .ok n =>
      if 2 ≤ n then match climb t.map0 (w.pick % (n.toNat - 1)) t.root1 with
        | .error e => .error e
        | .ok e1 => match climb t.map0 0 e1.src with
          | .error e => .error e
          | .ok e0 =>
            if e0.dst ≠ e1.src then .error .logic
            else match r.configs[e0.src]?, r.configs[e0.dst]?, r.configs[e1.dst]? with
              | some x, some y, some z => .ok (C.between w.rank x y z)
              | _, _, _ => .error (.road .badNode)
      else .ok w.shot
  else .ok w.shot

/-- Exchange of the trees: bi-rrt-star.cc:210-211. -/
def Trees.swap (t : Trees P) : Trees P := ⟨t.root1, t.root0, t.map1, t.map0⟩

/-- `oneStep`: bi-rrt-star.cc:198-223.  `fc`, `fp` bound the iterations of `connect` and of `computeParentMap`. -/
def oneStep (C : SEnv Q P K) (pop : List (WNode P K) → Option (WNode P K × List (WNode P K))) (fc fp : Nat) (w : Draw Q) (r : Roadmap Q P) (t : Trees P) :
    Except SErr (Roadmap Q P × Trees P) :=
  match sample C w r t with
  | .error e => .error e
  | .ok q =>
    if r.live.length = 2 then match extend C t.root0 q r t.map0 with
      | .error e => .error e
      | .ok (r1, m0, _, false) => .ok (r1, { t with map0 := m0 }.swap)
      | .ok (r1, m0, q1, true) =>
        if r1.cc t.root0 = r1.cc t.root1 then .ok (r1, { t with map0 := m0 })
        else match connectLoop C t.root1 q1 fc r1 t.map1 with
          | .error e => .error e
          | .ok (r2, m1, _) => .ok (r2, { t with map0 := m0, map1 := m1 }.swap)
    else if t.map1 t.root0 = none then
      match computeParentMap C.len r.out pop fp t.root0, computeParentMap C.len r.out pop fp t.root1 with
      | some m0, some m1 => improve C q r { t with map0 := m0, map1 := m1 }
      | _, _ => .error .fuel
    else improve C q r t

/-- `startSolve`: bi-rrt-star.cc:175-196, then `tryConnectInitAndGoals` (path-planner.cc:113). -/
def starStart (C : SEnv Q P K) (q0 : Q) (gs : List Q) (r : Roadmap Q P) : Except SErr (Roadmap Q P × Trees P) :=
  match startSolve C.toPEnv q0 gs r with
  | .error e => .error (.road e)
  | .ok r1 => match r1.goals with
    | [g] => match r1.init with
      | none => .error (.road .nullPointer)
      | some i => match setParent (fun _ => none) i none true, setParent (fun _ => none) g none true with
        | .ok m0, .ok m1 => match tryConnect C.toPEnv r1 with
          | .error e => .error (.road e)
          | .ok r2 => .ok (r2, ⟨i, g, m0, m1⟩)
        | _, _ => .error .logic
    | _ => .error .invalidArgument

end Verif.Planner.Star
