import Verif.Planner.Solve
import Verif.AStar.Props
import Mathlib.Algebra.Order.Field.Basic
set_option linter.unusedSectionVars false

/-!
# Path planners working on a roadmap: common part (C66, C67)

What a planner calls outside the roadmap (steering method, path projector, path validation, projection of a configuration on the
constraints) is a parameter `PEnv`; the assumptions on these calls are the fields of `Contract`.
-/
namespace Verif.Planner
open Verif.Roadmap
variable {Q P K : Type}

/-- External calls of the planners.
* `ini`, `fin`, `t0`, `t1`, `len`: `Path::initial`, `end`, `timeRange().first`, `.second`, `length`;
* `extract p a b`: `Path::extract` (assumed not to throw), `rev` (in `Env`): `Path::reverse`;
* `steer`: `SteeringMethod::operator()`, `none` for a null pointer;
* `projector`: the path projector of the problem if any, `apply` returns the Boolean and the projected path (`none`: null pointer);
* `validate reverse p`: `PathValidation::validate`, the Boolean and the valid part;
* `onKernel near q`: projection of `q` on the constraints around `near` (bi-rrt-planner.cc:83-97, diffusing-planner.cc:103-121), `none` if it
fails, `some q` without constraints. -/
structure PEnv (Q P K : Type) extends Roadmap.Env Q P K where
  ini : P → Q
  fin : P → Q
  t0 : P → K
  t1 : P → K
  len : P → K
  extract : P → K → K → P
  steer : Q → Q → Option P
  projector : Option (P → Bool × Option P)
  validate : Bool → P → Bool × P
  onKernel : Q → Q → Option Q

/-- Assumptions on the external calls.  `Valid p`: the whole path `p` is accepted. -/
structure Contract [Zero K] [LT K] (C : PEnv Q P K) (Valid : P → Prop) : Prop where
  /-- the steering method joins its arguments -/
  steer : ∀ a b p, C.steer a b = some p → C.ini p = a ∧ C.fin p = b
  /-- a part of a path starting at its beginning -/
  extract_ini : ∀ p t, C.ini (C.extract p (C.t0 p) t) = C.ini p
  extract_valid : ∀ p t, Valid p → Valid (C.extract p (C.t0 p) t)
  /-- the projector keeps the beginning, and the end when it succeeds -/
  proj : ∀ f p b p', C.projector = some f → f p = (b, some p') → C.ini p' = C.ini p ∧ (b = true → C.fin p' = C.fin p)
  proj_some : ∀ f p, C.projector = some f → f p ≠ (true, none)
  /-- the valid part is an initial part (if not empty, valid); when the answer is `true` the path is valid and the valid part has the same ends -/
  valid_ini : ∀ p, C.ini (C.validate false p).2 = C.ini p
  valid_part : ∀ p, (C.t1 (C.validate false p).2 ≠ C.t0 p ∨ 0 < C.len (C.validate false p).2) → Valid (C.validate false p).2
  valid_true : ∀ b p, (C.validate b p).1 = true → Valid p ∧ Valid (C.validate b p).2 ∧ C.ini (C.validate b p).2 = C.ini p ∧
    C.fin (C.validate b p).2 = C.fin p
  /-- validation from the end: the valid part is a final part -/
  valid_fin : ∀ p, C.fin (C.validate true p).2 = C.fin p
  rev_ini : ∀ p, C.ini (C.rev p) = C.fin p
  rev_fin : ∀ p, C.fin (C.rev p) = C.ini p
  rev_valid : ∀ p, Valid p → Valid (C.rev p)

/-- The edge carries a valid path between the configurations of its nodes. -/
structure EdgeOk (C : PEnv Q P K) (Valid : P → Prop) (r : Roadmap Q P) (e : Edge P) : Prop where
  valid : Valid e.path
  src : r.configs[e.src]? = some (C.ini e.path)
  dst : r.configs[e.dst]? = some (C.fin e.path)

/-- The roadmap is consistent and its edges carry valid paths between their nodes. -/
structure Good (C : PEnv Q P K) (Valid : P → Prop) (V : List (Nat × Nat)) (r : Roadmap Q P) : Prop where
  inv : Inv V r
  edges : ∀ e ∈ r.edges, EdgeOk C Valid r e

/-- `r'` extends `r`: nodes and edges are only added, init and goals do not change. -/
structure Ext (r r' : Roadmap Q P) : Prop where
  grow : Grow r r'
  init : r'.init = r.init
  goals : r'.goals = r.goals

theorem Ext.refl (r : Roadmap Q P) : Ext r r := ⟨Grow.refl r, rfl, rfl⟩
theorem Ext.trans {a b c : Roadmap Q P} (h : Ext a b) (h' : Ext b c) : Ext a c :=
  ⟨h.grow.trans h'.grow, by rw [h'.init, h.init], by rw [h'.goals, h.goals]⟩

theorem EdgeOk.mono {C : PEnv Q P K} {Valid : P → Prop} {r r' : Roadmap Q P} {e : Edge P} (h : EdgeOk C Valid r e) (g : Grow r r') :
    EdgeOk C Valid r' e := ⟨h.valid, g.get h.src, g.get h.dst⟩

theorem lt_of_get {l : List Q} {n : Nat} {q : Q} (h : l[n]? = some q) : n < l.length := (List.getElem?_eq_some_iff.1 h).1

section prim
variable [DecidableEq Q] [Zero K] [LinearOrder K] {C : PEnv Q P K} {Valid : P → Prop} {V : List (Nat × Nat)} {r : Roadmap Q P}

theorem Good.addEdge (h : Good C Valid V r) {a b : Nat} {p : P} (hv : Valid p) (ha : r.configs[a]? = some (C.ini p))
    (hb : r.configs[b]? = some (C.fin p)) :
    ∃ r', Roadmap.addEdge r a b p = .ok r' ∧ Good C Valid V r' ∧ Ext r r' ∧ r'.configs = r.configs ∧ EdgeAdded r r' a b p := by
  obtain ⟨r', h1, h2, h3⟩ := h.inv.addEdge p (lt_of_get ha) (lt_of_get hb)
  refine ⟨r', h1, ⟨h2, ?_⟩, ⟨h3.grow, h3.init, h3.goals⟩, h3.configs, h3⟩
  intro e he
  rw [h3.edges] at he
  rcases List.mem_append.1 he with he | he
  · exact (h.edges e he).mono h3.grow
  · rw [List.mem_singleton.1 he]
    exact ⟨hv, h3.grow.get ha, h3.grow.get hb⟩

theorem Good.addEdges (hC : Contract C Valid) (h : Good C Valid V r) {a b : Nat} {p : P} (hv : Valid p)
    (ha : r.configs[a]? = some (C.ini p)) (hb : r.configs[b]? = some (C.fin p)) :
    ∃ r', Roadmap.addEdges C.toEnv r a b p = .ok r' ∧ Good C Valid V r' ∧ Ext r r' ∧ r'.configs = r.configs := by
  obtain ⟨r', h1, h2, h3⟩ := h.inv.addEdges C.toEnv p (lt_of_get ha) (lt_of_get hb)
  refine ⟨r', h1, ⟨h2, ?_⟩, ⟨h3.grow, h3.init, h3.goals⟩, h3.configs⟩
  intro e he
  rw [h3.edges] at he
  rcases List.mem_append.1 he with he | he
  · exact (h.edges e he).mono h3.grow
  · rcases List.mem_cons.1 he with rfl | he
    · exact ⟨hv, h3.grow.get ha, h3.grow.get hb⟩
    · rw [List.mem_singleton.1 he]
      refine ⟨hC.rev_valid p hv, ?_, ?_⟩
      · rw [hC.rev_ini]; exact h3.grow.get hb
      · rw [hC.rev_fin]; exact h3.grow.get ha

theorem Good.addNode (h : Good C Valid V r) (q : Q) :
    ∃ r' n, Roadmap.addNode C.toEnv r q = .ok (r', n) ∧ Good C Valid V r' ∧ Ext r r' ∧ r'.configs[n]? = some q := by
  obtain ⟨r', n, h1, h2, h3, h4, h5, h6, h7, -⟩ := h.inv.addNode C.toEnv q
  refine ⟨r', n, h1, ⟨h2, ?_⟩, ⟨h4, h6, h7⟩, h3⟩
  intro e he
  rw [h5] at he
  exact (h.edges e he).mono h4

/-- Edges after the insertion of a node with edges. -/
theorem addNodeAndEdges_edges (h : Inv V r) {a : Nat} (hla : a < r.configs.length) (q : Q) (p : P) {r' : Roadmap Q P} {n : Nat}
    (hok : addNodeAndEdges C.toEnv r a q p = .ok (r', n)) :
    r'.edges = r.edges ++ [⟨r.edges.length, a, n, p⟩, ⟨r.edges.length + 1, n, a, C.rev p⟩] := by
  obtain ⟨r1, m, h1, h2, h3, h4⟩ := h.addNodeIn C.toEnv q hla
  have he : r1.edges = r.edges ∧ ∃ r2, Roadmap.addEdges C.toEnv r1 a m p = .ok r2 ∧ EdgesAdded C.toEnv r1 r2 a m p := by
    rcases h4 with ⟨rfl, k1, k2⟩ | ⟨hr1, hn, k1, k2, k3, k4⟩
    · obtain ⟨r2, m1, m2, m3⟩ := h.addEdges C.toEnv p hla k1
      exact ⟨rfl, r2, m1, m3⟩
    · have hl1 : r1.configs.length = r.configs.length + 1 := by rw [k4.configs]; simp
      obtain ⟨r2, m1, m2, m3, m4, m5⟩ := addEdges_spec C.toEnv k1 k2 k3 p (a := a) (b := m) (by omega) h3
      exact ⟨k4.edges, r2, m1, m5⟩
  obtain ⟨he, r2, m1, m5⟩ := he
  unfold addNodeAndEdges at hok
  rw [if_neg (by omega), h1] at hok
  change (do let r2 ← Roadmap.addEdges C.toEnv r1 a m p; return (r2, m)) = _ at hok
  rw [m1] at hok
  have hh : (r2, m) = (r', n) := Except.ok.inj hok
  cases hh
  rw [m5.edges, he]

theorem addNodeAndEdgeTo_edges (h : Inv V r) {a : Nat} (hla : a < r.configs.length) (q : Q) (p : P) {r' : Roadmap Q P} {n : Nat}
    (hok : addNodeAndEdgeTo C.toEnv r a q p = .ok (r', n)) : r'.edges = r.edges ++ [⟨r.edges.length, a, n, p⟩] := by
  obtain ⟨r1, m, h1, h2, h3, h4⟩ := h.addNodeIn C.toEnv q hla
  have he : r1.edges = r.edges ∧ ∃ r2, Roadmap.addEdge r1 a m p = .ok r2 ∧ EdgeAdded r1 r2 a m p := by
    rcases h4 with ⟨rfl, k1, k2⟩ | ⟨hr1, hn, k1, k2, k3, k4⟩
    · obtain ⟨r2, m1, m2, m3⟩ := h.addEdge p hla k1
      exact ⟨rfl, r2, m1, m3⟩
    · have hl1 : r1.configs.length = r.configs.length + 1 := by rw [k4.configs]; simp
      obtain ⟨r2, m1, m2, m3, m4, m5⟩ := addEdge_spec k1 k2 k3 p (a := a) (b := m) (by omega) h3
      exact ⟨k4.edges, r2, m1, m5⟩
  obtain ⟨he, r2, m1, m5⟩ := he
  unfold addNodeAndEdgeTo at hok
  rw [if_neg (by omega), h1] at hok
  change (do let r2 ← Roadmap.addEdge r1 a m p; return (r2, m)) = _ at hok
  rw [m1] at hok
  have hh : (r2, m) = (r', n) := Except.ok.inj hok
  cases hh
  rw [m5.edges, he]

theorem addNodeAndEdgeFrom_edges (h : Inv V r) {a : Nat} (hla : a < r.configs.length) (q : Q) (p : P) {r' : Roadmap Q P} {n : Nat}
    (hok : addNodeAndEdgeFrom C.toEnv r q a p = .ok (r', n)) : r'.edges = r.edges ++ [⟨r.edges.length, n, a, p⟩] := by
  obtain ⟨r1, m, h1, h2, h3, h4⟩ := h.addNodeIn C.toEnv q hla
  have he : r1.edges = r.edges ∧ ∃ r2, Roadmap.addEdge r1 m a p = .ok r2 ∧ EdgeAdded r1 r2 m a p := by
    rcases h4 with ⟨rfl, k1, k2⟩ | ⟨hr1, hn, k1, k2, k3, k4⟩
    · obtain ⟨r2, m1, m2, m3⟩ := h.addEdge p k1 hla
      exact ⟨rfl, r2, m1, m3⟩
    · have hl1 : r1.configs.length = r.configs.length + 1 := by rw [k4.configs]; simp
      obtain ⟨r2, m1, m2, m3, m4, m5⟩ := addEdge_spec k1 k2 k3 p (a := m) (b := a) h3 (by omega)
      exact ⟨k4.edges, r2, m1, m5⟩
  obtain ⟨he, r2, m1, m5⟩ := he
  unfold addNodeAndEdgeFrom at hok
  rw [if_neg (by omega), h1] at hok
  change (do let r2 ← Roadmap.addEdge r1 m a p; return (r2, m)) = _ at hok
  rw [m1] at hok
  have hh : (r2, m) = (r', n) := Except.ok.inj hok
  cases hh
  rw [m5.edges, he]

theorem Good.addNodeAndEdges (hC : Contract C Valid) (h : Good C Valid V r) {a : Nat} {p : P} (hv : Valid p)
    (ha : r.configs[a]? = some (C.ini p)) :
    ∃ r' n, Roadmap.addNodeAndEdges C.toEnv r a (C.fin p) p = .ok (r', n) ∧ Good C Valid V r' ∧ Ext r r' ∧
      r'.configs[n]? = some (C.fin p) := by
  obtain ⟨r', n, h1, h2, h3, h4⟩ := h.inv.addNodeAndEdges C.toEnv (C.fin p) (lt_of_get ha) p
  have he := addNodeAndEdges_edges h.inv (lt_of_get ha) (C.fin p) p h1
  refine ⟨r', n, h1, ⟨h2, ?_⟩, ⟨h3.grow, h3.init, h3.goals⟩, h3.get⟩
  intro e hh
  rw [he] at hh
  rcases List.mem_append.1 hh with hh | hh
  · exact (h.edges e hh).mono h3.grow
  · rcases List.mem_cons.1 hh with rfl | hh
    · exact ⟨hv, h3.grow.get ha, h3.get⟩
    · rw [List.mem_singleton.1 hh]
      refine ⟨hC.rev_valid p hv, ?_, ?_⟩
      · rw [hC.rev_ini]; exact h3.get
      · rw [hC.rev_fin]; exact h3.grow.get ha

theorem Good.addNodeAndEdgeTo (h : Good C Valid V r) {a : Nat} {p : P} (hv : Valid p)
    (ha : r.configs[a]? = some (C.ini p)) :
    ∃ r' n, Roadmap.addNodeAndEdgeTo C.toEnv r a (C.fin p) p = .ok (r', n) ∧ Good C Valid (oneWay r n (n, a) V) r' ∧ Ext r r' ∧
      r'.configs[n]? = some (C.fin p) := by
  obtain ⟨r', n, h1, h2, h3, h4⟩ := h.inv.addNodeAndEdgeTo C.toEnv (C.fin p) (lt_of_get ha) p
  have he := addNodeAndEdgeTo_edges h.inv (lt_of_get ha) (C.fin p) p h1
  refine ⟨r', n, h1, ⟨h2, ?_⟩, ⟨h3.grow, h3.init, h3.goals⟩, h3.get⟩
  intro e hh
  rw [he] at hh
  rcases List.mem_append.1 hh with hh | hh
  · exact (h.edges e hh).mono h3.grow
  · rw [List.mem_singleton.1 hh]
    exact ⟨hv, h3.grow.get ha, h3.get⟩

/-- Nearest node of a component of a roadmap. -/
theorem search_good (h : Inv V r) (q : Q) {c : Nat} (hc : c ∈ r.live) (b : Bool) :
    ∃ d n x, search C.toEnv r q c b = some (d, n) ∧ r.configs[n]? = some x ∧ r.cc n = c := by
  obtain ⟨d, n, h1, h2⟩ := search_spec C.toEnv h.wf q hc b
  obtain ⟨h3, h4⟩ := h.wf.owned _ hc n h2.mem
  exact ⟨d, n, r.configs[n], h1, List.getElem?_eq_getElem h3, h4⟩

end prim

/-! ## `PathPlanner::startSolve`, `tryConnectInitAndGoals` -/

section
variable [DecidableEq Q] [Zero K] [LinearOrder K]

/-- Loop adding the goals: path-planner.cc:91-95. -/
def addGoals (C : PEnv Q P K) : List Q → Roadmap Q P → Except Err (Roadmap Q P)
  | [], r => .ok r
  | g :: gs, r => match addGoalNode C.toEnv r g with
    | .error e => .error e
    | .ok (r1, _) => addGoals C gs r1

/-- `startSolve` for a target given by goal configurations: path-planner.cc:83-98 (`checkProblem` and `target()->check` assumed not to throw). -/
def startSolve (C : PEnv Q P K) (q0 : Q) (gs : List Q) (r : Roadmap Q P) : Except Err (Roadmap Q P) :=
  match setInit C.toEnv (resetGoalNodes r) q0 with
  | .error e => .error e
  | .ok (r1, _) => addGoals C gs r1

/-- Steering, projection and validation between two configurations: path-planner.cc:235-249, 263-277, returns the path to be inserted. -/
def directPath (C : PEnv Q P K) (q1 q2 : Q) : Option P :=
  match C.steer q1 q2 with
  | none => none
  | some p =>
    let p' : Option P := match C.projector with
      | none => some p
      | some f => match f p with
        | (false, _) => none
        | (true, x) => x
    match p' with
    | none => none
    | some p' => if (C.validate false p').1 = true ∧ 0 < C.len (C.validate false p').2 then some p' else none

/-- Body of the loops on the components: path-planner.cc:227-252 (`fwd`: from the node) and 257-279 (to the node); an element of `futureEdges`. -/
def futureEdge (C : PEnv Q P K) (r : Roadmap Q P) (fwd : Bool) (n c : Nat) : Except Err (Option (Nat × Nat × P)) :=
  if c = r.cc n then .ok none
  else match r.configs[n]? with
    | none => .error .badNode
    | some q => match search C.toEnv r q c fwd with
      | none => .error .nullPointer
      | some (_, near) => match r.configs[near]? with
        | none => .error .badNode
        | some x =>
          if fwd then .ok ((directPath C q x).map (fun p => (n, near, p)))
          else .ok ((directPath C x q).map (fun p => (near, n, p)))

/-- Loop on the components for one node. -/
def futureEdges (C : PEnv Q P K) (r : Roadmap Q P) (fwd : Bool) (n : Nat) : List Nat → Except Err (List (Nat × Nat × P))
  | [] => .ok []
  | c :: cs => match futureEdge C r fwd n c with
    | .error e => .error e
    | .ok x => match futureEdges C r fwd n cs with
      | .error e => .error e
      | .ok l => .ok (x.toList ++ l)

/-- Loop on the goals. -/
def goalEdges (C : PEnv Q P K) (r : Roadmap Q P) : List Nat → Except Err (List (Nat × Nat × P))
  | [] => .ok []
  | g :: gs => match futureEdges C r false g r.live with
    | .error e => .error e
    | .ok l => match goalEdges C r gs with
      | .error e => .error e
      | .ok l' => .ok (l ++ l')

/-- Insertion of the future edges: path-planner.cc:282-283. -/
def addAll : List (Nat × Nat × P) → Roadmap Q P → Except Err (Roadmap Q P)
  | [], r => .ok r
  | (a, b, p) :: l, r => match addEdge r a b p with
    | .error e => .error e
    | .ok r1 => addAll l r1

/-- `tryConnectInitAndGoals`: path-planner.cc:211-284. -/
def tryConnect (C : PEnv Q P K) (r : Roadmap Q P) : Except Err (Roadmap Q P) :=
  match r.init with
  | none => .error .nullPointer
  | some i => match futureEdges C r true i r.live with
    | .error e => .error e
    | .ok l => match goalEdges C r r.goals with
      | .error e => .error e
      | .ok l' => addAll (l ++ l') r

/-! ### Specifications -/

variable {C : PEnv Q P K} {Valid : P → Prop} {V : List (Nat × Nat)} {r : Roadmap Q P}

theorem directPath_spec (hC : Contract C Valid) {a b : Q} {p : P} (h : directPath C a b = some p) :
    Valid p ∧ C.ini p = a ∧ C.fin p = b := by
  unfold directPath at h
  cases hs : C.steer a b with
  | none => rw [hs] at h; simp at h
  | some p0 =>
    rw [hs] at h
    obtain ⟨s1, s2⟩ := hC.steer a b p0 hs
    have fin : ∀ p', C.ini p' = a → C.fin p' = b →
        (if (C.validate false p').1 = true ∧ 0 < C.len (C.validate false p').2 then some p' else none) = some p →
        Valid p ∧ C.ini p = a ∧ C.fin p = b := by
      intro p' h1 h2 h3
      split at h3
      · rename_i hc
        have : p' = p := Option.some.inj h3
        subst this
        exact ⟨(hC.valid_true false p' hc.1).1, h1, h2⟩
      · simp at h3
    cases hp : C.projector with
    | none =>
      rw [hp] at h
      exact fin p0 s1 s2 h
    | some f =>
      rw [hp] at h
      simp only at h
      cases hf : f p0 with
      | mk b0 x =>
        rw [hf] at h
        cases b0 with
        | false => simp at h
        | true =>
          cases x with
          | none => simp at h
          | some p1 =>
            obtain ⟨k1, k2⟩ := hC.proj f p0 true p1 hp hf
            exact fin p1 (by rw [k1, s1]) (by rw [k2 rfl, s2]) h

/-- The edge to be inserted is fine. -/
def FutureOk (C : PEnv Q P K) (Valid : P → Prop) (r : Roadmap Q P) (x : Nat × Nat × P) : Prop :=
  Valid x.2.2 ∧ r.configs[x.1]? = some (C.ini x.2.2) ∧ r.configs[x.2.1]? = some (C.fin x.2.2)

theorem futureEdge_spec (hC : Contract C Valid) (h : Inv V r) (fwd : Bool) {n c : Nat} (hn : n < r.configs.length) (hc : c ∈ r.live) :
    ∃ x, futureEdge C r fwd n c = .ok x ∧ ∀ y ∈ x, FutureOk C Valid r y := by
  unfold futureEdge
  by_cases h0 : c = r.cc n
  · rw [if_pos h0]; exact ⟨none, rfl, by simp⟩
  · rw [if_neg h0]
    have hq : r.configs[n]? = some r.configs[n] := List.getElem?_eq_getElem hn
    rw [hq]
    obtain ⟨d, m, x, h1, h2, h3⟩ := search_good (C := C) h r.configs[n] hc fwd
    simp only [h1, h2]
    cases fwd with
    | true =>
      refine ⟨_, rfl, ?_⟩
      intro y hy
      simp only [Option.mem_def, Option.map_eq_some_iff] at hy
      obtain ⟨p, hp, rfl⟩ := hy
      obtain ⟨k1, k2, k3⟩ := directPath_spec hC hp
      exact ⟨k1, by simp only [hq, k2], by simp only [h2, k3]⟩
    | false =>
      refine ⟨_, rfl, ?_⟩
      intro y hy
      simp only [Option.mem_def, Option.map_eq_some_iff] at hy
      obtain ⟨p, hp, rfl⟩ := hy
      obtain ⟨k1, k2, k3⟩ := directPath_spec hC hp
      exact ⟨k1, by simp only [h2, k2], by simp only [hq, k3]⟩

theorem futureEdges_spec (hC : Contract C Valid) (h : Inv V r) (fwd : Bool) {n : Nat} (hn : n < r.configs.length) (cs : List Nat)
    (hcs : ∀ c ∈ cs, c ∈ r.live) : ∃ l, futureEdges C r fwd n cs = .ok l ∧ ∀ y ∈ l, FutureOk C Valid r y := by
  induction cs with
  | nil => exact ⟨[], rfl, by simp⟩
  | cons c cs ih =>
    obtain ⟨x, h1, h2⟩ := futureEdge_spec hC h fwd hn (hcs c (by simp))
    obtain ⟨l, h3, h4⟩ := ih (fun c' hc' => hcs c' (by simp [hc']))
    refine ⟨x.toList ++ l, by simp only [futureEdges, h1, h3], ?_⟩
    intro y hy
    rcases List.mem_append.1 hy with hy | hy
    · exact h2 y (by simpa using hy)
    · exact h4 y hy

theorem goalEdges_spec (hC : Contract C Valid) (h : Inv V r) (gs : List Nat) (hgs : ∀ g ∈ gs, g < r.configs.length) :
    ∃ l, goalEdges C r gs = .ok l ∧ ∀ y ∈ l, FutureOk C Valid r y := by
  induction gs with
  | nil => exact ⟨[], rfl, by simp⟩
  | cons g gs ih =>
    obtain ⟨x, h1, h2⟩ := futureEdges_spec hC h false (hgs g (by simp)) r.live (fun _ hc => hc)
    obtain ⟨l, h3, h4⟩ := ih (fun c' hc' => hgs c' (by simp [hc']))
    refine ⟨x ++ l, by simp only [goalEdges, h1, h3], ?_⟩
    intro y hy
    rcases List.mem_append.1 hy with hy | hy
    · exact h2 y hy
    · exact h4 y hy

theorem FutureOk.mono {r' : Roadmap Q P} {x : Nat × Nat × P} (h : FutureOk C Valid r x) (g : Grow r r') : FutureOk C Valid r' x :=
  ⟨h.1, g.get h.2.1, g.get h.2.2⟩

theorem addAll_spec (l : List (Nat × Nat × P)) (h : Good C Valid V r) (hl : ∀ x ∈ l, FutureOk C Valid r x) :
    ∃ r', addAll l r = .ok r' ∧ Good C Valid V r' ∧ Ext r r' := by
  induction l generalizing r with
  | nil => exact ⟨r, rfl, h, Ext.refl r⟩
  | cons x l ih =>
    obtain ⟨a, b, p⟩ := x
    obtain ⟨h1, h2, h3⟩ := hl (a, b, p) (by simp)
    obtain ⟨r1, k1, k2, k3, -, -⟩ := h.addEdge h1 h2 h3
    obtain ⟨r2, m1, m2, m3⟩ := ih k2 (fun x hx => (hl x (by simp [hx])).mono k3.grow)
    refine ⟨r2, by simp only [addAll, k1, m1], m2, k3.trans m3⟩

theorem tryConnect_spec (hC : Contract C Valid) (h : Good C Valid V r) {i : Nat} (hi : r.init = some i) :
    ∃ r', tryConnect C r = .ok r' ∧ Good C Valid V r' ∧ Ext r r' := by
  obtain ⟨l, h1, h2⟩ := futureEdges_spec hC h.inv true (h.inv.init i hi) r.live (fun _ hc => hc)
  obtain ⟨l', h3, h4⟩ := goalEdges_spec hC h.inv r.goals h.inv.goals
  obtain ⟨r', h5, h6, h7⟩ := addAll_spec (l ++ l') h (fun x hx => by
    rcases List.mem_append.1 hx with hx | hx
    · exact h2 x hx
    · exact h4 x hx)
  refine ⟨r', ?_, h6, h7⟩
  unfold tryConnect
  rw [hi]
  simp only [h1, h3, h5]

/-- The init node and the goal nodes have the given configurations. -/
structure Tagged (q0 : Q) (gs : List Q) (r : Roadmap Q P) : Prop where
  init : ∃ i, r.init = some i ∧ r.configs[i]? = some q0
  goals : ∀ g ∈ r.goals, ∃ q ∈ gs, r.configs[g]? = some q
  all : ∀ q ∈ gs, ∃ g ∈ r.goals, r.configs[g]? = some q

theorem Tagged.mono {q0 : Q} {gs : List Q} {r' : Roadmap Q P} (h : Tagged q0 gs r) (e : Ext r r') : Tagged q0 gs r' := by
  obtain ⟨i, h1, h2⟩ := h.init
  refine ⟨⟨i, by rw [e.init, h1], e.grow.get h2⟩, ?_, ?_⟩
  · intro g hg
    rw [e.goals] at hg
    obtain ⟨q, hq, h3⟩ := h.goals g hg
    exact ⟨q, hq, e.grow.get h3⟩
  · intro q hq
    obtain ⟨g, hg, h3⟩ := h.all q hq
    exact ⟨g, by rw [e.goals]; exact hg, e.grow.get h3⟩

theorem Good.setGoals (h : Good C Valid V r) {gs : List Nat} (hg : ∀ g ∈ gs, g < r.configs.length) :
    Good C Valid V { r with goals := gs } := ⟨h.inv.setGoals hg, fun e he => ⟨(h.edges e he).valid, (h.edges e he).src, (h.edges e he).dst⟩⟩

theorem Good.setInit (h : Good C Valid V r) {n : Nat} (hn : n < r.configs.length) : Good C Valid V { r with init := some n } :=
  ⟨h.inv.setInit hn, fun e he => ⟨(h.edges e he).valid, (h.edges e he).src, (h.edges e he).dst⟩⟩

theorem addGoals_spec (gs : List Q) (h : Good C Valid V r) {q0 : Q} {done : List Q} (ht : Tagged q0 done r) :
    ∃ r', addGoals C gs r = .ok r' ∧ Good C Valid V r' ∧ Grow r r' ∧ Tagged q0 (done ++ gs) r' := by
  induction gs generalizing r done with
  | nil => exact ⟨r, rfl, h, Grow.refl r, by simpa using ht⟩
  | cons g gs ih =>
    obtain ⟨r1, n, h1, h2, h3, h4⟩ := h.addNode g
    have ht1 := ht.mono h3
    have hg2 : Good C Valid V { r1 with goals := r1.goals ++ [n] } := by
      refine h2.setGoals ?_
      intro x hx
      rcases List.mem_append.1 hx with hx | hx
      · exact h2.inv.goals x hx
      · rw [List.mem_singleton.1 hx]; exact lt_of_get h4
    have ht2 : Tagged q0 (done ++ [g]) { r1 with goals := r1.goals ++ [n] } := by
      refine ⟨ht1.init, ?_, ?_⟩
      · intro x hx
        rcases List.mem_append.1 hx with hx | hx
        · obtain ⟨q, hq, hq'⟩ := ht1.goals x hx
          exact ⟨q, by simp [hq], hq'⟩
        · rw [List.mem_singleton.1 hx]; exact ⟨g, by simp, h4⟩
      · intro q hq
        rcases List.mem_append.1 hq with hq | hq
        · obtain ⟨x, hx, hx'⟩ := ht1.all q hq
          exact ⟨x, by simp [hx], hx'⟩
        · rw [List.mem_singleton.1 hq]; exact ⟨n, by simp, h4⟩
    obtain ⟨r2, k1, k2, k3, k4⟩ := ih hg2 ht2
    refine ⟨r2, ?_, k2, ?_, by simpa using k4⟩
    · simp only [addGoals, addGoalNode, h1]
      exact k1
    · exact Grow.trans h3.grow ⟨k3.configs, k3.edges⟩

theorem startSolve_spec (h : Good C Valid V r) (q0 : Q) (gs : List Q) :
    ∃ r', startSolve C q0 gs r = .ok r' ∧ Good C Valid V r' ∧ Grow r r' ∧ Tagged q0 gs r' := by
  have h0 : Good C Valid V (resetGoalNodes r) := h.setGoals (by simp)
  obtain ⟨r1, n, h1, h2, h3, h4⟩ := h0.addNode q0
  have hg : r1.goals = [] := by rw [h3.goals]; rfl
  have h2' : Good C Valid V { r1 with init := some n } := h2.setInit (lt_of_get h4)
  obtain ⟨r2, k1, k2, k3, k4⟩ := addGoals_spec gs h2' (q0 := q0) (done := [])
    ⟨⟨n, rfl, h4⟩, by simp [hg], by simp⟩
  refine ⟨r2, ?_, k2, ?_, by simpa using k4⟩
  · simp only [startSolve, Roadmap.setInit, h1]
    exact k1
  · exact Grow.trans (show Grow r r1 from ⟨h3.grow.configs, h3.grow.edges⟩) ⟨k3.configs, k3.edges⟩

end

/-! ## Target and solution -/

section
variable [DecidableEq Q] [AddCommGroup K] [LinearOrder K] [IsOrderedAddMonoid K]

/-- `GoalConfigurations::reached`: goal-configurations.cc:52-66, the loop of `Roadmap::pathExists`.  An error of the model (which cannot happen) is
answered by `false`. -/
def reached (r : Roadmap Q P) : Bool × Roadmap Q P :=
  match r.init with
  | none => (false, r)
  | some _ => match pathExists r with
    | .ok x => x
    | .error _ => (false, r)

/-- Exceptions of the solution. -/
inductive PlanErr where
  | road (e : Err)
  | noSolution
  | nullPath
  /-- `path_planning_failed` thrown by a step of the planner -/
  | failed
  /-- exception for a wrong parameter -/
  | badParameter

/-- `GoalConfigurations::computePath`: goal-configurations.cc:68-83.  The paths of the path vector. -/
def computePath (C : PEnv Q P K) (heur : Roadmap Q P → Nat → K) (r : Roadmap Q P) : Except PlanErr (List P) :=
  match r.init with
  | none => .error (.road .nullPointer)
  | some i => match AStar.solution (AStar.ofRoadmap r i C.len (heur r)) (r.configs.length + 1) with
    | .failed => .error .noSolution
    | .outOfFuel => .error (.road .outOfFuel)
    | .path _ es =>
      if es = [] then
        match r.configs[i]? with
        | none => .error (.road .badNode)
        | some q => match C.steer q q with
          | none => .error .nullPath
          | some p => .ok [p]
      else .ok (es.map (·.path))

/-- Specification: `l` is a sequence of valid paths that leads continuously from `a` to `b`. -/
def Connects (C : PEnv Q P K) (Valid : P → Prop) : Q → List P → Q → Prop
  | a, [], b => a = b
  | a, p :: l, b => Valid p ∧ C.ini p = a ∧ Connects C Valid (C.fin p) l b

variable {C : PEnv Q P K} {Valid : P → Prop} {V : List (Nat × Nat)} {r : Roadmap Q P}

theorem chain_connects (h : Good C Valid V r) {a b : Nat} {es : List (Edge P)} {qa qb : Q} (hc : AStar.Chain r a es b)
    (ha : r.configs[a]? = some qa) (hb : r.configs[b]? = some qb) : Connects C Valid qa (es.map (·.path)) qb := by
  induction es generalizing a qa with
  | nil =>
    have : a = b := hc
    subst this
    rw [ha] at hb
    exact Option.some.inj hb
  | cons e es ih =>
    obtain ⟨h1, h2, h3⟩ := hc
    have he := h.edges e h1
    refine ⟨he.valid, ?_, ih h3 he.dst⟩
    have := he.src
    rw [h2, ha] at this
    exact (Option.some.inj this).symm

/-- The path of the solution: a valid continuous sequence from the init configuration to a goal configuration, or, when they are the same,
the single path of the steering method from this configuration to itself. -/
theorem computePath_spec (h : Good C Valid V r) {q0 : Q} {gs : List Q} (ht : Tagged q0 gs r) (heur : Roadmap Q P → Nat → K) {l : List P}
    (hl : computePath C heur r = .ok l) :
    (∃ g ∈ gs, l ≠ [] ∧ Connects C Valid q0 l g) ∨ (q0 ∈ gs ∧ ∃ p, C.steer q0 q0 = some p ∧ l = [p]) := by
  obtain ⟨i, hi, hqi⟩ := ht.init
  unfold computePath at hl
  rw [hi] at hl
  simp only at hl
  rcases AStar.solution_spec h.inv hi C.len (heur r) (r.configs.length + 1) (le_refl _) with ⟨g, es, h1, h2, h3, -⟩ | ⟨h1, -⟩
  · rw [h1] at hl
    simp only at hl
    have hch := h3.chain h.inv.adj
    obtain ⟨q, hq, hgq⟩ := ht.goals g h2
    by_cases he : es = []
    · right
      subst he
      have hig : i = g := hch
      subst hig
      rw [hqi] at hgq
      have := Option.some.inj hgq
      subst this
      refine ⟨hq, ?_⟩
      rw [if_pos rfl, hqi] at hl
      simp only at hl
      cases hs : C.steer q0 q0 with
      | none => rw [hs] at hl; simp at hl
      | some p =>
        rw [hs] at hl
        exact ⟨p, rfl, (Except.ok.inj hl).symm⟩
    · left
      rw [if_neg he] at hl
      have := Except.ok.inj hl
      subst this
      exact ⟨q, hq, by simpa using he, chain_connects h hch hqi hgq⟩
  · rw [h1] at hl; simp at hl

/-- The test of the target does not change the roadmap. -/
theorem reached_pure (h : Inv V r) : (reached r).2 = r := by
  unfold reached
  cases hi : r.init with
  | none => rfl
  | some i =>
    simp only [pathExists, hi]
    obtain ⟨ans, h1, -⟩ := pathExistsLoop_spec h.wf (h.wf.cc_live i (h.init i hi)) r.goals
    rw [h1]

/-- Without an initial node, the target is not reached. -/
theorem reached_none (hi : r.init = none) : (reached r).1 = false := by unfold reached; rw [hi]

/-- Without nodes inserted one-way, the target is reached exactly when the search in the roadmap succeeds. -/
theorem reached_iff (h : Inv [] r) {i : Nat} (hi : r.init = some i) : (reached r).1 = true ↔ ∃ g ∈ r.goals, NodeReach r i g := by
  unfold reached
  rw [hi]
  obtain ⟨ans, h1, h2⟩ := pathExistsLoop_spec h.wf (h.wf.cc_live i (h.init i hi)) r.goals
  simp only [pathExists, hi, h1]
  rw [h2]
  constructor
  · rintro ⟨g, hg, hr⟩
    exact ⟨g, hg, (creach_iff h.wf h.semNil (h.init i hi) (h.goals g hg)).1 hr⟩
  · rintro ⟨g, hg, hr⟩
    exact ⟨g, hg, (creach_iff h.wf h.semNil (h.init i hi) (h.goals g hg)).2 hr⟩

end

/-! ## Planning with any planner -/

section
variable {X : Type} [DecidableEq Q] [AddCommGroup K] [LinearOrder K] [IsOrderedAddMonoid K]

/-- The calls of `PathPlanner::solve` for a target given by goal configurations.  `X` is the state of the planner outside the roadmap.  The test of
the target is modelled without its marks in the roadmap (`reached_pure`: they are restored). -/
def planCalls (C : PEnv Q P K) (heur : Roadmap Q P → Nat → K) (start step : X × Roadmap Q P → Except PlanErr (X × Roadmap Q P)) :
    Calls (X × Roadmap Q P) (List P) PlanErr :=
  ⟨start, step, fun s => ((reached s.2).1, s), fun s => computePath C heur s.2⟩

theorem after_inv {S R E : Type} (C : Calls S R E) (I : S → Prop) (s0 : S) (h0 : I s0)
    (hstep : ∀ s s', I s → C.step s = .ok s' → I s') (n : Nat) (s : S) (h : After C s0 n s) : I s := by
  induction n generalizing s with
  | zero => rw [show s = s0 from h]; exact h0
  | succ n ih =>
    obtain ⟨s', h1, h2⟩ := h
    exact hstep s' s (ih s' h1) h2

/-- What the user gets. -/
def Solves (C : PEnv Q P K) (Valid : P → Prop) (q0 : Q) (gs : List Q) (l : List P) : Prop :=
  (∃ g ∈ gs, l ≠ [] ∧ Connects C Valid q0 l g) ∨ (q0 ∈ gs ∧ ∃ p, C.steer q0 q0 = some p ∧ l = [p])

/-- For any planner whose steps keep the roadmap good, the path returned by `solve` is a continuous sequence of validated paths from the init
configuration to a goal configuration. -/
theorem solve_solves (C : PEnv Q P K) (Valid : P → Prop) (heur : Roadmap Q P → Nat → K)
    (start step : X × Roadmap Q P → Except PlanErr (X × Roadmap Q P)) (q0 : Q) (gs : List Q) (I : X × Roadmap Q P → Prop)
    (hI : ∀ s, I s → (∃ V, Good C Valid V s.2) ∧ Tagged q0 gs s.2) (s s0 : X × Roadmap Q P) (hs : start s = .ok s0) (h0 : I s0)
    (hstep : ∀ s s', I s → step s = .ok s' → I s') (st : Settings K) (late intr : Nat → Bool) (fuel : Nat) (l : List P)
    (h : solve (planCalls C heur start step) st late intr fuel s = .path l) : Solves C Valid q0 gs l := by
  have := C39_outcome (planCalls C heur start step) (fun _ => rfl) st late intr fuel s s0 hs
  rw [h] at this
  obtain ⟨n, t, h1, h2, h3, -⟩ := this
  obtain ⟨⟨V, k1⟩, k2⟩ := hI t (after_inv (planCalls C heur start step) I s0 h0 hstep n t h1)
  exact computePath_spec k1 k2 heur h3

/-- The search of the solution does not fail when the target is reached. -/
theorem computePath_some {C : PEnv Q P K} {Valid : P → Prop} {r : Roadmap Q P} {q0 : Q} {gs : List Q} (hq : ∀ q, C.steer q q ≠ none) (hg : Good C Valid [] r)
    (htag : Tagged q0 gs r) (heur : Roadmap Q P → Nat → K) (hr : (reached r).1 = true) : ∃ l, computePath C heur r = .ok l := by
  obtain ⟨i, hi, hqi⟩ := htag.init
  obtain ⟨g, hg1, hg2⟩ := (reached_iff hg.inv hi).1 hr
  unfold computePath
  rw [hi]
  simp only
  rcases AStar.solution_spec hg.inv hi C.len (heur r) (r.configs.length + 1) (le_refl _) with ⟨g', es, h1, h2, h3, -⟩ | ⟨h1, h2⟩
  · rw [h1]
    simp only
    split
    · rw [hqi]
      simp only
      cases hs : C.steer q0 q0 with
      | none => exact absurd hs (hq q0)
      | some p => exact ⟨[p], rfl⟩
    · exact ⟨_, rfl⟩
  · exact absurd hg2 (h2 g hg1)

/-- For a planner that does not insert nodes one-way and whose steps do not fail, the search of the solution never fails when the target is
reached: the only exceptions are those of the limits and of `interrupt()`, and a null path of the steering method between equal configurations. -/
theorem solve_noError (C : PEnv Q P K) (Valid : P → Prop) (heur : Roadmap Q P → Nat → K)
    (start step : X × Roadmap Q P → Except PlanErr (X × Roadmap Q P)) (q0 : Q) (gs : List Q) (I : X × Roadmap Q P → Prop)
    (hI : ∀ s, I s → Good C Valid [] s.2 ∧ Tagged q0 gs s.2) (s s0 : X × Roadmap Q P) (hs : start s = .ok s0) (h0 : I s0)
    (hstep : ∀ s, I s → ∃ s', step s = .ok s' ∧ I s') (hq : ∀ q, C.steer q q ≠ none) (st : Settings K) (late intr : Nat → Bool) (fuel : Nat)
    (e : PlanErr) : solve (planCalls C heur start step) st late intr fuel s ≠ .error e := by
  intro h
  have hstep' : ∀ s s', I s → step s = .ok s' → I s' := by
    intro a b ha hb
    obtain ⟨b', h1, h2⟩ := hstep a ha
    rw [h1] at hb
    cases hb
    exact h2
  have key : ∀ t, I t → (reached t.2).1 = true → ∃ l, computePath C heur t.2 = .ok l := fun t ht hr => computePath_some hq (hI t ht).1 (hI t ht).2 heur hr
  have hm := C39_outcome (planCalls C heur start step) (fun _ => rfl) st late intr fuel s s0 hs
  rw [h] at hm
  obtain ⟨n, t, h1, h2⟩ := hm
  have ht := after_inv (planCalls C heur start step) I s0 h0 hstep' n t h1
  rcases h2 with h2 | ⟨h2, h3⟩
  · obtain ⟨t', h4, -⟩ := hstep t ht
    have h2' : step t = .error e := h2
    rw [h4] at h2'
    simp at h2'
  · obtain ⟨l, hl⟩ := key t ht h2
    have h3' : computePath C heur t.2 = .error e := h3
    rw [hl] at h3'
    simp at h3'

end

end Verif.Planner
