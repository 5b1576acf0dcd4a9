import Verif.Planner.Line
import Verif.NearestNeighbor.Basic
import Mathlib.Analysis.SpecialFunctions.Log.Basic
import Mathlib.Analysis.Complex.ExponentialBounds
set_option linter.unusedSectionVars false

/-! # `kPrmStar` (C41) -/
namespace Verif.Planner
open Verif.Roadmap

/-! ## Model -/

/-- `STATE`: k-prm-star.hh:46-52. -/
inductive Phase where
  | build | link | connect | failure
  deriving DecidableEq, Repr

/-- Members of `kPrmStar`: `lnk` is the rank of `*linkingNodeIt_` in `nodes()` (the number of nodes for `end()`), `it` the rank of `*itNeighbor_` in
`neighbors_`; `shots` counts the configurations shot. -/
structure KState where
  phase : Phase
  lnk : Nat
  neigh : List Nat
  it : Nat
  shots : Nat
  deriving DecidableEq

variable {Q P K H : Type} [DecidableEq Q] [AddCommGroup K] [LinearOrder K] [IsOrderedAddMonoid K]

/-- What kPRM* uses besides `PEnv`: the number of nodes, the number of neighbours (`numberNeighbors`), the priority queue of the search of neighbours,
the sequence of configurations shot, and `check` = `constraints->apply` then `configValidations->validate` (`none` if one of them fails);
`tries` is the maximal number of trials, 10000 in the code (k-prm-star.cc:121). -/
structure KEnv (Q P K H : Type) [LinearOrder K] extends PEnv Q P K where
  nodes : Nat
  k : Nat
  pq : NN.PQ Nat K H
  shoot : Nat → Q
  check : Q → Option Q
  tries : Nat

/-- `roadmap()->nearestNodes(q, numberNeighbors_)`: basic.cc:146-168 on the nodes of the roadmap; `none` is undefined behaviour. -/
def nearestNodes (C : KEnv Q P K H) (r : Roadmap Q P) (q : Q) : Option (List Nat) :=
  (NN.kNearest C.pq (fun n => ((r.configs[n]?).map (fun x => C.dist x q)).getD 0) C.k (List.range r.configs.length)).map (·.1)

/-- `do … while (!valid && nbTry < 10000)`: k-prm-star.cc:113-121; the counter of shots is returned. -/
def shootValid (C : KEnv Q P K H) : Nat → Nat → Option Q × Nat
  | 0, n => (none, n)
  | f + 1, n => match C.check (C.shoot n) with
    | some q => (some q, n + 1)
    | none => shootValid C f (n + 1)

/-- `generateRandomConfig`: k-prm-star.cc:99-134. -/
def generate (C : KEnv Q P K H) (s : KState) (r : Roadmap Q P) : Except PlanErr (KState × Roadmap Q P) :=
  if r.configs.length < C.nodes then
    match shootValid C C.tries s.shots with
    | (none, _) => .error .failed
    | (some q, n) => match addNode C.toEnv r q with
      | .error e => .error (.road e)
      | .ok (r1, _) => .ok ({ s with shots := n }, r1)
  else match r.configs[0]? with
    | none => .error (.road .badNode)
    | some q => match nearestNodes C r q with
      | none => .error (.road .nullPointer)
      | some l => .ok ({ s with phase := .link, lnk := 0, neigh := l, it := 0 }, r)

/-- Steering, projection, validation: k-prm-star.cc:169-186. -/
def kPath (C : PEnv Q P K) (q1 q2 : Q) : Option P :=
  match C.steer q1 q2 with
  | none => none
  | some p =>
    let p' : Option P := match C.projector with
      | none => some p
      | some f => match f p with
        | (false, _) => none
        | (true, x) => x
    match p' with
    | none => none
    | some p' => if (C.validate false p').1 = true then some p' else none

/-- Body of `connectNodeToClosestNeighbors` for one neighbour: k-prm-star.cc:166-192. -/
def connectNode (C : PEnv Q P K) (r : Roadmap Q P) (n m : Nat) : Except Err (Roadmap Q P) :=
  if isOutNeighbor r m n = false ∧ n ≠ m then
    match r.configs[n]?, r.configs[m]? with
    | some q1, some q2 => match kPath C q1 q2 with
      | none => .ok r
      | some p => addEdges C.toEnv r n m p
    | _, _ => .error .badNode
  else .ok r

/-- `linkNodes`: k-prm-star.cc:136-154. -/
def linkNodes (C : KEnv Q P K H) (s : KState) (r : Roadmap Q P) : Except PlanErr (KState × Roadmap Q P) :=
  if s.lnk = r.configs.length then .ok ({ s with phase := .connect }, r)
  else match r.configs[s.lnk]? with
    | none => .error (.road .badNode)
    | some _ =>
      if s.it = s.neigh.length then
        if s.lnk + 1 = r.configs.length then .ok ({ s with lnk := s.lnk + 1 }, r)
        else match r.configs[s.lnk + 1]? with
          | none => .error (.road .badNode)
          | some q => match nearestNodes C r q with
            | none => .error (.road .nullPointer)
            | some l => .ok ({ s with lnk := s.lnk + 1, neigh := l, it := 0 }, r)
      else match s.neigh[s.it]? with
        | none => .error (.road .badNode)
        | some m => match connectNode C.toPEnv r s.lnk m with
          | .error e => .error (.road e)
          | .ok r1 => .ok ({ s with it := s.it + 1 }, r1)

/-- Loop on the neighbours: k-prm-star.cc:201-204, 211-214. -/
def connectAll (C : PEnv Q P K) (n : Nat) : List Nat → Roadmap Q P → Except PlanErr (Roadmap Q P)
  | [], r => .ok r
  | m :: l, r => match connectNode C r n m with
    | .error e => .error (.road e)
    | .ok r1 => connectAll C n l r1

/-- Neighbours of a node (of the roadmap) and connection to them when `go`; the search is done before the test for goals. -/
def connectOne (C : KEnv Q P K H) (r : Roadmap Q P) (n : Nat) (go : Bool) : Except PlanErr (Roadmap Q P) :=
  match r.configs[n]? with
  | none => .error (.road .badNode)
  | some q => match nearestNodes C r q with
    | none => .error (.road .nullPointer)
    | some l => if go then connectAll C.toPEnv n l r else .ok r

/-- Loop on the goals: k-prm-star.cc:206-216. -/
def connectGoals (C : KEnv Q P K H) : List Nat → Roadmap Q P → Except PlanErr (Roadmap Q P)
  | [], r => .ok r
  | g :: gs, r => match connectOne C r g (r.inn g).isEmpty with
    | .error e => .error e
    | .ok r1 => connectGoals C gs r1

/-- `connectInitAndGoal`: k-prm-star.cc:195-217. -/
def connectInitAndGoal (C : KEnv Q P K H) (r : Roadmap Q P) : Except PlanErr (Roadmap Q P) :=
  match r.init with
  | none => .error (.road .nullPointer)
  | some i =>
    match (if (r.out i).isEmpty then connectOne C r i true else .ok r) with
    | .error e => .error e
    | .ok r1 => connectGoals C r1.goals r1

/-- `oneStep`: k-prm-star.cc:79-97. -/
def kStep (C : KEnv Q P K H) (s : KState × Roadmap Q P) : Except PlanErr (KState × Roadmap Q P) :=
  match s.1.phase with
  | .build => generate C s.1 s.2
  | .link => linkNodes C s.1 s.2
  | .connect => match connectInitAndGoal C s.2 with
    | .error e => .error e
    | .ok r => .ok ({ s.1 with phase := .failure }, r)
  | .failure => .error .failed

/-- `startSolve`: k-prm-star.cc:60-75; `tryConnectInitAndGoals` does nothing (77). -/
def kStart (C : KEnv Q P K H) (q0 : Q) (gs : List Q) (s : KState × Roadmap Q P) : Except PlanErr (KState × Roadmap Q P) :=
  match startSolve C.toPEnv q0 gs s.2 with
  | .error e => .error (.road e)
  | .ok r =>
    if C.nodes = 0 then .error .badParameter
    else .ok ({ s.1 with phase := if C.nodes ≤ r.configs.length then .connect else .build }, r)

/-! ## Specification -/

/-- `l` is a list of `k` nodes (all nodes if there are less) closest to node `n`, by increasing distance. -/
def IsNearest (dist : Q → Q → K) (k : Nat) (r : Roadmap Q P) (n : Nat) (l : List Nat) : Prop :=
  ∃ q, r.configs[n]? = some q ∧ ∃ left, (l ++ left).Perm (List.range r.configs.length) ∧ l.length = min k r.configs.length ∧
    (∀ a ∈ l, ∀ b ∈ left, ∀ x y, r.configs[a]? = some x → r.configs[b]? = some y → dist x q ≤ dist y q) ∧
    l.Pairwise (fun a b => ∀ x y, r.configs[a]? = some x → r.configs[b]? = some y → dist x q ≤ dist y q)

/-- The pair has been dealt with: same node, nodes linked by an edge, or no valid direct path. -/
def Treated (C : PEnv Q P K) (r : Roadmap Q P) (n m : Nat) : Prop :=
  n = m ∨ HasEdge r m n ∨ (∀ q1 q2, r.configs[n]? = some q1 → r.configs[m]? = some q2 → kPath C q1 q2 = none)

/-- The node has been treated with all its nearest neighbours. -/
def Done (C : KEnv Q P K H) (r : Roadmap Q P) (n : Nat) : Prop :=
  ∃ l, IsNearest C.dist C.k r n l ∧ ∀ m ∈ l, Treated C.toPEnv r n m

/-- Rank of the phases. -/
def Phase.rank : Phase → Nat
  | .build => 0 | .link => 1 | .connect => 2 | .failure => 3

/-- The invariant of kPRM*.  `full`: the roadmap is built by the planner. -/
structure KInv (C : KEnv Q P K H) (Valid : P → Prop) (V : List (Nat × Nat)) (full : Prop) (s : KState × Roadmap Q P) : Prop where
  good : Good C.toPEnv Valid V s.2
  init : ∃ i, s.2.init = some i
  filled : s.1.phase ≠ .build → C.nodes ≤ s.2.configs.length
  lnk : s.1.phase = .link → s.1.lnk ≤ s.2.configs.length ∧ (∀ n < s.1.lnk, Done C s.2 n)
  nbr : s.1.phase = .link → s.1.lnk < s.2.configs.length →
    IsNearest C.dist C.k s.2 s.1.lnk s.1.neigh ∧ s.1.it ≤ s.1.neigh.length ∧ ∀ m ∈ s.1.neigh.take s.1.it, Treated C.toPEnv s.2 s.1.lnk m
  done : s.1.phase.rank ≥ 2 → full → ∀ n < s.2.configs.length, Done C s.2 n
  conn : s.1.phase = .failure → (∀ i, s.2.init = some i → s.2.out i ≠ [] ∨ Done C s.2 i) ∧ (∀ g ∈ s.2.goals, s.2.inn g ≠ [] ∨ Done C s.2 g)

/-! ## Proofs -/
variable {C : KEnv Q P K H} {Valid : P → Prop} {V : List (Nat × Nat)} {r r' : Roadmap Q P}

theorem nearestNodes_spec (hk : 0 < C.k) (r : Roadmap Q P) {n : Nat} {q : Q} (hq : r.configs[n]? = some q) :
    ∃ l, nearestNodes C r q = some l ∧ IsNearest C.dist C.k r n l := by
  obtain ⟨res, d, left, h1, h2, h3, h4, h5, -⟩ := NN.C16_kNearest C.pq (fun n => ((r.configs[n]?).map (fun x => C.dist x q)).getD 0) C.k hk
    (List.range r.configs.length)
  refine ⟨res, by simp only [nearestNodes, h1, Option.map_some], q, hq, left, h2, by simpa using h3, ?_, ?_⟩
  · intro a ha b hb x y hx hy
    have := h5 a ha b hb
    simpa [hx, hy] using this
  · refine h4.imp ?_
    intro a b hab x y hx hy
    simpa [hx, hy] using hab

theorem IsNearest.lt {dist : Q → Q → K} {k n : Nat} {l : List Nat} (h : IsNearest dist k r n l) {m : Nat} (hm : m ∈ l) : m < r.configs.length := by
  obtain ⟨q, -, left, h1, -⟩ := h
  exact List.mem_range.1 (h1.subset (List.mem_append.2 (Or.inl hm)))

theorem IsNearest.congr {dist : Q → Q → K} {k n : Nat} {l : List Nat} (h : IsNearest dist k r n l) (hc : r'.configs = r.configs) :
    IsNearest dist k r' n l := by
  unfold IsNearest at h ⊢
  rw [hc]
  exact h

/-- Nothing but edges is added. -/
structure More (r r' : Roadmap Q P) : Prop where
  configs : r'.configs = r.configs
  edges : r.edges <+: r'.edges
  init : r'.init = r.init
  goals : r'.goals = r.goals

theorem More.refl (r : Roadmap Q P) : More r r := ⟨rfl, List.prefix_refl _, rfl, rfl⟩
theorem More.trans {a b c : Roadmap Q P} (h : More a b) (h' : More b c) : More a c :=
  ⟨h'.configs.trans h.configs, h.edges.trans h'.edges, h'.init.trans h.init, h'.goals.trans h.goals⟩

theorem More.ext (h : More r r') : Ext r r' := ⟨⟨by rw [h.configs], h.edges⟩, h.init, h.goals⟩

theorem Treated.mono {C : PEnv Q P K} {n m : Nat} (h : Treated C r n m) (hm : More r r') : Treated C r' n m := by
  rcases h with h | ⟨e, h1, h2⟩ | h
  · exact Or.inl h
  · exact Or.inr (Or.inl ⟨e, hm.edges.subset h1, h2⟩)
  · exact Or.inr (Or.inr (by rw [hm.configs]; exact h))

theorem Done.mono {n : Nat} (h : Done C r n) (hm : More r r') : Done C r' n := by
  obtain ⟨l, h1, h2⟩ := h
  exact ⟨l, h1.congr hm.configs, fun m hm' => (h2 m hm').mono hm⟩

theorem kPath_spec {C : PEnv Q P K} (hC : Contract C Valid) {a b : Q} {p : P} (h : kPath C a b = some p) :
    Valid p ∧ C.ini p = a ∧ C.fin p = b := by
  unfold kPath at h
  cases hs : C.steer a b with
  | none => rw [hs] at h; simp at h
  | some p0 =>
    rw [hs] at h
    obtain ⟨s1, s2⟩ := hC.steer a b p0 hs
    have fin : ∀ p', C.ini p' = a → C.fin p' = b →
        (if (C.validate false p').1 = true then some p' else none) = some p → Valid p ∧ C.ini p = a ∧ C.fin p = b := by
      intro p' h1 h2 h3
      split at h3
      · rename_i hc
        have : p' = p := Option.some.inj h3
        subst this
        exact ⟨(hC.valid_true false p' hc).1, h1, h2⟩
      · simp at h3
    cases hp : C.projector with
    | none =>
      rw [hp] at h
      exact fin p0 s1 s2 h
    | some f =>
      rw [hp] at h
      simp only at h
      cases hf : f p0 with
      | mk b' x =>
        rw [hf] at h
        cases b' with
        | false => simp at h
        | true =>
          cases x with
          | none => simp at h
          | some p1 =>
            obtain ⟨k1, k2⟩ := hC.proj f p0 true p1 hp hf
            exact fin p1 (by rw [k1, s1]) (by rw [k2 rfl, s2]) h

theorem connectNode_spec {C : PEnv Q P K} (hC : Contract C Valid) (h : Good C Valid V r) {n m : Nat} (hn : n < r.configs.length)
    (hm : m < r.configs.length) : ∃ r', connectNode C r n m = .ok r' ∧ Good C Valid V r' ∧ More r r' ∧ Treated C r' n m := by
  have e1 : r.configs[n]? = some r.configs[n] := List.getElem?_eq_getElem hn
  have e2 : r.configs[m]? = some r.configs[m] := List.getElem?_eq_getElem hm
  unfold connectNode
  by_cases hc : isOutNeighbor r m n = false ∧ n ≠ m
  · rw [if_pos hc]
    simp only [e1, e2]
    cases hp : kPath C r.configs[n] r.configs[m] with
    | none =>
      refine ⟨r, rfl, h, More.refl r, Or.inr (Or.inr ?_)⟩
      intro q1 q2 h1 h2
      rw [e1] at h1
      rw [e2] at h2
      cases h1
      cases h2
      exact hp
    | some p =>
      obtain ⟨h1, h2, h3⟩ := kPath_spec hC hp
      obtain ⟨r2, k1, k2, k3, k4⟩ := h.addEdges hC h1 (a := n) (b := m) (by rw [e1, h2]) (by rw [e2, h3])
      obtain ⟨r2', j1, j2, j3⟩ := h.inv.addEdges C.toEnv p hn hm
      rw [k1] at j1
      cases j1
      refine ⟨r2, k1, k2, ⟨k4, k3.grow.edges, k3.init, k3.goals⟩, Or.inr (Or.inl ?_)⟩
      exact ⟨⟨r.edges.length + 1, m, n, C.rev p⟩, by rw [j3.edges]; simp, rfl, rfl⟩
  · rw [if_neg hc]
    refine ⟨r, rfl, h, More.refl r, ?_⟩
    by_cases hnm : n = m
    · exact Or.inl hnm
    · refine Or.inr (Or.inl ((h.inv.adj.neighbor_iff m n).1.1 ?_))
      cases hb : isOutNeighbor r m n with
      | true => rfl
      | false => exact absurd ⟨hb, hnm⟩ hc

theorem connectAll_spec {C : PEnv Q P K} (hC : Contract C Valid) (n : Nat) (l : List Nat) {r : Roadmap Q P} (h : Good C Valid V r)
    (hn : n < r.configs.length) (hl : ∀ m ∈ l, m < r.configs.length) :
    ∃ r', connectAll C n l r = .ok r' ∧ Good C Valid V r' ∧ More r r' ∧ ∀ m ∈ l, Treated C r' n m := by
  induction l generalizing r with
  | nil => exact ⟨r, rfl, h, More.refl r, by simp⟩
  | cons m l ih =>
    obtain ⟨r1, k1, k2, k3, k4⟩ := connectNode_spec hC h hn (hl m (by simp))
    obtain ⟨r2, m1, m2, m3, m4⟩ := ih k2 (by rw [k3.configs]; exact hn) (fun m' hm' => by rw [k3.configs]; exact hl m' (by simp [hm']))
    refine ⟨r2, by simp only [connectAll, k1, m1], m2, k3.trans m3, ?_⟩
    intro m' hm'
    rcases List.mem_cons.1 hm' with rfl | hm'
    · exact k4.mono m3
    · exact m4 m' hm'

theorem connectOne_spec (hC : Contract C.toPEnv Valid) (hk : 0 < C.k) (h : Good C.toPEnv Valid V r) {n : Nat} (hn : n < r.configs.length) (go : Bool) :
    ∃ r', connectOne C r n go = .ok r' ∧ Good C.toPEnv Valid V r' ∧ More r r' ∧ (go = true → Done C r' n) := by
  have e1 : r.configs[n]? = some r.configs[n] := List.getElem?_eq_getElem hn
  obtain ⟨l, h1, h2⟩ := nearestNodes_spec hk r e1
  unfold connectOne
  simp only [e1, h1]
  cases go with
  | false => exact ⟨r, rfl, h, More.refl r, by simp⟩
  | true =>
    obtain ⟨r1, k1, k2, k3, k4⟩ := connectAll_spec hC n l h hn (fun m hm => h2.lt hm)
    exact ⟨r1, k1, k2, k3, fun _ => ⟨l, h2.congr k3.configs, k4⟩⟩

/-- A node with an edge in the lists keeps one. -/
theorem out_ne_nil (h : Good C.toPEnv Valid V r) (h' : Good C.toPEnv Valid V r') (hm : More r r') {n : Nat} (hn : r.out n ≠ []) : r'.out n ≠ [] := by
  obtain ⟨e, l, he⟩ := List.exists_cons_of_ne_nil hn
  obtain ⟨h1, h2⟩ := h.inv.adj.outOk n e (by rw [he]; simp)
  have := (h'.inv.adj.neighbor_iff n e.dst).1.2 ⟨e, hm.edges.subset h2, h1, rfl⟩
  intro h0
  unfold isOutNeighbor at this
  rw [h0] at this
  simp at this

theorem inn_ne_nil (h : Good C.toPEnv Valid V r) (h' : Good C.toPEnv Valid V r') (hm : More r r') {n : Nat} (hn : r.inn n ≠ []) : r'.inn n ≠ [] := by
  obtain ⟨e, l, he⟩ := List.exists_cons_of_ne_nil hn
  obtain ⟨h1, h2⟩ := h.inv.adj.innOk n e (by rw [he]; simp)
  have := (h'.inv.adj.neighbor_iff e.src n).2.2 ⟨e, hm.edges.subset h2, rfl, h1⟩
  intro h0
  unfold isInNeighbor at this
  rw [h0] at this
  simp at this

theorem connectGoals_spec (hC : Contract C.toPEnv Valid) (hk : 0 < C.k) (gs : List Nat) {r : Roadmap Q P} (h : Good C.toPEnv Valid V r)
    (hg : ∀ g ∈ gs, g < r.configs.length) :
    ∃ r', connectGoals C gs r = .ok r' ∧ Good C.toPEnv Valid V r' ∧ More r r' ∧ ∀ g ∈ gs, r'.inn g ≠ [] ∨ Done C r' g := by
  induction gs generalizing r with
  | nil => exact ⟨r, rfl, h, More.refl r, by simp⟩
  | cons g gs ih =>
    obtain ⟨r1, k1, k2, k3, k4⟩ := connectOne_spec hC hk h (hg g (by simp)) (r.inn g).isEmpty
    obtain ⟨r2, m1, m2, m3, m4⟩ := ih k2 (fun g' hg' => by rw [k3.configs]; exact hg g' (by simp [hg']))
    refine ⟨r2, by simp only [connectGoals, k1, m1], m2, k3.trans m3, ?_⟩
    intro g' hg'
    rcases List.mem_cons.1 hg' with rfl | hg'
    · by_cases hi : r.inn g' = []
      · exact Or.inr ((k4 (by rw [hi]; rfl)).mono m3)
      · exact Or.inl (inn_ne_nil k2 m2 m3 (inn_ne_nil h k2 k3 hi))
    · exact m4 g' hg'

theorem connectInitAndGoal_spec (hC : Contract C.toPEnv Valid) (hk : 0 < C.k) (h : Good C.toPEnv Valid V r) {i : Nat} (hi : r.init = some i) :
    ∃ r', connectInitAndGoal C r = .ok r' ∧ Good C.toPEnv Valid V r' ∧ More r r' ∧ (r'.out i ≠ [] ∨ Done C r' i) ∧
      ∀ g ∈ r.goals, r'.inn g ≠ [] ∨ Done C r' g := by
  have hil := h.inv.init i hi
  have first : ∃ r1, (if (r.out i).isEmpty then connectOne C r i true else .ok r) = .ok r1 ∧ Good C.toPEnv Valid V r1 ∧ More r r1 ∧
      (r1.out i ≠ [] ∨ Done C r1 i) := by
    by_cases ho : (r.out i).isEmpty = true
    · rw [if_pos ho]
      obtain ⟨r1, k1, k2, k3, k4⟩ := connectOne_spec hC hk h hil true
      exact ⟨r1, k1, k2, k3, Or.inr (k4 rfl)⟩
    · rw [if_neg ho]
      exact ⟨r, rfl, h, More.refl r, Or.inl (by simpa using ho)⟩
  obtain ⟨r1, h1, h2, h3, h4⟩ := first
  obtain ⟨r2, k1, k2, k3, k4⟩ := connectGoals_spec hC hk r1.goals h2 (fun g hg => h2.inv.goals g hg)
  refine ⟨r2, ?_, k2, h3.trans k3, ?_, ?_⟩
  · unfold connectInitAndGoal
    rw [hi]
    simp only [h1, k1]
  · rcases h4 with h4 | h4
    · exact Or.inl (out_ne_nil h2 k2 k3 h4)
    · exact Or.inr (h4.mono k3)
  · intro g hg
    exact k4 g (by rw [h3.goals]; exact hg)

/-- Steps left in the phases that follow the generation of the nodes. -/
def stepsLeft (C : KEnv Q P K H) (s : KState × Roadmap Q P) : Nat := match s.1.phase with
  | .build => 0
  | .link => (s.2.configs.length - s.1.lnk) * (C.k + 1) - (if s.1.lnk < s.2.configs.length then s.1.it else 0) + 2
  | .connect => 1
  | .failure => 0

/-- What one step does. -/
structure StepOk (C : KEnv Q P K H) (s s' : KState × Roadmap Q P) : Prop where
  rank : s.1.phase.rank ≤ s'.1.phase.rank ∧ s'.1.phase.rank ≤ s.1.phase.rank + 1
  left : s.1.phase ≠ .build → stepsLeft C s' + 1 ≤ stepsLeft C s
  ext : Ext s.2 s'.2
  same : s.1.phase ≠ .build → s'.2.configs = s.2.configs
  first : s.1.phase = .build → s'.1.phase = .build ∨ (s'.1.phase = .link ∧ stepsLeft C s' ≤ s'.2.configs.length * (C.k + 1) + 2)

/-- One step of kPRM* on a state that meets the invariant: it throws only `path_planning_failed`, in the failure phase or when no configuration
is found; otherwise the invariant is kept. -/
theorem kStep_spec (hC : Contract C.toPEnv Valid) (hk : 0 < C.k) (hN : 0 < C.nodes) {full : Prop} {s : KState × Roadmap Q P}
    (h : KInv C Valid V full s) (hb : s.1.phase = .build → full) :
    (∃ s', kStep C s = .ok s' ∧ KInv C Valid V full s' ∧ StepOk C s s') ∨
    (kStep C s = .error .failed ∧ (s.1.phase = .failure ∨ s.1.phase = .build)) := by
  obtain ⟨⟨ph, lnk, neigh, it, shots⟩, r⟩ := s
  obtain ⟨i, hi⟩ := h.init
  have hgood := h.good
  have hfilled := h.filled
  have hlnk := h.lnk
  have hnbr := h.nbr
  have hdone := h.done
  simp only at hgood hfilled hlnk hnbr hdone hi hb
  cases ph with
  | failure => exact Or.inr ⟨rfl, Or.inl rfl⟩
  | build =>
    by_cases hl : r.configs.length < C.nodes
    · cases hs : shootValid C C.tries shots with
      | mk x n =>
        cases x with
        | none =>
          refine Or.inr ⟨?_, Or.inr rfl⟩
          simp only [kStep, generate, if_pos hl, hs]
        | some q =>
          obtain ⟨r1, m, k1, k2, k3, k4⟩ := hgood.addNode q
          refine Or.inl ⟨(⟨.build, lnk, neigh, it, n⟩, r1), ?_, ?_, ?_⟩
          · simp only [kStep, generate, if_pos hl, hs, k1]
          · exact ⟨k2, ⟨i, by rw [k3.init]; exact hi⟩, by simp, by simp, by simp, by simp [Phase.rank], by simp⟩
          · exact ⟨by simp [Phase.rank], by simp, k3, by simp, by simp⟩
    · have h0 : 0 < r.configs.length := by omega
      have e0 : r.configs[0]? = some r.configs[0] := List.getElem?_eq_getElem h0
      obtain ⟨l, k1, k2⟩ := nearestNodes_spec hk r e0
      refine Or.inl ⟨(⟨.link, 0, l, 0, shots⟩, r), ?_, ?_, ?_⟩
      · simp only [kStep, generate, if_neg hl, e0, k1]
      · exact ⟨hgood, ⟨i, hi⟩, fun _ => not_lt.1 hl, by simp, fun _ _ => ⟨k2, by simp, by simp⟩, by simp [Phase.rank], by simp⟩
      · exact ⟨by simp [Phase.rank], by simp, Ext.refl r, by simp, fun _ => Or.inr ⟨rfl, by simp [stepsLeft]⟩⟩
  | connect =>
    obtain ⟨r1, k1, k2, k3, k4, k5⟩ := connectInitAndGoal_spec hC hk hgood hi
    refine Or.inl ⟨(⟨.failure, lnk, neigh, it, shots⟩, r1), ?_, ?_, ?_⟩
    · simp only [kStep, k1]
    · refine ⟨k2, ⟨i, by rw [k3.init]; exact hi⟩, fun _ => ?_, by simp, by simp, ?_, fun _ => ⟨?_, ?_⟩⟩
      · rw [k3.configs]; exact hfilled (by simp)
      · intro _ hf n hn
        simp only [k3.configs] at hn
        exact (hdone (by simp [Phase.rank]) hf n hn).mono k3
      · intro j hj
        simp only [k3.init, hi, Option.some.injEq] at hj
        rw [← hj]
        exact k4
      · intro g hg
        simp only [k3.goals] at hg
        exact k5 g hg
    · exact ⟨by simp [Phase.rank], by simp [stepsLeft], k3.ext, fun _ => k3.configs, by simp⟩
  | link =>
    obtain ⟨hl1, hl2⟩ := hlnk rfl
    by_cases he : lnk = r.configs.length
    · refine Or.inl ⟨(⟨.connect, lnk, neigh, it, shots⟩, r), ?_, ?_, ?_⟩
      · simp only [kStep, linkNodes, if_pos he]
      · refine ⟨hgood, ⟨i, hi⟩, fun _ => hfilled (by simp), by simp, by simp, ?_, by simp⟩
        intro _ _ n hn
        exact hl2 n (by rw [he]; exact hn)
      · exact ⟨by simp [Phase.rank], by simp [stepsLeft], Ext.refl r, fun _ => rfl, by simp⟩
    · have hlt : lnk < r.configs.length := by omega
      obtain ⟨n1, n2, n3⟩ := hnbr rfl hlt
      have hlen : neigh.length ≤ C.k := by
        obtain ⟨q, -, left, -, h2, -⟩ := n1
        omega
      have e1 : r.configs[lnk]? = some r.configs[lnk] := List.getElem?_eq_getElem hlt
      have hmul : (r.configs.length - lnk) * (C.k + 1) = (r.configs.length - (lnk + 1)) * (C.k + 1) + (C.k + 1) := by
        have : r.configs.length - lnk = (r.configs.length - (lnk + 1)) + 1 := by omega
        rw [this, Nat.add_mul, Nat.one_mul]
      by_cases hit : it = neigh.length
      · have hD : Done C r lnk := ⟨neigh, n1, by rw [hit, List.take_length] at n3; exact n3⟩
        have hD' : ∀ n < lnk + 1, Done C r n := by
          intro n hn
          rcases Nat.lt_succ_iff_lt_or_eq.1 hn with hn | rfl
          · exact hl2 n hn
          · exact hD
        by_cases hlast : lnk + 1 = r.configs.length
        · refine Or.inl ⟨(⟨.link, lnk + 1, neigh, it, shots⟩, r), ?_, ?_, ?_⟩
          · simp only [kStep, linkNodes, if_neg he, e1, if_pos hit, if_pos hlast]
          · exact ⟨hgood, ⟨i, hi⟩, fun _ => hfilled (by simp), fun _ => ⟨by simp only; omega, hD'⟩,
              fun _ hh => by simp only at hh; omega, by simp [Phase.rank], by simp⟩
          · refine ⟨by simp [Phase.rank], fun _ => ?_, Ext.refl r, fun _ => rfl, by simp⟩
            simp only [stepsLeft, if_pos hlt, if_neg (show ¬ lnk + 1 < r.configs.length by omega)]
            omega
        · have hlt2 : lnk + 1 < r.configs.length := by omega
          have e2 : r.configs[lnk + 1]? = some r.configs[lnk + 1] := List.getElem?_eq_getElem hlt2
          obtain ⟨l, k1, k2⟩ := nearestNodes_spec hk r e2
          refine Or.inl ⟨(⟨.link, lnk + 1, l, 0, shots⟩, r), ?_, ?_, ?_⟩
          · simp only [kStep, linkNodes, if_neg he, e1, if_pos hit, if_neg hlast, e2, k1]
          · exact ⟨hgood, ⟨i, hi⟩, fun _ => hfilled (by simp), fun _ => ⟨by simp only; omega, hD'⟩,
              fun _ _ => ⟨k2, by simp, by simp⟩, by simp [Phase.rank], by simp⟩
          · refine ⟨by simp [Phase.rank], fun _ => ?_, Ext.refl r, fun _ => rfl, by simp⟩
            simp only [stepsLeft, if_pos hlt, if_pos hlt2]
            omega
      · have hitl : it < neigh.length := by omega
        have e3 : neigh[it]? = some neigh[it] := List.getElem?_eq_getElem hitl
        obtain ⟨r1, k1, k2, k3, k4⟩ := connectNode_spec hC hgood hlt (n1.lt (List.getElem_mem hitl))
        refine Or.inl ⟨(⟨.link, lnk, neigh, it + 1, shots⟩, r1), ?_, ?_, ?_⟩
        · simp only [kStep, linkNodes, if_neg he, e1, if_neg hit, e3, k1]
        · refine ⟨k2, ⟨i, by rw [k3.init]; exact hi⟩, fun _ => by simp only [k3.configs]; exact hfilled (by simp),
            fun _ => ⟨by simp only [k3.configs]; exact hl1, fun n hn => (hl2 n hn).mono k3⟩,
            fun _ _ => ⟨n1.congr k3.configs, hitl, ?_⟩, by simp [Phase.rank], by simp⟩
          intro m hm
          simp only [List.take_add_one, e3, Option.toList_some] at hm
          rcases List.mem_append.1 hm with hm | hm
          · exact (n3 m hm).mono k3
          · rw [List.mem_singleton.1 hm]; exact k4
        · refine ⟨by simp [Phase.rank], fun _ => ?_, k3.ext, fun _ => k3.configs, by simp⟩
          simp only [stepsLeft, k3.configs, if_pos hlt]
          omega

/-! ## C41 -/

/-- `n` steps. -/
def kRun (C : KEnv Q P K H) : Nat → KState × Roadmap Q P → Except PlanErr (KState × Roadmap Q P)
  | 0, s => .ok s
  | n + 1, s => match kStep C s with
    | .error e => .error e
    | .ok s' => kRun C n s'

theorem kStart_spec (hN : 0 < C.nodes) (q0 : Q) (gs : List Q) {s : KState × Roadmap Q P} (h : Good C.toPEnv Valid V s.2) :
    ∃ s', kStart C q0 gs s = .ok s' ∧ KInv C Valid V (s'.1.phase = .build) s' ∧ Tagged q0 gs s'.2 ∧ (s'.1.phase = .build ∨ s'.1.phase = .connect) := by
  obtain ⟨r1, h1, h2, -, h3⟩ := startSolve_spec h q0 gs
  obtain ⟨i, hi, -⟩ := h3.init
  by_cases hl : C.nodes ≤ r1.configs.length
  · refine ⟨({ s.1 with phase := .connect }, r1), ?_, ?_, h3, Or.inr rfl⟩
    · simp only [kStart, h1, if_neg (show ¬ C.nodes = 0 by omega), if_pos hl]
    · exact ⟨h2, ⟨i, hi⟩, fun _ => hl, by simp, by simp, by simp, by simp⟩
  · refine ⟨({ s.1 with phase := .build }, r1), ?_, ?_, h3, Or.inl rfl⟩
    · simp only [kStart, h1, if_neg (show ¬ C.nodes = 0 by omega), if_neg hl]
    · exact ⟨h2, ⟨i, hi⟩, by simp, by simp, by simp, by simp [Phase.rank], by simp⟩

/-- The state after `n` steps from the start of a resolution. -/
def KAfter (C : KEnv Q P K H) (q0 : Q) (gs : List Q) (s : KState × Roadmap Q P) (n : Nat) (t : KState × Roadmap Q P) : Prop :=
  ∃ s0, kStart C q0 gs s = .ok s0 ∧ kRun C n s0 = .ok t

theorem kRun_succ (n : Nat) (s : KState × Roadmap Q P) :
    kRun C (n + 1) s = match kRun C n s with
      | .error e => .error e
      | .ok s' => kStep C s' := by
  induction n generalizing s with
  | zero =>
    simp only [kRun]
    cases kStep C s <;> rfl
  | succ n ih =>
    rw [kRun]
    cases hs : kStep C s with
    | error e => simp only [kRun, hs]
    | ok s' =>
      have := ih s'
      simp only [kRun, hs] at this ⊢
      exact this

/-- The invariant holds after any number of steps. -/
theorem kAfter_inv (hC : Contract C.toPEnv Valid) (hk : 0 < C.k) (hN : 0 < C.nodes) (q0 : Q) (gs : List Q) {s : KState × Roadmap Q P}
    (h : Good C.toPEnv Valid V s.2) (n : Nat) {t : KState × Roadmap Q P} (ht : KAfter C q0 gs s n t) :
    ∃ full : Prop, KInv C Valid V full t ∧ (t.1.phase = .build → full) ∧ Tagged q0 gs t.2 ∧
      (∀ s0, kStart C q0 gs s = .ok s0 → (full ↔ s0.1.phase = .build)) := by
  obtain ⟨s0, h1, h2⟩ := ht
  obtain ⟨s0', k1, k2, k3, k4⟩ := kStart_spec (C := C) hN q0 gs h
  rw [h1] at k1
  cases k1
  have key : ∀ n t, kRun C n s0 = .ok t → KInv C Valid V (s0.1.phase = .build) t ∧ (t.1.phase = .build → s0.1.phase = .build) ∧ Tagged q0 gs t.2 := by
    intro n
    induction n with
    | zero =>
      intro t ht
      cases (Except.ok.inj ht)
      exact ⟨k2, id, k3⟩
    | succ n ih =>
      intro t ht
      rw [kRun_succ] at ht
      cases hr : kRun C n s0 with
      | error e => rw [hr] at ht; simp at ht
      | ok u =>
        rw [hr] at ht
        simp only at ht
        obtain ⟨m1, m2, m3⟩ := ih u hr
        rcases kStep_spec hC hk hN m1 m2 with ⟨t', j1, j2, j3⟩ | ⟨j1, -⟩
        · rw [ht] at j1
          cases j1
          refine ⟨j2, fun hb => m2 ?_, m3.mono j3.ext⟩
          have hr := j3.rank.1
          rw [hb] at hr
          cases hp : u.1.phase <;> simp_all [Phase.rank]
        · rw [ht] at j1
          simp at j1
  obtain ⟨m1, m2, m3⟩ := key n t h2
  refine ⟨s0.1.phase = .build, m1, m2, m3, ?_⟩
  intro s1 hs1
  rw [h1] at hs1
  cases hs1
  exact Iff.rfl

/-- C41: from any good roadmap and for any problem with at least two nodes (so that `numberNeighbors_ > 0`), a step of kPRM* after any number
of steps either succeeds, and then the phases are visited in order build, link, connect, failure (staying in a phase or going to the next one),
or throws `path_planning_failed`, in the failure phase or because no configuration was found: no invalid iterator or node is used. -/
theorem C41_order (hC : Contract C.toPEnv Valid) (hk : 0 < C.k) (hN : 0 < C.nodes) (q0 : Q) (gs : List Q) {s : KState × Roadmap Q P}
    (h : Good C.toPEnv Valid V s.2) (n : Nat) {t : KState × Roadmap Q P} (ht : KAfter C q0 gs s n t) :
    (∃ t', kStep C t = .ok t' ∧ t.1.phase.rank ≤ t'.1.phase.rank ∧ t'.1.phase.rank ≤ t.1.phase.rank + 1) ∨
    (kStep C t = .error .failed ∧ (t.1.phase = .failure ∨ t.1.phase = .build)) := by
  obtain ⟨full, h1, h2, -⟩ := kAfter_inv hC hk hN q0 gs h n ht
  rcases kStep_spec hC hk hN h1 h2 with ⟨t', j1, j2, j3⟩ | hf
  · exact Or.inl ⟨t', j1, j3.rank⟩
  · exact Or.inr hf

/-- C41: all edges inserted carry paths accepted by the validation that join the configurations of their nodes, and the two directions are
inserted (no node is inserted one-way). -/
theorem C41_links (hC : Contract C.toPEnv Valid) (hk : 0 < C.k) (hN : 0 < C.nodes) (q0 : Q) (gs : List Q) {s : KState × Roadmap Q P}
    (h : Good C.toPEnv Valid V s.2) (n : Nat) {t : KState × Roadmap Q P} (ht : KAfter C q0 gs s n t) :
    Good C.toPEnv Valid V t.2 ∧ Tagged q0 gs t.2 := by
  obtain ⟨full, h1, h2, h3, -⟩ := kAfter_inv hC hk hN q0 gs h n ht
  exact ⟨h1.good, h3⟩

/-- C41: when the linking phase of a roadmap built by the planner is over, each node has been treated with `k` nearest nodes: they are the node itself,
or linked to it, or there is no valid direct path. -/
theorem C41_complete (hC : Contract C.toPEnv Valid) (hk : 0 < C.k) (hN : 0 < C.nodes) (q0 : Q) (gs : List Q) {s s0 : KState × Roadmap Q P}
    (h : Good C.toPEnv Valid V s.2) (h0 : kStart C q0 gs s = .ok s0) (hb : s0.1.phase = .build) (n : Nat) {t : KState × Roadmap Q P}
    (ht : kRun C n s0 = .ok t) (hp : 2 ≤ t.1.phase.rank) :
    C.nodes ≤ t.2.configs.length ∧ ∀ m < t.2.configs.length, Done C t.2 m := by
  obtain ⟨full, h1, h2, h3, h4⟩ := kAfter_inv hC hk hN q0 gs h n ⟨s0, h0, ht⟩
  refine ⟨h1.filled (by intro hh; rw [hh] at hp; simp [Phase.rank] at hp), h1.done hp ((h4 s0 h0).2 hb)⟩

/-- C41: in the failure phase, the init node has an out-edge or has been treated with its nearest nodes, and each goal node has an in-edge or
has been treated with its nearest nodes. -/
theorem C41_connect (hC : Contract C.toPEnv Valid) (hk : 0 < C.k) (hN : 0 < C.nodes) (q0 : Q) (gs : List Q) {s : KState × Roadmap Q P}
    (h : Good C.toPEnv Valid V s.2) (n : Nat) {t : KState × Roadmap Q P} (ht : KAfter C q0 gs s n t) (hp : t.1.phase = .failure) :
    (∀ i, t.2.init = some i → t.2.out i ≠ [] ∨ Done C t.2 i) ∧ (∀ g ∈ t.2.goals, t.2.inn g ≠ [] ∨ Done C t.2 g) := by
  obtain ⟨full, h1, -⟩ := kAfter_inv hC hk hN q0 gs h n ht
  exact h1.conn hp

/-- C41: once the nodes are generated, at most `N (k + 1) + 2` steps lead to the failure phase, where the next step throws (unless the resolution stops before
because the problem is solved), `N` being the number of nodes. -/
theorem C41_finishes (hC : Contract C.toPEnv Valid) (hk : 0 < C.k) (hN : 0 < C.nodes) (q0 : Q) (gs : List Q) {s : KState × Roadmap Q P}
    (h : Good C.toPEnv Valid V s.2) (n : Nat) {t : KState × Roadmap Q P} (ht : KAfter C q0 gs s n t) (hp : t.1.phase ≠ .build) :
    ∃ m u, m ≤ t.2.configs.length * (C.k + 1) + 2 ∧ kRun C m t = .ok u ∧ u.1.phase = .failure ∧ u.2.configs = t.2.configs ∧
      kStep C u = .error .failed := by
  obtain ⟨full, h1, h2, -⟩ := kAfter_inv hC hk hN q0 gs h n ht
  have key : ∀ b (t : KState × Roadmap Q P), stepsLeft C t ≤ b → KInv C Valid V full t → t.1.phase ≠ .build →
      ∃ m u, m ≤ b ∧ kRun C m t = .ok u ∧ u.1.phase = .failure ∧ u.2.configs = t.2.configs ∧ kStep C u = .error .failed := by
    intro b
    induction b with
    | zero =>
      intro t hb ht hp
      have hf : t.1.phase = .failure := by
        cases hh : t.1.phase with
        | build => exact absurd hh hp
        | failure => rfl
        | link => simp [stepsLeft, hh] at hb
        | connect => simp [stepsLeft, hh] at hb
      exact ⟨0, t, le_refl _, rfl, hf, rfl, by simp [kStep, hf]⟩
    | succ b ih =>
      intro t hb ht hp
      rcases kStep_spec hC hk hN ht (fun hh => absurd hh hp) with ⟨t', j1, j2, j3⟩ | ⟨j1, j2⟩
      · have hlt := j3.left hp
        have hp' : t'.1.phase ≠ .build := by
          intro hh
          have hr := j3.rank.1
          rw [hh] at hr
          cases hq : t.1.phase <;> simp_all [Phase.rank]
        obtain ⟨m, u, k1, k2, k3, k4, k5⟩ := ih t' (by omega) j2 hp'
        exact ⟨m + 1, u, by omega, by simp only [kRun, j1, k2], k3, by rw [k4, j3.same hp], k5⟩
      · rcases j2 with j2 | j2
        · exact ⟨0, t, by omega, rfl, j2, rfl, j1⟩
        · exact absurd j2 hp
  refine key _ t ?_ h1 hp
  cases hh : t.1.phase with
  | build => exact absurd hh hp
  | failure => simp [stepsLeft, hh]
  | connect => simp [stepsLeft, hh]
  | link =>
    simp only [stepsLeft, hh]
    have : (t.2.configs.length - t.1.lnk) * (C.k + 1) ≤ t.2.configs.length * (C.k + 1) := Nat.mul_le_mul_right _ (Nat.sub_le _ _)
    omega

/-- The planner. -/
def kprm (C : KEnv Q P K H) (heur : Roadmap Q P → Nat → K) (q0 : Q) (gs : List Q) : Calls (KState × Roadmap Q P) (List P) PlanErr :=
  planCalls C.toPEnv heur (kStart C q0 gs) (kStep C)

/-- C67: the path returned by kPRM* is a continuous sequence of validated paths from the init configuration to a goal configuration. -/
theorem C67_kprm (hC : Contract C.toPEnv Valid) (hk : 0 < C.k) (hN : 0 < C.nodes) (heur : Roadmap Q P → Nat → K) (q0 : Q) (gs : List Q)
    {s : KState × Roadmap Q P} (h : Good C.toPEnv Valid V s.2) (st : Settings K) (late intr : Nat → Bool) (fuel : Nat) (l : List P)
    (hl : solve (kprm C heur q0 gs) st late intr fuel s = .path l) : Solves C.toPEnv Valid q0 gs l := by
  obtain ⟨s0, h1, h2, h3, -⟩ := kStart_spec (C := C) hN q0 gs h
  refine solve_solves C.toPEnv Valid heur _ _ q0 gs
    (fun s => KInv C Valid V (s0.1.phase = .build) s ∧ (s.1.phase = .build → s0.1.phase = .build) ∧ Tagged q0 gs s.2)
    (fun s hs => ⟨⟨V, hs.1.good⟩, hs.2.2⟩) s _ h1 ⟨h2, id, h3⟩ ?_ st late intr fuel l hl
  rintro u u' ⟨k1, k2, k3⟩ hu
  rcases kStep_spec hC hk hN k1 k2 with ⟨t', j1, j2, j3⟩ | ⟨j1, -⟩
  · rw [hu] at j1
    cases j1
    refine ⟨j2, fun hb => k2 ?_, k3.mono j3.ext⟩
    have hr := j3.rank.1
    rw [hb] at hr
    cases hp : u.1.phase <;> simp_all [Phase.rank]
  · rw [hu] at j1
    simp at j1

/-! ## Number of neighbours -/

/-- `numberNeighbors_`: k-prm-star.cc:45, 68-69, over the real numbers. -/
noncomputable def numberNeighbors (n : Nat) : Nat := ⌊2 * Real.exp 1 * Real.log n + 1 / 2⌋₊

/-- C41: with at least two nodes the number of neighbours is positive. -/
theorem C41_neighbors (n : Nat) (hn : 2 ≤ n) : 0 < numberNeighbors n := by
  unfold numberNeighbors
  rw [Nat.floor_pos]
  have h1 : Real.log 2 ≤ Real.log n := Real.log_le_log (by norm_num) (by exact_mod_cast hn)
  have h2 : (0.6931471803 : ℝ) < Real.log 2 := Real.log_two_gt_d9
  have h3 : (1 : ℝ) < Real.exp 1 := by
    have := Real.add_one_lt_exp (show (1 : ℝ) ≠ 0 by norm_num)
    linarith
  nlinarith

/-- C41: with parameter `kPRM*/numberOfNodes` equal to 1, accepted by `startSolve`, no neighbour is asked for and the first step reads the top of an empty
queue (undefined behaviour), whatever the problem. -/
theorem C41_one_node_counterexample : numberNeighbors 1 = 0 ∧
    ∀ (C : KEnv Q P K H) (q0 : Q) (gs : List Q) (s : KState), C.k = numberNeighbors 1 → C.nodes = 1 → gs ≠ [] →
      ∃ s0, kStart C q0 gs (s, Roadmap.empty) = .ok s0 ∧ kStep C s0 = .error (.road .nullPointer) := by
  have h1 : numberNeighbors 1 = 0 := by
    unfold numberNeighbors
    simp only [Nat.cast_one, Real.log_one, mul_zero, zero_add]
    rw [Nat.floor_eq_zero]
    norm_num
  refine ⟨h1, ?_⟩
  intro C q0 gs s hk hN hgs
  rw [h1] at hk
  have hg : Good C.toPEnv (fun _ => True) [] (Roadmap.empty : Roadmap Q P) := ⟨Inv.empty, by simp [Roadmap.empty]⟩
  obtain ⟨r1, e1, e2, -, e3⟩ := startSolve_spec hg q0 gs
  obtain ⟨i, hi, hq⟩ := e3.init
  have hlen : 0 < r1.configs.length := lt_of_le_of_lt (Nat.zero_le _) (lt_of_get hq)
  refine ⟨({ s with phase := .connect }, r1), ?_, ?_⟩
  · simp only [kStart, e1, hN, if_neg Nat.one_ne_zero, if_pos (show 1 ≤ r1.configs.length from hlen)]
  · have hnear : ∀ (q : Q), nearestNodes C r1 q = none := by
      intro q
      unfold nearestNodes
      rw [hk]
      obtain ⟨m, hm⟩ : ∃ m, r1.configs.length = m + 1 := ⟨r1.configs.length - 1, by omega⟩
      rw [hm, List.range_succ_eq_map, NN.C16_zero_counterexample]
      rfl
    have hone : ∀ n < r1.configs.length, ∀ b, connectOne C r1 n b = .error (.road .nullPointer) := by
      intro n hn b
      simp only [connectOne, List.getElem?_eq_getElem hn, hnear]
    have hc : connectInitAndGoal C r1 = .error (.road .nullPointer) := by
      unfold connectInitAndGoal
      simp only [hi]
      by_cases ho : (r1.out i).isEmpty = true
      · rw [if_pos ho, hone i (lt_of_get hq)]
      · rw [if_neg ho]
        obtain ⟨q, hq'⟩ := List.exists_mem_of_ne_nil gs hgs
        obtain ⟨g, hg1, -⟩ := e3.all q hq'
        obtain ⟨g0, l, hg0⟩ := List.exists_cons_of_ne_nil (List.ne_nil_of_mem hg1)
        have := e2.inv.goals g0 (by rw [hg0]; simp)
        simp only [hg0, connectGoals, hone g0 this]
    simp only [kStep, hc]

namespace Line

/-- kPRM* on the line, 4 nodes, 2 neighbours. -/
def kenv : KEnv Int LP Int {l : List (Int × Nat) // l.Pairwise (fun a b => b.1 ≤ a.1)} where
  toPEnv := env
  nodes := 4
  k := 2
  pq := NN.sortedQueue
  shoot n := if n = 0 then 12 else if n = 1 then 3 else 5
  check q := if q < 10 then some q else none
  tries := 10000

/-- the hypotheses of the theorems hold -/
example : Contract kenv.toPEnv Free ∧ 0 < kenv.k ∧ 0 < kenv.nodes ∧ Good kenv.toPEnv Free [] (Roadmap.empty : Roadmap Int LP) :=
  ⟨contract, by decide, by decide, good_empty⟩

/-- the problem is solved in the linking phase -/
example : out (solve (kprm kenv (fun _ _ => 0) 0 [8]) (Settings.default (K := Int)) (fun _ => false) (fun _ => false) 100
    (⟨.failure, 7, [9], 3, 0⟩, Roadmap.empty)) = some [(0, 3), (3, 5), (5, 8)] := by decide +kernel

/-- a problem without solution: the failure phase is reached and the planner throws -/
example : (match solve (kprm kenv (fun _ _ => 0) 0 [12]) (Settings.default (K := Int)) (fun _ => false) (fun _ => false) 100
    (⟨.failure, 7, [9], 3, 0⟩, Roadmap.empty) with | .error .failed => true | _ => false) = true := by decide +kernel

end Line

end Verif.Planner
