import Verif.Roadmap.Props

/-!
# C124: roadmaps edited by hand through the problem solver

src/problem-solver.cc:795-814.  A user gives configurations, not nodes: `addEdgeToRoadmap` looks for the node
closest to each of the two configurations.
-/
set_option linter.unusedSectionVars false
namespace Verif.Roadmap.Manual
open Verif.Roadmap
variable {Q P K : Type} [DecidableEq Q] [LinearOrder K]

/-- Outcomes of `addEdgeToRoadmap` other than success: the two `std::runtime_error` of src/problem-solver.cc:807-812,
and an abnormal outcome of `Roadmap::addEdge` (shown impossible). -/
inductive Failure where
  | config1 | config2 | roadmap (e : Err)
  deriving DecidableEq

/-- `distance >= accuracy` where `distance` was written by `Roadmap::nearestNode` (src/roadmap.cc:209-225): on an empty
roadmap the node is null and the distance is infinite.  Tests of src/problem-solver.cc:807 and 810. -/
def near (acc : K) : Option (K × Nat) → Option Nat
  | none => none
  | some (d, n) => if d ≥ acc then none else some n

/-- `ProblemSolver::addConfigToRoadmap`: src/problem-solver.cc:795-797. -/
def addConfigToRoadmap (E : Env Q P K) (r : Roadmap Q P) (q : Q) : Except Err (Roadmap Q P) :=
  match addNode E r q with
  | .ok (r', _) => .ok r'
  | .error e => .error e

/-- `ProblemSolver::addEdgeToRoadmap(config1, config2, path)`: src/problem-solver.cc:799-814.  `acc` is `accuracy`
(10e-6 in the code, line 803). -/
def addEdgeToRoadmap (E : Env Q P K) (acc : K) (r : Roadmap Q P) (q1 q2 : Q) (p : P) : Except Failure (Roadmap Q P) :=
  let node1 := nearestNode E r q1
  let node2 := nearestNode E r q2
  match near acc node1 with
  | none => .error .config1
  | some a =>
    match near acc node2 with
    | none => .error .config2
    | some b =>
      match addEdge r a b p with
      | .ok r' => .ok r'
      | .error e => .error (.roadmap e)

/-- Calls of a session of manual edition. -/
inductive Edit (Q P : Type) where
  | config (q : Q)
  | edge (q1 q2 : Q) (p : P)

/-- A call; an exception leaves the roadmap as it was (src/problem-solver.cc:807-812 come before any change). -/
def apply (E : Env Q P K) (acc : K) (r : Roadmap Q P) : Edit Q P → Roadmap Q P
  | .config q => match addConfigToRoadmap E r q with
    | .ok r' => r'
    | .error _ => r
  | .edge q1 q2 p => match addEdgeToRoadmap E acc r q1 q2 p with
    | .ok r' => r'
    | .error _ => r

/-! ## Specification -/

/-- Some configuration of the roadmap is nearer to `q` than the accuracy. -/
def Known (E : Env Q P K) (acc : K) (r : Roadmap Q P) (q : Q) : Prop := ∃ c ∈ r.configs, E.dist c q < acc

/-- Node `n` holds a configuration nearer to `q` than the accuracy, and no node is nearer. -/
def Nearest (E : Env Q P K) (acc : K) (r : Roadmap Q P) (q : Q) (n : Nat) : Prop :=
  ∃ c, r.configs[n]? = some c ∧ E.dist c q < acc ∧ ∀ y ∈ r.configs, E.dist c q ≤ E.dist y q

theorem near_spec (E : Env Q P K) (acc : K) {r : Roadmap Q P} (h : Wf r) (q : Q) :
    (∃ n, near acc (nearestNode E r q) = some n ∧ Nearest E acc r q n) ∨
      near acc (nearestNode E r q) = none ∧ ¬ Known E acc r q := by
  by_cases hne : r.configs = []
  · right
    refine ⟨?_, fun ⟨c, hc, _⟩ => by rw [hne] at hc; simp at hc⟩
    have hl : r.live = [] := by
      rcases hlv : r.live with _ | ⟨c, cs⟩
      · rfl
      · exfalso
        have hc : c ∈ r.live := by rw [hlv]; simp
        have h1 := h.nonempty c hc
        rcases hn : (r.comp c).nodes with _ | ⟨x, xs⟩
        · exact h1 hn
        · have := (h.owned c hc x (by rw [hn]; simp)).1
          rw [hne] at this; simp at this
    simp [nearestNode, hl, nearestLoop, near]
  · obtain ⟨m, n, h1, ⟨c, h2, h3⟩, h4⟩ := nearestNode_spec E h q false hne
    rw [h1]
    simp only [qdist, Bool.false_eq_true, if_false] at h3 h4
    subst h3
    show (∃ k, (if E.dist c q ≥ acc then none else some n) = some k ∧ Nearest E acc r q k) ∨
      (if E.dist c q ≥ acc then none else some n) = none ∧ ¬ Known E acc r q
    by_cases hm : E.dist c q ≥ acc
    · right
      rw [if_pos hm]
      refine ⟨rfl, fun ⟨y, hy, hy2⟩ => ?_⟩
      exact absurd (lt_of_le_of_lt (h4 y hy) hy2) (not_lt.2 hm)
    · left
      rw [if_neg hm]
      exact ⟨n, rfl, c, h2, not_le.1 hm, h4⟩

theorem Nearest.known {E : Env Q P K} {acc : K} {r : Roadmap Q P} {q : Q} {n : Nat} (h : Nearest E acc r q n) : Known E acc r q := by
  obtain ⟨c, h1, h2, _⟩ := h
  exact ⟨c, List.mem_of_getElem? h1, h2⟩

theorem Nearest.lt {E : Env Q P K} {acc : K} {r : Roadmap Q P} {q : Q} {n : Nat} (h : Nearest E acc r q n) : n < r.configs.length := by
  obtain ⟨c, h1, _⟩ := h
  exact (List.getElem?_eq_some_iff.1 h1).1

/-- C124: `addEdgeToRoadmap` succeeds exactly when both configurations are known.  It then adds one directed edge, holding
the given path, between nodes nearest to the configurations; nodes, init node and goal nodes do not change, and the roadmap stays coherent. -/
theorem C124_edge (E : Env Q P K) (acc : K) {V : List (Nat × Nat)} {r : Roadmap Q P} (h : Inv V r) (q1 q2 : Q) (p : P)
    (h1 : Known E acc r q1) (h2 : Known E acc r q2) :
    ∃ r' a b, addEdgeToRoadmap E acc r q1 q2 p = .ok r' ∧ Nearest E acc r q1 a ∧ Nearest E acc r q2 b ∧
      r'.configs = r.configs ∧ r'.edges.map (fun e => (e.src, e.dst, e.path)) = r.edges.map (fun e => (e.src, e.dst, e.path)) ++ [(a, b, p)] ∧
      r'.init = r.init ∧ r'.goals = r.goals ∧ Inv V r' := by
  obtain ⟨a, ha, hna⟩ | ⟨_, hn⟩ := near_spec E acc h.wf q1
  swap
  · exact absurd h1 hn
  obtain ⟨b, hb, hnb⟩ | ⟨_, hn⟩ := near_spec E acc h.wf q2
  swap
  · exact absurd h2 hn
  obtain ⟨r', e1, e2, e3⟩ := h.addEdge p hna.lt hnb.lt
  refine ⟨r', a, b, ?_, hna, hnb, e3.configs, ?_, e3.init, e3.goals, e2⟩
  · simp only [addEdgeToRoadmap, ha, hb, e1]
  · rw [e3.edges]; simp

/-- C124: otherwise an exception names the first configuration that is not known (also on an empty roadmap). -/
theorem C124_refused (E : Env Q P K) (acc : K) {V : List (Nat × Nat)} {r : Roadmap Q P} (h : Inv V r) (q1 q2 : Q) (p : P) :
    (addEdgeToRoadmap E acc r q1 q2 p = .error .config1 ↔ ¬ Known E acc r q1) ∧
    (addEdgeToRoadmap E acc r q1 q2 p = .error .config2 ↔ Known E acc r q1 ∧ ¬ Known E acc r q2) ∧
    ∀ e, addEdgeToRoadmap E acc r q1 q2 p ≠ .error (.roadmap e) := by
  obtain ⟨a, ha, hna⟩ | ⟨ha, hn1⟩ := near_spec E acc h.wf q1
  · obtain ⟨b, hb, hnb⟩ | ⟨hb, hn2⟩ := near_spec E acc h.wf q2
    · obtain ⟨r', e1, _, _⟩ := h.addEdge p hna.lt hnb.lt
      have : addEdgeToRoadmap E acc r q1 q2 p = .ok r' := by simp only [addEdgeToRoadmap, ha, hb, e1]
      rw [this]
      simp [hna.known, hnb.known]
    · have : addEdgeToRoadmap E acc r q1 q2 p = .error .config2 := by simp only [addEdgeToRoadmap, ha, hb]
      rw [this]
      simp [hna.known, hn2]
  · have : addEdgeToRoadmap E acc r q1 q2 p = .error .config1 := by simp only [addEdgeToRoadmap, ha]
    rw [this]
    simp [hn1]

/-- C124: `addConfigToRoadmap` never fails; afterwards the configuration is a node of the roadmap, edges do not change, and no
node is lost or renumbered. -/
theorem C124_config (E : Env Q P K) {V : List (Nat × Nat)} {r : Roadmap Q P} (h : Inv V r) (q : Q) :
    ∃ r', addConfigToRoadmap E r q = .ok r' ∧ q ∈ r'.configs ∧ r'.edges = r.edges ∧ r'.init = r.init ∧ r'.goals = r.goals ∧
      (r'.configs = r.configs ∨ r'.configs = r.configs ++ [q]) ∧ Inv V r' := by
  obtain ⟨r', n, h1, h2, h3, _, h5, h6, h7, h8⟩ := h.addNode E q
  refine ⟨r', ?_, List.mem_of_getElem? h3, h5, h6, h7, ?_, h2⟩
  · simp only [addConfigToRoadmap, h1]
  · rcases h8 with ⟨rfl, _⟩ | ⟨_, _, h9, _⟩
    · exact .inl rfl
    · exact .inr h9

/-- A session from the empty roadmap. -/
def session (E : Env Q P K) (acc : K) (es : List (Edit Q P)) : Roadmap Q P := es.foldl (apply E acc) empty

/-- The edge joins nodes nearer than the accuracy to the ends of its path. -/
def Joins (E : Env Q P K) (acc : K) (ends : P → Q × Q) (r : Roadmap Q P) (e : Edge P) : Prop :=
  ∃ x y, r.configs[e.src]? = some x ∧ r.configs[e.dst]? = some y ∧ E.dist x (ends e.path).1 < acc ∧ E.dist y (ends e.path).2 < acc

/-- The path given with two configurations goes from the first to the second one. -/
def Edit.Consistent (ends : P → Q × Q) : Edit Q P → Prop
  | .config _ => True
  | .edge q1 q2 p => ends p = (q1, q2)

theorem Joins.mono {E : Env Q P K} {acc : K} {ends : P → Q × Q} {r r' : Roadmap Q P} {e : Edge P} (h : Joins E acc ends r e)
    (hc : r.configs <+: r'.configs) : Joins E acc ends r' e := by
  obtain ⟨x, y, h1, h2, h3⟩ := h
  have up : ∀ (i : ℕ) (c : Q), r.configs[i]? = some c → r'.configs[i]? = some c := by
    intro i c hi
    obtain ⟨t, ht⟩ := hc
    rw [← ht, List.getElem?_append_left (List.getElem?_eq_some_iff.1 hi).1]; exact hi
  exact ⟨x, y, up _ _ h1, up _ _ h2, h3⟩

theorem apply_spec (E : Env Q P K) (acc : K) (ends : P → Q × Q) {V : List (Nat × Nat)} {r : Roadmap Q P} (h : Inv V r) (e : Edit Q P)
    (he : e.Consistent ends) (hj : ∀ x ∈ r.edges, Joins E acc ends r x) :
    Inv V (apply E acc r e) ∧ r.configs <+: (apply E acc r e).configs ∧ ∀ x ∈ (apply E acc r e).edges, Joins E acc ends (apply E acc r e) x := by
  cases e with
  | config q =>
    obtain ⟨r', h1, _, h3, _, _, h6, h7⟩ := C124_config E h q
    simp only [apply, h1]
    have hp : r.configs <+: r'.configs := by
      rcases h6 with h6 | h6 <;> rw [h6]
      · exact List.prefix_refl _
      · exact List.prefix_append _ _
    exact ⟨h7, hp, fun x hx => (hj x (h3 ▸ hx)).mono hp⟩
  | edge q1 q2 p =>
    by_cases hk : Known E acc r q1 ∧ Known E acc r q2
    · obtain ⟨a, ha, hna⟩ | ⟨_, hn⟩ := near_spec E acc h.wf q1
      swap
      · exact absurd hk.1 hn
      obtain ⟨b, hb, hnb⟩ | ⟨_, hn⟩ := near_spec E acc h.wf q2
      swap
      · exact absurd hk.2 hn
      obtain ⟨r', e1, e2, e3⟩ := h.addEdge p hna.lt hnb.lt
      have ee : addEdgeToRoadmap E acc r q1 q2 p = .ok r' := by simp only [addEdgeToRoadmap, ha, hb, e1]
      simp only [apply, ee]
      have hp : r.configs <+: r'.configs := by rw [e3.configs]; exact List.prefix_refl _
      refine ⟨e2, hp, fun x hx => ?_⟩
      rw [e3.edges] at hx
      rcases List.mem_append.1 hx with hx | hx
      · exact (hj x hx).mono hp
      · rw [List.mem_singleton.1 hx]
        obtain ⟨c, c1, c2, _⟩ := hna
        obtain ⟨d, d1, d2, _⟩ := hnb
        have he' : ends p = (q1, q2) := he
        refine ⟨c, d, ?_, ?_, ?_, ?_⟩
        · rw [e3.configs]; exact c1
        · rw [e3.configs]; exact d1
        · simp only [he']; exact c2
        · simp only [he']; exact d2
    · obtain ⟨f1, f2, _⟩ := C124_refused E acc h q1 q2 p
      have : ∃ f, addEdgeToRoadmap E acc r q1 q2 p = .error f := by
        by_cases k1 : Known E acc r q1
        · exact ⟨_, f2.2 ⟨k1, fun k2 => hk ⟨k1, k2⟩⟩⟩
        · exact ⟨_, f1.2 k1⟩
      obtain ⟨f, hf⟩ := this
      simp only [apply, hf]
      exact ⟨h, List.prefix_refl _, hj⟩

theorem fold_spec (E : Env Q P K) (acc : K) (ends : P → Q × Q) {V : List (Nat × Nat)} (es : List (Edit Q P)) (he : ∀ e ∈ es, e.Consistent ends)
    (r : Roadmap Q P) (h : Inv V r) (hj : ∀ x ∈ r.edges, Joins E acc ends r x) :
    Inv V (es.foldl (apply E acc) r) ∧ r.configs <+: (es.foldl (apply E acc) r).configs ∧
      ∀ x ∈ (es.foldl (apply E acc) r).edges, Joins E acc ends (es.foldl (apply E acc) r) x := by
  induction es generalizing r with
  | nil => exact ⟨h, List.prefix_refl _, hj⟩
  | cons e es ih =>
    obtain ⟨a1, a2, a3⟩ := apply_spec E acc ends h e (he e (by simp)) hj
    obtain ⟨b1, b2, b3⟩ := ih (fun x hx => he x (by simp [hx])) _ a1 a3
    exact ⟨b1, a2.trans b2, b3⟩

/-- C124: a roadmap built by hand is coherent, and if every path given with an edge joins the two configurations given with it, every edge of
the roadmap joins nodes nearer than the accuracy to the ends of its path, whatever calls were refused. -/
theorem C124_session_partial (E : Env Q P K) (acc : K) (ends : P → Q × Q) (es : List (Edit Q P)) (he : ∀ e ∈ es, e.Consistent ends) :
    Inv [] (session E acc es) ∧ ∀ x ∈ (session E acc es).edges, Joins E acc ends (session E acc es) x := by
  obtain ⟨a, _, c⟩ := fold_spec E acc ends es he empty Inv.empty (by simp [empty])
  exact ⟨a, c⟩

/-- C124: an edge between two configurations added before is accepted, whatever happened in between. -/
theorem C124_added (E : Env Q P K) (acc : K) (hself : ∀ q, E.dist q q < acc) (ends : P → Q × Q) (es fs : List (Edit Q P)) (q1 q2 : Q) (p : P)
    (he : ∀ e ∈ es ++ fs, e.Consistent ends) (h1 : .config q1 ∈ es) (h2 : .config q2 ∈ es) :
    ∃ r', addEdgeToRoadmap E acc (session E acc (es ++ fs)) q1 q2 p = .ok r' := by
  have key : ∀ q, .config q ∈ es → q ∈ (session E acc (es ++ fs)).configs := by
    intro q hq
    obtain ⟨s, t, rfl⟩ := List.append_of_mem hq
    obtain ⟨a1, _, a3⟩ := fold_spec E acc ends s (fun e h => he e (by simp [h])) empty Inv.empty (by simp [empty])
    have b := apply_spec E acc ends a1 (.config q) trivial a3
    obtain ⟨r', c1, c2, _⟩ := C124_config E a1 q
    have c := fold_spec E acc ends (t ++ fs) (fun e h => he e (by
      rcases List.mem_append.1 h with h | h <;> simp [h])) _ b.1 b.2.2
    have hq' : q ∈ (apply E acc (s.foldl (apply E acc) empty) (.config q)).configs := by
      simp only [apply, c1]; exact c2
    have := c.2.1.subset hq'
    simpa [session, List.foldl_append] using this
  obtain ⟨a1, _⟩ := C124_session_partial E acc ends (es ++ fs) he
  obtain ⟨r', _, _, h, _⟩ := C124_edge E acc a1 q1 q2 p ⟨q1, key q1 h1, hself q1⟩ ⟨q2, key q2 h2, hself q2⟩
  exact ⟨r', h⟩

/-- Distances on natural numbers, paths given by their ends. -/
def demoEnv : Env Nat (Nat × Nat) Nat := ⟨fun a b => (a - b) + (b - a), fun p => (p.2, p.1), fun p => p.1 == p.2⟩

/-- C124: nothing checks that the path of an edge joins the two configurations: the edge between 0 and 5 holds a path from 70 to 80. -/
theorem C124_ends_counterexample :
    (session demoEnv 1 [.config 0, .config 5, .edge 0 5 (70, 80)]).edges.map (fun e => (e.src, e.dst, e.path)) = [(0, 1, (70, 80))] ∧
    (session demoEnv 1 [.config 0, .config 5, .edge 0 5 (70, 80)]).configs = [0, 5] := by decide +kernel

/-- Hypotheses: a session with an accepted edge, an edge refused because 9 is not known, and one accepted later. -/
example : (session demoEnv 1 [.config 0, .config 5, .edge 0 5 (0, 5), .edge 0 9 (0, 9), .config 9, .edge 9 0 (9, 0)]).edges.map (fun e => (e.src, e.dst, e.path))
    = [(0, 1, (0, 5)), (2, 0, (9, 0))] := by decide +kernel
example : ∀ e ∈ ([.config 0, .config 5, .edge 0 5 (0, 5), .edge 0 9 (0, 9)] : List (Edit Nat (Nat × Nat))), e.Consistent id := by
  simp [Edit.Consistent]
example : Known demoEnv 1 (session demoEnv 1 [.config 0, .config 5]) 5 ∧ ¬ Known demoEnv 1 (session demoEnv 1 [.config 0, .config 5]) 9 := by
  have : (session demoEnv 1 [.config 0, .config 5]).configs = [0, 5] := by decide +kernel
  constructor
  · exact ⟨5, by simp [this], by simp [demoEnv]⟩
  · rintro ⟨c, hc, h⟩
    simp only [this, List.mem_cons, List.not_mem_nil, or_false] at hc
    rcases hc with rfl | rfl <;> revert h <;> decide
example : ∀ q, demoEnv.dist q q < 1 := fun q => by simp [demoEnv]

end Verif.Roadmap.Manual
