import Verif.Planner.Line
set_option linter.unusedSectionVars false

/-!
# Target given by constraints (C105), search in the roadmap only (C106), planning followed by optimization (C107)

`problemTarget::TaskTarget` (src/problem-target/task-target.cc), `pathPlanner::SearchInRoadmap` (include/hpp/core/path-planner/search-in-roadmap.hh) and
`PlanAndOptimize` (src/plan-and-optimize.cc), on the model of the roadmap and of `PathPlanner::solve`.
-/
namespace Verif.Planner
open Verif.Roadmap Relation
variable {Q P K : Type}

/-! ## `TaskTarget` -/

section
variable [DecidableEq Q] [AddCommGroup K] [LinearOrder K] [IsOrderedAddMonoid K]

/-- Loop of `TaskTarget::reached`: task-target.cc:63-69, on the nodes of the component of the init node.  `addGoalNode` may create a node, but only in a
new component, so the list on which the loop iterates does not change. -/
def taskLoop (C : PEnv Q P K) (sat : Q → Bool) : List Nat → Roadmap Q P → Except Err (Bool × Roadmap Q P)
  | [], r => .ok (false, r)
  | n :: ns, r => match r.configs[n]? with
    | none => .error .badNode
    | some q =>
      if sat q then
        match addGoalNode C.toEnv r q with
        | .error e => .error e
        | .ok (r1, _) => match taskLoop C sat ns r1 with
          | .error e => .error e
          | .ok (_, r2) => .ok (true, r2)
      else taskLoop C sat ns r

/-- `TaskTarget::reached`: task-target.cc:57-71 (without the assertion that there is no goal node). -/
def taskReached (C : PEnv Q P K) (sat : Q → Bool) (r : Roadmap Q P) : Except Err (Bool × Roadmap Q P) :=
  match r.init with
  | none => .ok (false, r)
  | some i => taskLoop C sat (r.comp (r.cc i)).nodes r

/-- `TaskTarget::computePath`: task-target.cc:80-95: the path, and the roadmap without goal nodes (not reset when an exception is thrown). -/
def taskPath (C : PEnv Q P K) (heur : Roadmap Q P → Nat → K) (r : Roadmap Q P) : Except PlanErr (List P) × Roadmap Q P :=
  match computePath C heur r with
  | .error e => (.error e, r)
  | .ok l => (.ok l, resetGoalNodes r)

/-- `startSolve` for this target: path-planner.cc:83-98 (the target is not a `GoalConfigurations`, no goal node is inserted), then
`TaskTarget::check`: task-target.cc:49-55. -/
def taskStart (C : PEnv Q P K) (sat : Option (Q → Bool)) (q0 : Q) (r : Roadmap Q P) : Except PlanErr (Roadmap Q P) :=
  match startSolve C q0 [] r with
  | .error e => .error (.road e)
  | .ok r1 => if sat.isNone then .error .badParameter else .ok r1

variable {C : PEnv Q P K} {Valid : P → Prop} {V : List (Nat × Nat)} {r : Roadmap Q P}

/-- What the loop does on any consistent roadmap. -/
theorem taskLoop_spec (sat : Q → Bool) (ns : List Nat) (h : Good C Valid V r) (hn : ∀ n ∈ ns, n < r.configs.length) :
    ∃ b r', taskLoop C sat ns r = .ok (b, r') ∧ Good C Valid V r' ∧ Grow r r' ∧ r'.edges = r.edges ∧ r'.init = r.init ∧
      (b = true ↔ ∃ n ∈ ns, ∃ q, r.configs[n]? = some q ∧ sat q = true) ∧
      ∃ new, r'.goals = r.goals ++ new ∧ (∀ g ∈ new, ∃ q, r'.configs[g]? = some q ∧ sat q = true) ∧ (b = true ↔ new ≠ []) := by
  induction ns generalizing r with
  | nil => exact ⟨false, r, rfl, h, Grow.refl r, rfl, rfl, by simp, [], by simp, by simp, by simp⟩
  | cons n ns ih =>
    have hlt := hn n (by simp)
    have hq : r.configs[n]? = some r.configs[n] := List.getElem?_eq_getElem hlt
    generalize r.configs[n] = q at hq
    by_cases hs : sat q = true
    · obtain ⟨r1, m, k1, k2, k3, k4, k5, k6, k7, -⟩ := h.inv.addNode C.toEnv q
      have g1 : Good C Valid V r1 := ⟨k2, fun e he => by rw [k5] at he; exact (h.edges e he).mono k4⟩
      have g2 : Good C Valid V { r1 with goals := r1.goals ++ [m] } := by
        refine g1.setGoals ?_
        intro x hx
        rcases List.mem_append.1 hx with hx | hx
        · exact k2.goals x hx
        · rw [List.mem_singleton.1 hx]; exact lt_of_get k3
      obtain ⟨b, r2, m1, m2, m3, m4, m5, m6, new, m7, m8, m9⟩ := ih g2 (fun x hx => lt_of_lt_of_le (hn x (by simp [hx])) k4.length)
      refine ⟨true, r2, ?_, m2, Grow.trans k4 ⟨m3.configs, m3.edges⟩, by rw [m4, k5], by rw [m5, k6], ?_, m :: new, ?_, ?_, by simp⟩
      · simp only [taskLoop, hq, hs, if_true, addGoalNode, k1]
        show (match taskLoop C sat ns { r1 with goals := r1.goals ++ [m] } with
          | .error e => (Except.error e : Except Err (Bool × Roadmap Q P))
          | .ok (_, r2) => Except.ok (true, r2)) = _
        rw [m1]
      · simp only [true_iff]; exact ⟨n, by simp, q, hq, hs⟩
      · rw [m7]; simp [k7]
      · intro g hg
        rcases List.mem_cons.1 hg with rfl | hg
        · exact ⟨q, (show Grow r1 r2 from ⟨m3.configs, m3.edges⟩).get k3, hs⟩
        · exact m8 g hg
    · obtain ⟨b, r2, m1, m2, m3, m4, m5, m6, m7⟩ := ih h (fun x hx => hn x (by simp [hx]))
      refine ⟨b, r2, ?_, m2, m3, m4, m5, ?_, m7⟩
      · simp only [taskLoop, hq, hs, if_false, Bool.false_eq_true]; exact m1
      · rw [m6]
        constructor
        · rintro ⟨x, hx, y⟩; exact ⟨x, by simp [hx], y⟩
        · rintro ⟨x, hx, q', y1, y2⟩
          rcases List.mem_cons.1 hx with rfl | hx
          · rw [hq] at y1; cases y1; exact absurd y2 hs
          · exact ⟨x, hx, q', y1, y2⟩

/-- With a distance that separates the configurations and no duplicate, asking for the node of an existing configuration gives this node. -/
theorem addNode_existing (hE : Separates C.toEnv) (hd : r.configs.Nodup) (h : Inv V r) {n : Nat} {q : Q} (hn : r.configs[n]? = some q) :
    addNode C.toEnv r q = .ok (r, n) := by
  obtain ⟨r', m, h1, h2, h3, h4, h5, h6, h7, h8⟩ := h.addNode C.toEnv q
  have hq : q ∈ r.configs := List.mem_of_getElem? hn
  rcases h8 with ⟨rfl, hm⟩ | ⟨_, _, _, h8 | ⟨k, m, hk, hm⟩⟩
  · rw [h1]
    have : m = n := (List.getElem?_inj hm hd).1 (h3.trans hn.symm)
    rw [this]
  · rw [h8] at hq; simp at hq
  · exfalso
    obtain ⟨k', m', hk', ⟨c, hc1, hc2⟩, hmin⟩ := nearestNode_spec C.toEnv h.wf q false (List.ne_nil_of_mem hq)
    rw [hk] at hk'; cases hk'
    have := hmin q hq
    rw [hc2] at this
    exact hm (by rw [hc1, hE c q this])

/-- The node satisfies the constraints. -/
def satNode (sat : Q → Bool) (r : Roadmap Q P) (n : Nat) : Bool := match r.configs[n]? with
  | none => false
  | some q => sat q

theorem taskLoop_nodup (hE : Separates C.toEnv) (sat : Q → Bool) (ns : List Nat) (hd : r.configs.Nodup) (h : Inv V r)
    (hn : ∀ n ∈ ns, n < r.configs.length) :
    ∃ b, taskLoop C sat ns r = .ok (b, { r with goals := r.goals ++ ns.filter (satNode sat r) }) := by
  induction ns generalizing r with
  | nil => exact ⟨false, by simp [taskLoop]⟩
  | cons n ns ih =>
    have hlt := hn n (by simp)
    have hq : r.configs[n]? = some r.configs[n] := List.getElem?_eq_getElem hlt
    generalize r.configs[n] = q at hq
    by_cases hs : sat q = true
    · have hsn : satNode sat r n = true := by simp only [satNode, hq]; exact hs
      have h' : Inv V { r with goals := r.goals ++ [n] } := by
        refine h.setGoals ?_
        intro x hx
        rcases List.mem_append.1 hx with hx | hx
        · exact h.goals x hx
        · rw [List.mem_singleton.1 hx]; exact hlt
      obtain ⟨b, hb⟩ := ih (r := { r with goals := r.goals ++ [n] }) hd h' (fun x hx => hn x (by simp [hx]))
      refine ⟨true, ?_⟩
      simp only [taskLoop, hq, hs, if_true, addGoalNode, addNode_existing hE hd h hq]
      show (match taskLoop C sat ns { r with goals := r.goals ++ [n] } with
          | .error e => (Except.error e : Except Err (Bool × Roadmap Q P))
          | .ok (_, r2) => Except.ok (true, r2)) = _
      rw [hb]
      have : satNode sat { r with goals := r.goals ++ [n] } = satNode sat r := rfl
      simp [this, hsn]
    · have hsn : satNode sat r n = false := by simp only [satNode, hq]; simpa using hs
      obtain ⟨b, hb⟩ := ih hd h (fun x hx => hn x (by simp [hx]))
      refine ⟨b, ?_⟩
      simp only [taskLoop, hq, hs, if_false, Bool.false_eq_true, List.filter_cons, hsn]
      exact hb

/-- C105 (partial): without nodes inserted one-way, the target is reached iff some node satisfying the constraints can be reached from the init node *and*
leads back to it; the edges and the init node are kept, and every node that becomes a goal satisfies the constraints.
Missing: nodes that are only reachable one-way are ignored (`C105_oneway_counterexample`). -/
theorem C105_reached_partial (sat : Q → Bool) (h : Good C Valid [] r) {i : Nat} (hi : r.init = some i) :
    ∃ b r', taskReached C sat r = .ok (b, r') ∧ Good C Valid [] r' ∧ Grow r r' ∧ r'.edges = r.edges ∧ r'.init = some i ∧
      (b = true ↔ ∃ n q, r.configs[n]? = some q ∧ sat q = true ∧ NodeReach r i n ∧ NodeReach r n i) ∧
      ∃ new, r'.goals = r.goals ++ new ∧ (∀ g ∈ new, ∃ q, r'.configs[g]? = some q ∧ sat q = true) ∧ (b = true ↔ new ≠ []) := by
  have hil := h.inv.init i hi
  have hcl := h.inv.wf.cc_live i hil
  obtain ⟨b, r', h1, h2, h3, h4, h5, h6, h7⟩ := taskLoop_spec sat (r.comp (r.cc i)).nodes h
    (fun n hn => (h.inv.wf.owned _ hcl n hn).1)
  refine ⟨b, r', by simp only [taskReached, hi]; exact h1, h2, h3, h4, by rw [h5, hi], ?_, h7⟩
  rw [h6]
  constructor
  · rintro ⟨n, hn, q, hq, hs⟩
    obtain ⟨hl, hc⟩ := h.inv.wf.owned _ hcl n hn
    exact ⟨n, q, hq, hs, h.inv.semNil.same i n hil hl hc.symm, h.inv.semNil.same n i hl hil hc⟩
  · rintro ⟨n, q, hq, hs, r1, r2⟩
    have hl := lt_of_get hq
    have hc := h.inv.semNil.acyclic _ (h.inv.wf.cc_live n hl) _ (h.inv.semNil.reach_complete r2) (h.inv.semNil.reach_complete r1)
    exact ⟨n, by rw [← hc]; exact h.inv.wf.mem n hl, q, hq, hs⟩

/-- C105: without initial configuration the target is not reached, and the roadmap does not change. -/
theorem C105_noinit (sat : Q → Bool) (r : Roadmap Q P) (hi : r.init = none) : taskReached C sat r = .ok (false, r) := by simp only [taskReached, hi]

/-- C105: when no configuration is duplicated and the distance separates configurations, nothing changes in the roadmap but the goal nodes; those that are
added are exactly the nodes satisfying the constraints that can be reached from the init node and lead back to it. -/
theorem C105_goals (hE : Separates C.toEnv) (sat : Q → Bool) (hd : r.configs.Nodup) (h : Good C Valid [] r) {i : Nat} (hi : r.init = some i) :
    ∃ b new, taskReached C sat r = .ok (b, { r with goals := r.goals ++ new }) ∧ new.Nodup ∧
      ∀ n, n ∈ new ↔ ∃ q, r.configs[n]? = some q ∧ sat q = true ∧ NodeReach r i n ∧ NodeReach r n i := by
  have hil := h.inv.init i hi
  have hcl := h.inv.wf.cc_live i hil
  obtain ⟨b, hb⟩ := taskLoop_nodup hE sat (r.comp (r.cc i)).nodes hd h.inv (fun n hn => (h.inv.wf.owned _ hcl n hn).1)
  have ht : taskReached C sat r = taskLoop C sat (r.comp (r.cc i)).nodes r := by simp only [taskReached, hi]
  refine ⟨b, _, ht.trans hb, (h.inv.wf.nodup _ hcl).filter _, ?_⟩
  intro n
  rw [List.mem_filter]
  constructor
  · rintro ⟨hn, hs⟩
    obtain ⟨hl, hc⟩ := h.inv.wf.owned _ hcl n hn
    have hq : r.configs[n]? = some r.configs[n] := List.getElem?_eq_getElem hl
    refine ⟨_, hq, ?_, h.inv.semNil.same i n hil hl hc.symm, h.inv.semNil.same n i hl hil hc⟩
    simp only [satNode, hq] at hs; exact hs
  · rintro ⟨q, hq, hs, r1, r2⟩
    have hl := lt_of_get hq
    have hc := h.inv.semNil.acyclic _ (h.inv.wf.cc_live n hl) _ (h.inv.semNil.reach_complete r2) (h.inv.semNil.reach_complete r1)
    exact ⟨by rw [← hc]; exact h.inv.wf.mem n hl, by simp only [satNode, hq]; exact hs⟩

/-- Specification: the path leads from `q0` to a configuration satisfying the constraints. -/
def SolvesTask (C : PEnv Q P K) (Valid : P → Prop) (q0 : Q) (sat : Q → Bool) (l : List P) : Prop :=
  (∃ g, sat g = true ∧ l ≠ [] ∧ Connects C Valid q0 l g) ∨ (sat q0 = true ∧ ∃ p, C.steer q0 q0 = some p ∧ l = [p])

/-- The state met by `solve`: a good roadmap whose init node has the init configuration and whose goal nodes satisfy the constraints. -/
structure TaskInv (C : PEnv Q P K) (Valid : P → Prop) (V : List (Nat × Nat)) (q0 : Q) (sat : Q → Bool) (r : Roadmap Q P) : Prop where
  good : Good C Valid V r
  init : ∃ i, r.init = some i ∧ r.configs[i]? = some q0
  goals : ∀ g ∈ r.goals, ∃ q, r.configs[g]? = some q ∧ sat q = true

/-- The path that is found leads from the init configuration to a configuration satisfying the constraints. -/
theorem TaskInv.path {q0 : Q} {sat : Q → Bool} (h : TaskInv C Valid V q0 sat r) (heur : Roadmap Q P → Nat → K) {l : List P}
    (hl : computePath C heur r = .ok l) : SolvesTask C Valid q0 sat l := by
  have ht : Tagged q0 (r.goals.filterMap (fun g => r.configs[g]?)) r := by
    refine ⟨h.init, ?_, ?_⟩
    · intro g hg
      obtain ⟨q, hq, -⟩ := h.goals g hg
      exact ⟨q, List.mem_filterMap.2 ⟨g, hg, hq⟩, hq⟩
    · intro q hq
      obtain ⟨g, hg, hgq⟩ := List.mem_filterMap.1 hq
      exact ⟨g, hg, hgq⟩
  have key : ∀ q ∈ r.goals.filterMap (fun g => r.configs[g]?), sat q = true := by
    intro q hq
    obtain ⟨g, hg, hgq⟩ := List.mem_filterMap.1 hq
    obtain ⟨q', h1, h2⟩ := h.goals g hg
    rw [hgq] at h1; cases h1; exact h2
  rcases computePath_spec h.good ht heur hl with ⟨g, hg, h1, h2⟩ | ⟨hg, h1⟩
  · exact Or.inl ⟨g, key g hg, h1, h2⟩
  · exact Or.inr ⟨key q0 hg, h1⟩

/-- The test of the target keeps the invariant. -/
theorem TaskInv.reached {q0 : Q} {sat : Q → Bool} (h : TaskInv C Valid V q0 sat r) :
    ∃ b r', taskReached C sat r = .ok (b, r') ∧ TaskInv C Valid V q0 sat r' := by
  obtain ⟨i, hi, hqi⟩ := h.init
  have hcl := h.good.inv.wf.cc_live i (h.good.inv.init i hi)
  obtain ⟨b, r', h1, h2, h3, h4, h5, h6, new, h7, h8, -⟩ := taskLoop_spec sat (r.comp (r.cc i)).nodes h.good
    (fun n hn => (h.good.inv.wf.owned _ hcl n hn).1)
  refine ⟨b, r', by simp only [taskReached, hi]; exact h1, h2, ⟨i, by rw [h5, hi], h3.get hqi⟩, ?_⟩
  intro g hg
  rw [h7] at hg
  rcases List.mem_append.1 hg with hg | hg
  · obtain ⟨q, hq, hs⟩ := h.goals g hg
    exact ⟨q, h3.get hq, hs⟩
  · exact h8 g hg

end

/-! ### `solve` with this target -/

section
variable {X : Type} [DecidableEq Q] [AddCommGroup K] [LinearOrder K] [IsOrderedAddMonoid K]

/-- The calls of `PathPlanner::solve` for a target given by constraints.  An error of the model in the test (which cannot happen) is answered by `false`. -/
def taskCalls (C : PEnv Q P K) (heur : Roadmap Q P → Nat → K) (sat : Q → Bool) (start step : X × Roadmap Q P → Except PlanErr (X × Roadmap Q P)) :
    Calls (X × Roadmap Q P) (List P) PlanErr :=
  ⟨start, step, fun s => match taskReached C sat s.2 with
    | .ok (b, r) => (b, (s.1, r))
    | .error _ => (false, s), fun s => (taskPath C heur s.2).1⟩

/-- An invariant of the steps and of the tests. -/
theorem trace_inv {S R E : Type} (C : Calls S R E) (I : S → Prop) (s0 : S) (h0 : I s0) (htest : ∀ s, I s → I (C.reached s).2)
    (hstep : ∀ s s', I s → C.step s = .ok s' → I s') (n : Nat) (s : S) (h : Trace C s0 n s) : I s := by
  induction h with
  | start => exact h0
  | test n s _ ih => exact htest s ih
  | step n s s' _ hs ih => exact hstep s s' ih hs

variable {C : PEnv Q P K} {Valid : P → Prop} {V : List (Nat × Nat)}

theorem taskPath_fst (heur : Roadmap Q P → Nat → K) (r : Roadmap Q P) : (taskPath C heur r).1 = computePath C heur r := by
  unfold taskPath
  cases computePath C heur r <;> rfl

/-- C105: for any planner whose steps extend the roadmap with valid edges, and whatever the limits, the clock and the interruptions, the path returned by
`solve` is a continuous sequence of valid paths from the init configuration to a configuration satisfying the constraints. -/
theorem C105_solves (heur : Roadmap Q P → Nat → K) (sat : Q → Bool) (start step : X × Roadmap Q P → Except PlanErr (X × Roadmap Q P)) (q0 : Q)
    (s s0 : X × Roadmap Q P) (hs : start s = .ok s0) (h0 : TaskInv C Valid V q0 sat s0.2)
    (hstep : ∀ s s', Good C Valid V s.2 → step s = .ok s' → Good C Valid V s'.2 ∧ Ext s.2 s'.2) (st : Settings K) (late intr : Nat → Bool) (fuel : Nat)
    (l : List P) (h : solve (taskCalls C heur sat start step) st late intr fuel s = .path l) : SolvesTask C Valid q0 sat l := by
  have hm := C39_any_target (taskCalls C heur sat start step) st late intr fuel s s0 hs
  rw [h] at hm
  obtain ⟨n, t, h1, -, h3, -⟩ := hm
  have htest : ∀ t : X × Roadmap Q P, TaskInv C Valid V q0 sat t.2 → TaskInv C Valid V q0 sat ((taskCalls C heur sat start step).reached t).2.2 := by
    intro t ht
    obtain ⟨b, r', k1, k2⟩ := ht.reached
    simp only [taskCalls, k1]
    exact k2
  have ht : TaskInv C Valid V q0 sat t.2 := by
    refine trace_inv (taskCalls C heur sat start step) (fun t => TaskInv C Valid V q0 sat t.2) s0 h0 htest ?_ n t h1
    intro a b ha hb
    obtain ⟨k1, k2⟩ := hstep a b ha.good hb
    obtain ⟨i, hi, hqi⟩ := ha.init
    refine ⟨k1, ⟨i, by rw [k2.init, hi], k2.grow.get hqi⟩, ?_⟩
    intro g hg
    rw [k2.goals] at hg
    obtain ⟨q, hq, hs⟩ := ha.goals g hg
    exact ⟨q, k2.grow.get hq, hs⟩
  have := htest t ht
  refine this.path heur ?_
  rw [← taskPath_fst]
  exact h3

/-- C105: after a successful `computePath` no goal node is left. -/
theorem C105_reset (heur : Roadmap Q P → Nat → K) (r : Roadmap Q P) {l : List P} (h : (taskPath C heur r).1 = .ok l) :
    (taskPath C heur r).2 = { r with goals := [] } := by
  unfold taskPath at h ⊢
  cases hc : computePath C heur r with
  | error e => rw [hc] at h; simp at h
  | ok l => rfl

/-- C105 (partial): on a roadmap without duplicate configuration and without one-way insertion, the path is found whenever the test answers true.
Missing: with duplicate configurations the search may fail after a positive test (`C105_duplicate_counterexample`). -/
theorem C105_found_partial {r : Roadmap Q P} (hE : Separates C.toEnv) (sat : Q → Bool) (hd : r.configs.Nodup) (h : Good C Valid [] r) {i : Nat}
    (hi : r.init = some i) (hq : ∀ q, C.steer q q ≠ none) (heur : Roadmap Q P → Nat → K) {r' : Roadmap Q P} (hr : taskReached C sat r = .ok (true, r')) :
    ∃ l, (taskPath C heur r').1 = .ok l := by
  have hil := h.inv.init i hi
  have hcl := h.inv.wf.cc_live i hil
  obtain ⟨b, hb⟩ := taskLoop_nodup hE sat (r.comp (r.cc i)).nodes hd h.inv (fun n hn => (h.inv.wf.owned _ hcl n hn).1)
  obtain ⟨b', r'', k1, k2, k3, k4, k5, k6, new, k7, k8, k9⟩ := taskLoop_spec sat (r.comp (r.cc i)).nodes h (fun n hn => (h.inv.wf.owned _ hcl n hn).1)
  simp only [taskReached, hi] at hr
  rw [k1] at hr
  simp only [Except.ok.injEq, Prod.mk.injEq] at hr
  obtain ⟨rfl, rfl⟩ := hr
  rw [k1] at hb
  simp only [Except.ok.injEq, Prod.mk.injEq] at hb
  have hnew : new = (r.comp (r.cc i)).nodes.filter (satNode sat r) := by
    have := congrArg Roadmap.goals hb.2
    rw [k7] at this
    exact List.append_cancel_left this
  obtain ⟨g, hg⟩ := List.exists_mem_of_ne_nil _ (k9.1 rfl)
  have hgn := hg
  rw [hnew, List.mem_filter] at hgn
  obtain ⟨hl, hc⟩ := h.inv.wf.owned _ hcl g hgn.1
  have hreach : NodeReach r'' i g := by
    have := h.inv.semNil.same i g hil hl hc.symm
    rw [hb.2]
    exact this
  have hg' : g ∈ r''.goals := by rw [k7]; exact List.mem_append_right _ hg
  rw [taskPath_fst]
  unfold computePath
  rw [k5, hi]
  simp only
  rcases AStar.solution_spec k2.inv (k5.trans hi) C.len (heur r'') (r''.configs.length + 1) (le_refl _) with ⟨g', es, h1, h2, h3, -⟩ | ⟨h1, h2⟩
  · rw [h1]
    simp only
    split
    · have hil' := k2.inv.init i (k5.trans hi)
      have hqi : r''.configs[i]? = some r''.configs[i] := List.getElem?_eq_getElem hil'
      rw [hqi]
      simp only
      cases hs : C.steer r''.configs[i] r''.configs[i] with
      | none => exact absurd hs (hq _)
      | some p => exact ⟨[p], rfl⟩
    · exact ⟨_, rfl⟩
  · exact absurd hreach (h2 g hg')

/-- C105: without constraints `startSolve` throws; with constraints it inserts the init configuration and leaves no goal node. -/
theorem C105_start {r : Roadmap Q P} (h : Good C Valid V r) (q0 : Q) :
    taskStart C none q0 r = .error .badParameter ∧
    ∀ sat : Q → Bool, ∃ r', taskStart C (some sat) q0 r = .ok r' ∧ TaskInv C Valid V q0 sat r' ∧ r'.goals = [] ∧ Grow r r' := by
  obtain ⟨r', h1, h2, h3, h4⟩ := startSolve_spec h q0 []
  have hg : r'.goals = [] := by
    cases hc : r'.goals with
    | nil => rfl
    | cons g l =>
      obtain ⟨q, hq, -⟩ := h4.goals g (by rw [hc]; simp)
      simp at hq
  refine ⟨by simp [taskStart, h1], fun sat => ⟨r', by simp [taskStart, h1], ⟨h2, h4.init, by simp [hg]⟩, hg, h3⟩⟩

end

/-! ## `SearchInRoadmap` -/

section
variable {X : Type} [DecidableEq Q] [AddCommGroup K] [LinearOrder K] [IsOrderedAddMonoid K]

/-- `SearchInRoadmap`: search-in-roadmap.hh:61-70, with a target given by goal configurations: `tryConnectInitAndGoals` does nothing, `oneStep` throws. -/
def searchCalls (C : PEnv Q P K) (heur : Roadmap Q P → Nat → K) (q0 : Q) (gs : List Q) : Calls (Unit × Roadmap Q P) (List P) PlanErr :=
  planCalls C heur (fun s => match startSolve C q0 gs s.2 with
    | .error e => .error (.road e)
    | .ok r => .ok ((), r)) (fun _ => .error .failed)

variable {C : PEnv Q P K} {Valid : P → Prop} {V : List (Nat × Nat)}

theorem addGoals_edges (gs : List Q) {r r' : Roadmap Q P} (h : Good C Valid V r) (hr : addGoals C gs r = .ok r') : r'.edges = r.edges := by
  induction gs generalizing r with
  | nil => rw [Except.ok.inj hr]
  | cons g gs ih =>
    obtain ⟨r1, m, k1, k2, k3, k4, k5, k6, k7, -⟩ := h.inv.addNode C.toEnv g
    have g1 : Good C Valid V r1 := ⟨k2, fun e he => by rw [k5] at he; exact (h.edges e he).mono k4⟩
    have g2 : Good C Valid V { r1 with goals := r1.goals ++ [m] } := by
      refine g1.setGoals ?_
      intro x hx
      rcases List.mem_append.1 hx with hx | hx
      · exact k2.goals x hx
      · rw [List.mem_singleton.1 hx]; exact lt_of_get k3
    simp only [addGoals, addGoalNode, k1] at hr
    have := ih g2 hr
    rw [this]
    exact k5

theorem startSolve_edges {r r' : Roadmap Q P} (h : Good C Valid V r) {q0 : Q} {gs : List Q} (hr : startSolve C q0 gs r = .ok r') :
    r'.edges = r.edges := by
  have h0 : Good C Valid V (resetGoalNodes r) := h.setGoals (by simp)
  obtain ⟨r1, m, k1, k2, k3, k4, k5, k6, k7, -⟩ := h0.inv.addNode C.toEnv q0
  have g1 : Good C Valid V r1 := ⟨k2, fun e he => by rw [k5] at he; exact (h0.edges e he).mono k4⟩
  simp only [startSolve, Roadmap.setInit, k1] at hr
  have := addGoals_edges gs (g1.setInit (lt_of_get k3)) hr
  rw [this]
  exact k5

/-- C106: no edge is added to the roadmap, only the nodes of the init and goal configurations.  A path is returned iff some goal configuration can be
reached from the init configuration along the edges that were in the roadmap; this path is the sequence of the paths of such edges, of least total length
for a consistent heuristic; otherwise an exception is thrown by the first step (or for the time limit, if it is over before this step). -/
theorem C106_search (heur : Roadmap Q P → Nat → K) (hq : ∀ q, C.steer q q ≠ none) {r : Roadmap Q P} (h : Good C Valid [] r) (q0 : Q) (gs : List Q)
    (st : Settings K) (late intr : Nat → Bool) (hi0 : intr 0 = false) (fuel : Nat) :
    ∃ r1 i, startSolve C q0 gs r = .ok r1 ∧ Good C Valid [] r1 ∧ r1.edges = r.edges ∧ Grow r r1 ∧ Tagged q0 gs r1 ∧ r1.init = some i ∧
      ((∃ g ∈ r1.goals, NodeReach r1 i g) →
        (∃ p, C.steer q0 q0 = some p ∧ q0 ∈ gs ∧ solve (searchCalls C heur q0 gs) st late intr (fuel + 1) ((), r) = .path [p]) ∨
        ∃ g ∈ r1.goals, ∃ es, es ≠ [] ∧ AStar.Chain r1 i es g ∧ (∀ e ∈ es, e ∈ r.edges) ∧
          solve (searchCalls C heur q0 gs) st late intr (fuel + 1) ((), r) = .path (es.map (·.path)) ∧
          ((∀ e ∈ r.edges, 0 ≤ C.len e.path) → (∀ e ∈ r.edges, heur r1 e.src ≤ C.len e.path + heur r1 e.dst) → (∀ g ∈ r1.goals, heur r1 g = 0) →
            ∀ g' ∈ r1.goals, ∀ es', AStar.Walk r1.out i es' g' → AStar.total C.len es ≤ AStar.total C.len es')) ∧
      ((¬ ∃ g ∈ r1.goals, NodeReach r1 i g) →
        solve (searchCalls C heur q0 gs) st late intr (fuel + 1) ((), r) = if late 0 = true then .timeOut else .error .failed) := by
  obtain ⟨r1, h1, h2, h3, h4⟩ := startSolve_spec h q0 gs
  obtain ⟨i, hi, hqi⟩ := h4.init
  have he := startSolve_edges h h1
  refine ⟨r1, i, h1, h2, he, h3, h4, hi, ?_, ?_⟩
  · intro hg
    have hr := (reached_iff h2.inv hi).2 hg
    have hsolve : solve (searchCalls C heur q0 gs) st late intr (fuel + 1) ((), r) =
        conclude (searchCalls C heur q0 gs) ((), r1) := by
      unfold solve
      simp only [searchCalls, planCalls, h1, hi0, hr, Bool.false_eq_true, if_false, if_true]
    rw [hsolve]
    have hcp : conclude (searchCalls C heur q0 gs) ((), r1) = match computePath C heur r1 with
        | .ok p => .path p
        | .error e => .error e := by
      unfold conclude
      simp only [searchCalls, planCalls]
      cases computePath C heur r1 <;> rfl
    rw [hcp]
    rcases AStar.solution_spec h2.inv hi C.len (heur r1) (r1.configs.length + 1) (le_refl _) with ⟨g', es, k1, k2, k3, k4⟩ | ⟨k1, k2⟩
    · have hch := k3.chain h2.inv.adj
      by_cases hes : es = []
      · left
        subst hes
        have hig : i = g' := hch
        subst hig
        obtain ⟨q, hqg, hqq⟩ := h4.goals i k2
        rw [hqi] at hqq
        cases hqq
        cases hs : C.steer q0 q0 with
        | none => exact absurd hs (hq q0)
        | some p =>
          refine ⟨p, rfl, hqg, ?_⟩
          simp only [computePath, hi, k1, if_true, hqi, hs]
      · right
        refine ⟨g', k2, es, hes, hch, ?_, ?_, ?_⟩
        · have : ∀ (es : List (Edge P)) (a b : Nat), AStar.Chain r1 a es b → ∀ e ∈ es, e ∈ r1.edges := by
            intro es
            induction es with
            | nil => simp
            | cons e es ih =>
              rintro a b ⟨c1, -, c3⟩ e' he'
              rcases List.mem_cons.1 he' with rfl | he'
              · exact c1
              · exact ih _ _ c3 e' he'
          rw [← he]
          exact this es i g' hch
        · simp only [computePath, hi, k1, hes, if_false]
        · rw [← he]; exact k4
    · obtain ⟨g, hg1, hg2⟩ := hg
      exact absurd hg2 (k2 g hg1)
  · intro hg
    have hr : (reached r1).1 = false := by
      cases hc : (reached r1).1 with
      | false => rfl
      | true => exact absurd ((reached_iff h2.inv hi).1 hc) hg
    have hd : decide (st.maxIter ≠ 0 ∧ st.maxIter ≤ 0) = false := by simp
    unfold solve
    simp only [searchCalls, planCalls, h1, hi0, hr, Bool.false_eq_true, if_false]
    rw [solveLoop]
    simp only [hd, Bool.false_eq_true, if_false]
    by_cases hl : late 0 = true
    · simp [hl, hr]
    · simp [hl]

end

/-! ## `PlanAndOptimize` -/

section
variable {S R E K' : Type}

/-- Loop of `PlanAndOptimize::finishSolve`: plan-and-optimize.cc:40-47; an optimizer may throw. -/
def finishSolve : List (R → Except E R) → R → Except E R
  | [], p => .ok p
  | o :: os, p => match o p with
    | .error e => .error e
    | .ok p' => finishSolve os p'

/-- The methods of a planner called by `solve`. -/
structure Methods (S R E : Type) where
  startSolve : S → Except E S
  tryConnect : S → Except E S
  oneStep : S → Except E S
  reached : S → Bool × S
  computePath : S → Except E R
  finish : R → Except E R

/-- What `solve` does with these methods: path-planner.cc:112-113, 172-173. -/
def Methods.calls (M : Methods S R E) : Calls S R E where
  start s := match M.startSolve s with
    | .error e => .error e
    | .ok s' => M.tryConnect s'
  step := M.oneStep
  reached := M.reached
  computePath s := match M.computePath s with
    | .error e => .error e
    | .ok p => M.finish p

/-- `PlanAndOptimize` on a planner: plan-and-optimize.cc:36-48.  `oneStep` and `startSolve` are those of the planner; `tryConnectInitAndGoals` and
`computePath` are those of the base class `PathPlanner`, even if the planner overrides them; `finishSolve` of the planner is not called. -/
def planAndOptimize (base inner : Methods S R E) (opts : List (R → Except E R)) : Methods S R E :=
  { base with startSolve := inner.startSolve, oneStep := inner.oneStep, finish := finishSolve opts }

/-- The optimizers applied to the result of a resolution. -/
def Res.bind (f : R → Except E R) : Res R E → Res R E
  | .path p => match f p with
    | .ok p' => .path p'
    | .error e => .error e
  | .maxIterations => .maxIterations
  | .timeOut => .timeOut
  | .interrupted => .interrupted
  | .error e => .error e
  | .running => .running

theorem finishSolve_append (os os' : List (R → Except E R)) (p : R) :
    finishSolve (os ++ os') p = match finishSolve os p with
      | .error e => .error e
      | .ok p' => finishSolve os' p' := by
  induction os generalizing p with
  | nil => rfl
  | cons o os ih =>
    simp only [List.cons_append, finishSolve]
    cases o p with
    | error e => rfl
    | ok p' => exact ih p'

theorem solveLoop_bind (C C' : Calls S R E) (f : R → Except E R) (hs : C'.step = C.step) (hr : C'.reached = C.reached)
    (hc : ∀ s, C'.computePath s = match C.computePath s with
      | .error e => .error e
      | .ok p => f p) (st : Settings K') (late intr : Nat → Bool) (fuel n : Nat) (s : S) :
    solveLoop C' st late intr fuel n s = (solveLoop C st late intr fuel n s).bind f := by
  have hconc : ∀ s, conclude C' s = (conclude C s).bind f := by
    intro s
    unfold conclude
    rw [hc]
    cases C.computePath s with
    | error e => rfl
    | ok p =>
      simp only [Res.bind]
      cases f p <;> rfl
  induction fuel generalizing n s with
  | zero => rfl
  | succ fuel ih =>
    rw [solveLoop.eq_def, solveLoop.eq_def C]
    simp only [hs, hr, hconc, ih]
    repeat' split
    all_goals rfl

/-- C107: `PlanAndOptimize::solve` has the outcome of the `solve` of the planner it contains, run with the limits of the `PlanAndOptimize` object and with
the direct connection and the target test of the base class, and when this is a path, the optimizers are applied to it in the order in which they were added,
each to the result of the previous one. -/
theorem C107_solve (base inner : Methods S R E) (opts : List (R → Except E R)) (hb : ∀ p, base.finish p = .ok p) (st : Settings K')
    (late intr : Nat → Bool) (fuel : Nat) (s : S) :
    solve (planAndOptimize base inner opts).calls st late intr fuel s =
      (solve ({ base with startSolve := inner.startSolve, oneStep := inner.oneStep } : Methods S R E).calls st late intr fuel s).bind (finishSolve opts) := by
  have hc : ∀ s, (planAndOptimize base inner opts).calls.computePath s =
      match ({ base with startSolve := inner.startSolve, oneStep := inner.oneStep } : Methods S R E).calls.computePath s with
      | .error e => .error e
      | .ok p => finishSolve opts p := by
    intro s
    simp only [planAndOptimize, Methods.calls]
    cases base.computePath s with
    | error e => rfl
    | ok p => simp only [hb]
  have hconc : ∀ s, conclude (planAndOptimize base inner opts).calls s =
      (conclude ({ base with startSolve := inner.startSolve, oneStep := inner.oneStep } : Methods S R E).calls s).bind (finishSolve opts) := by
    intro s
    unfold conclude
    rw [hc]
    cases ({ base with startSolve := inner.startSolve, oneStep := inner.oneStep } : Methods S R E).calls.computePath s with
    | error e => rfl
    | ok p =>
      simp only [Res.bind]
      cases finishSolve opts p <;> rfl
  unfold solve
  have hst : (planAndOptimize base inner opts).calls.start s =
      ({ base with startSolve := inner.startSolve, oneStep := inner.oneStep } : Methods S R E).calls.start s := rfl
  rw [hst]
  cases ({ base with startSolve := inner.startSolve, oneStep := inner.oneStep } : Methods S R E).calls.start s with
  | error e => rfl
  | ok s0 =>
    simp only [hconc]
    have hr : (planAndOptimize base inner opts).calls.reached =
      ({ base with startSolve := inner.startSolve, oneStep := inner.oneStep } : Methods S R E).calls.reached := rfl
    rw [hr]
    by_cases h1 : intr 0 = true
    · simp only [h1, if_true]; rfl
    · simp only [h1]
      by_cases h2 : (({ base with startSolve := inner.startSolve, oneStep := inner.oneStep } : Methods S R E).calls.reached s0).1 = true
      · simp only [h2, if_true]; rfl
      · simp only [h2]
        exact solveLoop_bind ({ base with startSolve := inner.startSolve, oneStep := inner.oneStep } : Methods S R E).calls
          (planAndOptimize base inner opts).calls (finishSolve opts) rfl rfl hc st late intr fuel 0 _

/-- C107: whatever property of paths every optimizer keeps (ends, validity, …) is kept by the whole object. -/
theorem C107_invariant (I : R → Prop) (opts : List (R → Except E R)) (hI : ∀ o ∈ opts, ∀ p p', I p → o p = .ok p' → I p') (p p' : R) (hp : I p)
    (h : finishSolve opts p = .ok p') : I p' := by
  induction opts generalizing p with
  | nil => rw [← Except.ok.inj h]; exact hp
  | cons o os ih =>
    simp only [finishSolve] at h
    cases ho : o p with
    | error e => rw [ho] at h; simp at h
    | ok q =>
      rw [ho] at h
      exact ih (fun o' ho' => hI o' (by simp [ho'])) q (hI o (by simp) p q hp ho) h

/-- C107: `addPathOptimizer` (plan-and-optimize.cc:49-51) puts the optimizer after the others. -/
theorem C107_add (os : List (R → Except E R)) (o : R → Except E R) (p : R) :
    finishSolve (os ++ [o]) p = match finishSolve os p with
      | .error e => .error e
      | .ok p' => o p' := by
  rw [finishSolve_append]
  cases finishSolve os p with
  | error e => rfl
  | ok p' =>
    simp only [finishSolve]
    cases o p' <;> rfl

end

/-! ## Examples and counterexamples -/
namespace Line

/-- The methods of the base class with goal configurations. -/
def baseMethods (q0 : Int) (gs : List Int) : Methods (Unit × Roadmap Int LP) (List LP) PlanErr where
  startSolve s := match startSolve env q0 gs s.2 with
    | .error e => .error (.road e)
    | .ok r => .ok ((), r)
  tryConnect s := match tryConnect env s.2 with
    | .error e => .error (.road e)
    | .ok r => .ok ((), r)
  oneStep _ := .error .failed
  reached s := ((reached s.2).1, s)
  computePath s := computePath env (fun _ _ => 0) s.2
  finish p := .ok p

/-- Those of `SearchInRoadmap`. -/
def searchMethods (q0 : Int) (gs : List Int) : Methods (Unit × Roadmap Int LP) (List LP) PlanErr :=
  { baseMethods q0 gs with tryConnect := fun s => .ok s }

/-- C107 (finding): the documentation of `SearchInRoadmap` says that the roadmap is not modified and that no direct connection is tried.  Inside a
`PlanAndOptimize` (even without optimizer) the direct connection of the base class is tried: a path is returned for a problem for which
`SearchInRoadmap` throws. -/
theorem C107_tryConnect_counterexample :
    out (solve (searchMethods 0 [2]).calls (Settings.default (K := Int)) (fun _ => false) (fun _ => false) 10 ((), Roadmap.empty)) = none ∧
    out (solve (planAndOptimize (baseMethods 0 [2]) (searchMethods 0 [2]) []).calls (Settings.default (K := Int)) (fun _ => false) (fun _ => false) 10
      ((), Roadmap.empty)) = some [(0, 2)] := by
  constructor <;> decide +kernel

/-- Two optimizers applied in order to the path that is found. -/
example : out (solve (planAndOptimize (baseMethods 0 [2]) (baseMethods 0 [2]) [fun l => .ok (l ++ [(2, 5, 0)]), fun l => .ok (l ++ [(5, 9, 0)])]).calls
    (Settings.default (K := Int)) (fun _ => false) (fun _ => false) 10 ((), Roadmap.empty)) = some [(0, 2), (2, 5), (5, 9)] := by decide +kernel

/-- A roadmap: `0 → 3` and back, `3 → 5` one-way. -/
def road : Roadmap Int LP := match run env.toEnv Roadmap.empty [.initNode 0, .addNode 3, .addNode 5, .addEdges 0 1 (0, 3, 0), .addEdge 1 2 (3, 5, 0)] with
  | .ok r => r
  | .error _ => Roadmap.empty

/-- What can be decided about the test of the target: the answer, the goal nodes, and whether a path is then found. -/
structure TestOut where
  ans : Bool
  goals : List Nat
  configs : List Int
  path : Option (List (Int × Int))
  deriving DecidableEq

def testOut (sat : Int → Bool) (r : Roadmap Int LP) : Option TestOut :=
  match taskReached env sat r with
  | .error _ => none
  | .ok (b, r') => some ⟨b, r'.goals, r'.configs, match (taskPath env (fun _ _ => 0) r').1 with
    | .ok l => some (l.map (fun p => (p.1, p.2.1)))
    | .error _ => none⟩

/-- A task satisfied by the configuration 3. -/
example : testOut (fun q => decide (q = 3)) road = some ⟨true, [1], [0, 3, 5], some [(0, 3)]⟩ := by decide +kernel
/-- A task satisfied by the init configuration. -/
example : testOut (fun q => decide (q = 0)) road = some ⟨true, [0], [0, 3, 5], some [(0, 0)]⟩ := by decide +kernel

/-- C105 (finding): a configuration satisfying the constraints is in the roadmap and a path leads to it from the init node, but the edge is one-way and the
target is not reached; for a target given by the same configuration as a goal, the problem is solved. -/
theorem C105_oneway_counterexample :
    testOut (fun q => decide (q = 5)) road = some ⟨false, [], [0, 3, 5], none⟩ ∧
    (reached { road with goals := [2] }).1 = true := by
  constructor <;> decide +kernel

/-- A roadmap with the same configuration in two components: node 0 (isolated) and node 2 (linked to the init node). -/
def twice : Roadmap Int LP := match run env.toEnv Roadmap.empty [.addNode 3, .initNode 0, .addNodeAndEdges 1 3 (0, 3, 0)] with
  | .ok r => r
  | .error _ => Roadmap.empty

/-- C105 (finding): with the same configuration in two components, the test answers true for the node of the component of the init node, but the node that
becomes a goal is the other one: no path is found and an exception is thrown. -/
theorem C105_duplicate_counterexample : testOut (fun q => decide (q = 3)) twice = some ⟨true, [0], [3, 0, 3], none⟩ := by decide +kernel

/-- C105 (finding): when both limits are hit in the same iteration the target is tested twice (path-planner.cc:125-153); at the second test the goal nodes
of the first one are there, against the assertion task-target.cc:58. -/
theorem C105_assertion_counterexample :
    (match taskReached env (fun q => decide (q = 3)) road with
      | .ok (_, r') => match taskReached env (fun q => decide (q = 3)) r' with
        | .ok (_, r'') => (r'.goals, r''.goals)
        | .error _ => ([], [])
      | .error _ => ([], [])) = ([1], [1, 1]) := by decide +kernel

theorem env_separates : Separates env.toEnv := by
  intro x q h
  simp only [env] at h
  omega

/-- The hypotheses of the theorems hold on the example. -/
example : road.configs.Nodup ∧ road.init = some 0 ∧ Inv [] road ∧ (∀ q, env.steer q q ≠ none) := by
  refine ⟨by decide +kernel, by decide +kernel, ?_, steer_self⟩
  have : run env.toEnv Roadmap.empty [.initNode 0, .addNode 3, .addNode 5, .addEdges 0 1 (0, 3, 0), .addEdge 1 2 (3, 5, 0)] = .ok road := by
    unfold road
    cases h : run env.toEnv Roadmap.empty [.initNode 0, .addNode 3, .addNode 5, .addEdges 0 1 (0, 3, 0), .addEdge 1 2 (3, 5, 0)] with
    | ok r => rfl
    | error e =>
      exfalso
      have : (match run env.toEnv (Roadmap.empty : Roadmap Int LP) [.initNode 0, .addNode 3, .addNode 5, .addEdges 0 1 (0, 3, 0), .addEdge 1 2 (3, 5, 0)] with
        | .ok _ => true
        | .error _ => false) = true := by decide +kernel
      rw [h] at this
      simp at this
  exact directed_inv env.toEnv (by decide +kernel) this

/-- The search in the roadmap finds the path `0, 3, 5` and throws for a configuration that is not connected. -/
example : out (solve (searchCalls env (fun _ _ => 0) 0 [5]) (Settings.default (K := Int)) (fun _ => false) (fun _ => false) 1 ((), road)) =
    some [(0, 3), (3, 5)] ∧
    out (solve (searchCalls env (fun _ _ => 0) 5 [0]) (Settings.default (K := Int)) (fun _ => false) (fun _ => false) 1 ((), road)) = none := by
  constructor <;> decide +kernel

end Line

end Verif.Planner
