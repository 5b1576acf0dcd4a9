import Verif.Planner.CompleteBi
import Verif.Planner.Visibility
import Verif.Planner.BiRRTStarCost
import Verif.Planner.CarsSampled
set_option linter.unusedSectionVars false

/-!
# A direct path is enough (C163)

`PathPlanner::solve` first tries the direct paths between the initial configuration and the goals (path-planner.cc:211-284) and returns without any step if this solves the problem (path-planner.cc:113-122).
-/
namespace Verif.Planner
open Verif.Roadmap Relation
variable {Q P K : Type} [DecidableEq Q] [AddCommGroup K] [LinearOrder K] [IsOrderedAddMonoid K]
variable {C : PEnv Q P K} {Valid : P → Prop} {V : List (Nat × Nat)} {r : Roadmap Q P}

/-- The paths of the edges proposed by the direct connection. -/
theorem futureEdge_direct (h : Inv V r) {fwd : Bool} {n c : Nat} (hc : c ∈ r.live) {x : Option (Nat × Nat × P)} (hx : futureEdge C r fwd n c = .ok x) :
    ∀ y ∈ x, y.1 ≠ y.2.1 ∧ ∃ a b, r.configs[y.1]? = some a ∧ r.configs[y.2.1]? = some b ∧ directPath C a b = some y.2.2 := by
  unfold futureEdge at hx
  by_cases hne : c = r.cc n
  · rw [if_pos hne] at hx
    cases hx; simp
  · rw [if_neg hne] at hx
    cases hq : r.configs[n]? with
    | none => rw [hq] at hx; simp at hx
    | some q =>
      rw [hq] at hx
      obtain ⟨d, m, z, h1, h2, h3⟩ := search_good (C := C) h q hc fwd
      have hmn : m ≠ n := fun e => hne (by rw [← h3, e])
      simp only [h1, h2] at hx
      cases fwd with
      | true =>
        simp only [if_true] at hx
        cases hx
        intro y hy
        simp only [Option.mem_def, Option.map_eq_some_iff] at hy
        obtain ⟨p, hp, rfl⟩ := hy
        exact ⟨hmn.symm, q, z, hq, h2, hp⟩
      | false =>
        simp only [Bool.false_eq_true, if_false] at hx
        cases hx
        intro y hy
        simp only [Option.mem_def, Option.map_eq_some_iff] at hy
        obtain ⟨p, hp, rfl⟩ := hy
        exact ⟨hmn, z, q, h2, hq, hp⟩

theorem futureEdges_direct (h : Inv V r) {fwd : Bool} {n : Nat} (cs : List Nat) (hcs : ∀ c ∈ cs, c ∈ r.live) {l : List (Nat × Nat × P)} (k : futureEdges C r fwd n cs = .ok l) :
    ∀ y ∈ l, y.1 ≠ y.2.1 ∧ ∃ a b, r.configs[y.1]? = some a ∧ r.configs[y.2.1]? = some b ∧ directPath C a b = some y.2.2 := by
  induction cs generalizing l with
  | nil => cases k; simp
  | cons c cs ih =>
    rw [futureEdges] at k
    split at k
    · simp at k
    · next x hx =>
      split at k
      · simp at k
      · next l' hl' =>
        cases k
        intro y hy
        rcases List.mem_append.1 hy with hy | hy
        · exact futureEdge_direct h (hcs c (by simp)) hx y (by simpa using hy)
        · exact ih (fun c hc => hcs c (by simp [hc])) hl' y hy

theorem goalEdges_direct (h : Inv V r) (gs : List Nat) {l : List (Nat × Nat × P)} (k : goalEdges C r gs = .ok l) :
    ∀ y ∈ l, y.1 ≠ y.2.1 ∧ ∃ a b, r.configs[y.1]? = some a ∧ r.configs[y.2.1]? = some b ∧ directPath C a b = some y.2.2 := by
  induction gs generalizing l with
  | nil => cases k; simp
  | cons g gs ih =>
    rw [goalEdges] at k
    split at k
    · simp at k
    · next l1 h1 =>
      split at k
      · simp at k
      · next l2 h2 =>
        cases k
        intro y hy
        rcases List.mem_append.1 hy with hy | hy
        · exact futureEdges_direct h _ (fun _ hc => hc) h1 y hy
        · exact ih h2 y hy

/-- The edges of the insertion, with their paths. -/
theorem addAll_paths (l : List (Nat × Nat × P)) {r r' : Roadmap Q P} (k : addAll l r = .ok r') : ∀ e ∈ r'.edges, e ∈ r.edges ∨ (e.src, e.dst, e.path) ∈ l := by
  induction l generalizing r with
  | nil => rw [addAll] at k; cases k; exact fun e he => Or.inl he
  | cons x l ih =>
    obtain ⟨a, b, p⟩ := x
    rw [addAll] at k
    split at k
    · simp at k
    · next r1 k1 =>
      intro e he
      rcases ih k e he with he | he
      · rw [(Star.addEdge_added k1).edges] at he
        rcases List.mem_append.1 he with he | he
        · exact Or.inl he
        · rw [List.mem_singleton.1 he]; exact Or.inr (List.mem_cons_self ..)
      · exact Or.inr (List.mem_cons_of_mem _ he)

/-- The loop on the components proposes an edge for each component that contains a single node, to which there is a direct path. -/
theorem futureEdges_mem (h : Inv V r) {n m : Nat} {q x : Q} {p : P} (hq : r.configs[n]? = some q) (hx : r.configs[m]? = some x) (hne : r.cc m ≠ r.cc n)
    (hone : ∀ k, k < r.configs.length → r.cc k = r.cc m → k = m) (hp : directPath C q x = some p) (cs : List Nat) (hcs : ∀ c ∈ cs, c ∈ r.live) (hm : r.cc m ∈ cs) {l : List (Nat × Nat × P)}
    (k : futureEdges C r true n cs = .ok l) : (n, m, p) ∈ l := by
  induction cs generalizing l with
  | nil => simp at hm
  | cons c cs ih =>
    rw [futureEdges] at k
    split at k
    · simp at k
    · next y hy =>
      split at k
      · simp at k
      · next l' hl' =>
        cases k
        by_cases hc : c = r.cc m
        · subst hc
          unfold futureEdge at hy
          rw [if_neg hne, hq] at hy
          obtain ⟨d, m', z, h1, h2, h3⟩ := search_good (C := C) h q (hcs (r.cc m) (by simp)) true
          obtain rfl := hone m' (lt_of_get h2) h3
          simp only [h1, h2, if_true] at hy
          rw [hx] at h2
          obtain rfl := Option.some.inj h2
          rw [hp] at hy
          cases hy
          simp
        · refine List.mem_append_right _ (ih (fun c hc => hcs c (by simp [hc])) ?_ hl')
          rcases List.mem_cons.1 hm with e | e
          · exact absurd e.symm hc
          · exact e

/-- With one goal there is one goal node. -/
theorem single_goal {q0 g : Q} {r1 : Roadmap Q P} (h : Good C Valid V r) (h1 : startSolve C q0 [g] r = .ok r1) : ∃ n, r1.goals = [n] := by
  have h0 : Good C Valid V (resetGoalNodes r) := h.setGoals (by simp)
  obtain ⟨r2, n, k1, k2, k3, k4⟩ := h0.addNode q0
  have hg : r2.goals = [] := by rw [k3.goals]; rfl
  have h2' : Good C Valid V { r2 with init := some n } := k2.setInit (lt_of_get k4)
  obtain ⟨r3, m, m1, m2, m3, m4⟩ := h2'.addNode g
  simp only [startSolve, Roadmap.setInit, k1, addGoals, addGoalNode] at h1
  have m1' : Roadmap.addNode C.toEnv { r2 with init := some n } g = .ok (r3, m) := m1
  simp only [bind, Except.bind, pure, Except.pure, m1'] at h1
  obtain rfl := Except.ok.inj h1
  refine ⟨m, ?_⟩
  show r3.goals ++ [m] = [m]
  rw [m3.goals]
  show r2.goals ++ [m] = [m]
  rw [hg]; rfl

/-- State after the direct connection. -/
structure Linked (C : PEnv Q P K) (Valid : P → Prop) (q0 g : Q) (gs : List Q) (p : P) (r1 r2 : Roadmap Q P) (i : Nat) : Prop where
  init : r1.init = some i
  connect : tryConnect C r1 = .ok r2
  good : Good C Valid [] r2
  tag : Tagged q0 gs r2
  init' : r2.init = some i
  apart : i ∉ r2.goals
  edge : ∃ n ∈ r2.goals, HasEdge r2 i n
  single : gs = [g] → ∀ e ∈ r2.edges, e.src = i ∧ e.dst ∈ r2.goals ∧ e.path = p

/-- From an empty roadmap, if there is a direct path to a goal, the direct connection links the initial node to a goal node. -/
theorem linked (hC : Contract C Valid) (q0 g : Q) (gs : List Q) (hg : g ∈ gs) (h0 : q0 ∉ gs) {p : P} (hp : directPath C q0 g = some p) (h : Good C Valid [] r) (hemp : r.configs = []) :
    ∃ r1 r2 i, startSolve C q0 gs r = .ok r1 ∧ Linked C Valid q0 g gs p r1 r2 i := by
  obtain ⟨r1, h1, h2, h3, h4⟩ := startSolve_spec h q0 gs
  have hedges := startSolve_edges h h1
  have hr0 : r.edges = [] := by
    by_contra hne
    obtain ⟨e, he⟩ := List.exists_mem_of_ne_nil _ hne
    have := (h.edges e he).src
    rw [hemp] at this
    simp at this
  rw [hr0] at hedges
  have honly := startSolve_only h hemp q0 gs h1
  obtain ⟨i, hi, hqi⟩ := h4.init
  obtain ⟨l, f1, f2⟩ := futureEdges_spec hC h2.inv true (h2.inv.init i hi) r1.live (fun _ hc => hc)
  obtain ⟨l', f3, f4⟩ := goalEdges_spec hC h2.inv r1.goals h2.inv.goals
  have hll : ∀ x ∈ l ++ l', FutureOk C Valid r1 x := fun x hx => by
    rcases List.mem_append.1 hx with hx | hx
    · exact f2 x hx
    · exact f4 x hx
  obtain ⟨r2, f5, f6, f7⟩ := addAll_spec (l ++ l') h2 hll
  have htc : tryConnect C r1 = .ok r2 := by
    unfold tryConnect
    rw [hi]
    simp only [f1, f3, f5]
  have hreach : ∀ x y, NodeReach r1 x y → x = y := by
    intro x y hxy
    induction hxy with
    | refl => rfl
    | tail _ hs _ =>
      obtain ⟨e, he, -⟩ := hs
      rw [hedges] at he
      simp at he
  have hsame : ∀ x y, x < r1.configs.length → y < r1.configs.length → r1.cc x = r1.cc y → x = y := fun x y hx hy hc => hreach x y (h2.inv.semNil.same x y hx hy hc)
  have hap : i ∉ r1.goals := by
    intro hig
    obtain ⟨q, b1, b2⟩ := h4.goals i hig
    rw [hqi] at b2
    exact h0 (Option.some.inj b2 ▸ b1)
  obtain ⟨n, n1, n2⟩ := h4.all g hg
  have hnl := h2.inv.goals n n1
  have hil := h2.inv.init i hi
  have hmem : (i, n, p) ∈ l := futureEdges_mem h2.inv hqi n2 (fun e => hap (hsame n i hnl hil e ▸ n1)) (fun k hk e => hsame k n hk hnl e) hp r1.live (fun _ hc => hc) (h2.inv.wf.cc_live n hnl) f1
  have hed := addAll_edge (l ++ l') h2 hll f5 _ (List.mem_append_left _ hmem)
  refine ⟨r1, r2, i, h1, hi, htc, f6, h4.mono f7, by rw [f7.init]; exact hi, by rw [f7.goals]; exact hap, ⟨n, by rw [f7.goals]; exact n1, hed⟩, ?_⟩
  intro hgs e he
  subst hgs
  rcases addAll_paths _ f5 e he with he | he
  · rw [hedges] at he; simp at he
  · have hgn : ∀ m ∈ r1.goals, r1.configs[m]? = some g := by
      intro m hm
      obtain ⟨q, b1, b2⟩ := h4.goals m hm
      rw [List.mem_singleton.1 b1] at b2
      exact b2
    have dir : e.src ≠ e.dst ∧ ∃ a b, r1.configs[e.src]? = some a ∧ r1.configs[e.dst]? = some b ∧ directPath C a b = some e.path := by
      rcases List.mem_append.1 he with he | he
      · exact futureEdges_direct h2.inv _ (fun _ hc => hc) f1 _ he
      · exact goalEdges_direct h2.inv _ f3 _ he
    obtain ⟨k, hk⟩ := single_goal h h1
    have ends : e.src = i ∧ e.dst ∈ r1.goals := by
      rcases List.mem_append.1 he with he | he
      · obtain ⟨b1, b2, b3⟩ := (futureEdges_ends h2.inv r1.live (fun _ hc => hc) f1 _ he).1 rfl
        refine ⟨b1, ?_⟩
        rcases honly _ b3 with b4 | b4
        · rw [hi] at b4
          exact absurd (by rw [Option.some.inj b4]) b2
        · exact b4
      · obtain ⟨b1, b2, b3⟩ := goalEdges_ends h2.inv r1.goals f3 _ he
        refine ⟨?_, b1⟩
        rcases honly _ b2 with b4 | b4
        · rw [hi] at b4
          exact (Option.some.inj b4).symm
        · rw [hk] at b1 b4
          exact absurd ((List.mem_singleton.1 b4).trans (List.mem_singleton.1 b1).symm) dir.1
    refine ⟨ends.1, by rw [f7.goals]; exact ends.2, ?_⟩
    obtain ⟨-, a, b, a1, a2, a3⟩ := dir
    rw [ends.1, hqi] at a1
    rw [hgn _ ends.2] at a2
    obtain rfl := Option.some.inj a1
    obtain rfl := Option.some.inj a2
    rw [hp] at a3
    exact (Option.some.inj a3).symm

/-- The search of the solution then succeeds. -/
theorem Linked.path {q0 g : Q} {gs : List Q} {p : P} {r1 r2 : Roadmap Q P} {i : Nat} (h : Linked C Valid q0 g gs p r1 r2 i) (heur : Roadmap Q P → Nat → K) :
    (reached r2).1 = true ∧ ∃ l, computePath C heur r2 = .ok l ∧ (gs = [g] → l = [p]) := by
  obtain ⟨n, n1, n2⟩ := h.edge
  have hr : NodeReach r2 i n := ReflTransGen.single n2
  refine ⟨(reached_iff h.good.inv h.init').2 ⟨n, n1, hr⟩, ?_⟩
  unfold computePath
  rw [h.init']
  simp only
  rcases AStar.solution_spec h.good.inv h.init' C.len (heur r2) (r2.configs.length + 1) (le_refl _) with ⟨g', es, k1, k2, k3, -⟩ | ⟨k1, k2⟩
  · rw [k1]
    simp only
    cases k3 with
    | nil => exact absurd k2 h.apart
    | @cons _ _ e es he hp =>
      rw [if_neg (by simp)]
      refine ⟨_, rfl, fun hgs => ?_⟩
      have he' := (h.good.inv.adj.outOk i e he).2
      obtain ⟨e1, e2, e3⟩ := h.single hgs e he'
      cases hp with
      | nil => simp [e3]
      | @cons _ _ e' es' he2 hp2 =>
        exfalso
        obtain ⟨c1, c2⟩ := h.good.inv.adj.outOk _ e' he2
        have := (h.single hgs e' c2).1
        rw [this] at c1
        rw [← c1] at e2
        exact h.apart e2
  · exact absurd hr (k2 n n1)

/-- A resolution that is over at the start. -/
theorem solve_direct {X : Type} {q0 g : Q} {gs : List Q} {p : P} {r1 r2 : Roadmap Q P} {i : Nat} (h : Linked C Valid q0 g gs p r1 r2 i) (heur : Roadmap Q P → Nat → K)
    (start step : X × Roadmap Q P → Except PlanErr (X × Roadmap Q P)) (s : X × Roadmap Q P) (x : X) (hs : start s = .ok (x, r2)) (st : Settings K) (late intr : Nat → Bool) (hint : intr 0 = false)
    (fuel : Nat) : ∃ l, solve (planCalls C heur start step) st late intr fuel s = .path l ∧ Solves C Valid q0 gs l ∧ (gs = [g] → l = [p]) := by
  obtain ⟨k1, l, k2, k3⟩ := h.path heur
  refine ⟨l, ?_, computePath_spec h.good h.tag heur k2, k3⟩
  have hc : (planCalls C heur start step).start s = .ok (x, r2) := hs
  unfold solve
  rw [hc]
  simp only [hint, Bool.false_eq_true, if_false]
  rw [show (planCalls C heur start step).reached (x, r2) = ((reached r2).1, (x, r2)) from rfl, k1, if_pos rfl]
  unfold conclude
  rw [show (planCalls C heur start step).computePath (x, r2) = computePath C heur r2 from rfl, k2]

/-- C163, BiRRT: from an empty roadmap, if a direct path to a goal is accepted, `solve` returns a path to a goal without any random configuration, whatever the limits (which are not tested), unless it is
interrupted; if there is one goal, the path returned is this direct path. -/
theorem C163_birrt (hC : Contract C Valid) (heur : Roadmap Q P → Nat → K) (q0 g : Q) (gs : List Q) (shoot : Nat → Q) (hg : g ∈ gs) (h0 : q0 ∉ gs) (p : P) (hp : directPath C q0 g = some p)
    (x : BState) (h : Good C Valid [] r) (hemp : r.configs = []) (st : Settings K) (late intr : Nat → Bool) (hint : intr 0 = false) (fuel : Nat) :
    ∃ l, solve (birrt C heur q0 gs shoot) st late intr fuel (x, r) = .path l ∧ Solves C Valid q0 gs l ∧ (gs = [g] → l = [p]) := by
  obtain ⟨r1, r2, i, h1, h2⟩ := linked hC q0 g gs hg h0 hp h hemp
  exact solve_direct h2 heur _ _ (x, r) ⟨r1.cc i, x.ends ++ r1.goals.map r1.cc, x.shots⟩ (by simp only [bStart, h1, h2.init, h2.connect]) st late intr hint fuel

theorem startPlan_direct (hC : Contract C Valid) (q0 g : Q) (gs : List Q) (hg : g ∈ gs) (h0 : q0 ∉ gs) {p : P} (hp : directPath C q0 g = some p) (h : Good C Valid [] r) (hemp : r.configs = []) (n : Nat) :
    ∃ r1 r2 i, startPlan C q0 gs (n, r) = .ok (n, r2) ∧ Linked C Valid q0 g gs p r1 r2 i := by
  obtain ⟨r1, r2, i, h1, h2⟩ := linked hC q0 g gs hg h0 hp h hemp
  exact ⟨r1, r2, i, by simp only [startPlan, h1, h2.connect, lift], h2⟩

/-- C163, diffusing planner. -/
theorem C163_diffusing [Mul K] [One K] (hC : Contract C Valid) (D : DiffParams K) (heur : Roadmap Q P → Nat → K) (q0 g : Q) (gs : List Q) (shoot : Nat → Q) (hg : g ∈ gs) (h0 : q0 ∉ gs) (p : P)
    (hp : directPath C q0 g = some p) (n : Nat) (h : Good C Valid [] r) (hemp : r.configs = []) (st : Settings K) (late intr : Nat → Bool) (hint : intr 0 = false) (fuel : Nat) :
    ∃ l, solve (diffusing C D heur q0 gs shoot) st late intr fuel (n, r) = .path l ∧ Solves C Valid q0 gs l ∧ (gs = [g] → l = [p]) := by
  obtain ⟨r1, r2, i, h1, h2⟩ := startPlan_direct hC q0 g gs hg h0 hp h hemp n
  exact solve_direct h2 heur _ _ (n, r) n h1 st late intr hint fuel

/-- C163, Visibility-PRM. -/
theorem C163_visibility (hC : Contract C Valid) (heur : Roadmap Q P → Nat → K) (q0 g : Q) (gs : List Q) (sample : Nat → Q) (hg : g ∈ gs) (h0 : q0 ∉ gs) (p : P)
    (hp : directPath C q0 g = some p) (x : Nat × (Nat → Bool)) (h : Good C Valid [] r) (hemp : r.configs = []) (st : Settings K) (late intr : Nat → Bool) (hint : intr 0 = false) (fuel : Nat) :
    ∃ l, solve (visibility C heur q0 gs sample) st late intr fuel (x, r) = .path l ∧ Solves C Valid q0 gs l ∧ (gs = [g] → l = [p]) := by
  obtain ⟨r1, r2, i, h1, h2⟩ := startPlan_direct hC q0 g gs hg h0 hp h hemp 0
  exact solve_direct h2 heur _ _ (x, r) x (by simp only [h1]) st late intr hint fuel

/-- C163, BiRRT*, which takes one goal. -/
theorem C163_birrtstar {C : Star.SEnv Q P K} (hC : Contract C.toPEnv Valid) (heur : Roadmap Q P → Nat → K) (pop : List (Star.WNode P K) → Option (Star.WNode P K × List (Star.WNode P K))) (fc fp : Nat)
    (q0 g : Q) (draws : Nat → Star.Draw Q) (h0 : q0 ≠ g) (p : P) (hp : directPath C.toPEnv q0 g = some p) (x : Star.Trees P × Nat) (h : Good C.toPEnv Valid [] r) (hemp : r.configs = [])
    (st : Settings K) (late intr : Nat → Bool) (hint : intr 0 = false) (fuel : Nat) :
    solve (Star.birrtstar C heur pop fc fp q0 [g] draws) st late intr fuel (x, r) = .path [p] := by
  obtain ⟨r1, r2, i, h1, h2⟩ := linked hC q0 g [g] (by simp) (by simpa using h0) hp h hemp
  obtain ⟨k, hk⟩ := single_goal h h1
  obtain ⟨l, k1, -, k2⟩ := solve_direct h2 heur (fun s => match Star.starStart C q0 [g] s.2 with
      | .error e => .error (Star.starErr e)
      | .ok (r, t) => .ok ((t, s.1.2), r))
    (fun s => match Star.oneStep C pop fc fp (draws s.1.2) s.2 s.1.1 with
      | .error e => .error (Star.starErr e)
      | .ok (r, t) => .ok ((t, s.1.2 + 1), r)) (x, r) (_, x.2) (by
      simp only [Star.starStart, h1, hk, h2.init, h2.connect, Star.setParent]
      rfl) st late intr hint fuel
  rw [k2 rfl] at k1
  exact k1

end Verif.Planner

namespace Verif.Planner.CarsSampled
open Verif.Car Verif.PathV Verif.Planner Verif.Roadmap Verif.Planner.Cars
open Classical

variable {ι : Type} [Fintype ι] {B : Bench ι}

/-- C163, for a car steered by Dubins or Snibud with discretized validation: if no configuration of the path of the steering method to the goal is in collision, BiRRT returns this path, driven in one
direction, whatever the configurations that are shot and the limits. -/
theorem C163_car (hB : B.Ok) (heur : Roadmap (Conf ι) (SP B) → Nat → ℝ) (q0 g : Conf ι) (shoot : Nat → Conf ι) (hne : q0.1.pose ≠ g.1.pose)
    (hfree : ∀ l, path B.X q0 g = .ok l → ∀ K ∈ l, ∀ t, K.t0 ≤ t → t ≤ K.t1 → ∀ c ∈ B.X.pairs, ∀ o ∈ c.objs, o.collide (K.eval t) ≠ none)
    (x : BState) (st : Settings ℝ) (late intr : Nat → Bool) (hint : intr 0 = false) (fuel : Nat) :
    ∃ p : SP B, path B.X q0 g = .ok p.1 ∧ solve (birrt (env B) heur q0 [g] shoot) st late intr fuel (x, Roadmap.empty) = .path [p] ∧
      Safe B (evalV (vecOps ccOps) (pathVector [p])) (pathVector [p]).tr.2 p.1 q0 g ∧ ∀ K ∈ p.1, if B.X.back then K.curveLength ≤ 0 else 0 ≤ K.curveLength := by
  obtain ⟨p, hp⟩ := C162_steer hB hne
  have hpath : path B.X q0 g = .ok p.1 := by
    have := hp
    simp only [env] at this
    split at this
    · simp at this
    · next l hl =>
      split at this
      · obtain rfl := Option.some.inj this
        exact hl
      · simp at this
  have hacc := C162_accepts hB false p (fun K hK t t0 t1 c hc o ho => hfree _ hpath K hK t t0 t1 c hc o ho)
  have hval : ((env B).validate false p).2 = p := by
    rcases check_spec hB false p with ⟨-, h, -⟩ | ⟨h, -⟩
    · exact h
    · rw [hacc] at h; simp at h
  obtain ⟨e1, e2⟩ := (contract hB).steer q0 g p hp
  have hlen : 0 < (env B).len p := by
    have hl : (env B).len p = total ccOps p.1 := by show (vec p.1).tr.2 - (vec p.1).tr.1 = _; rw [tr_vec, sub_zero]
    rw [hl]
    refine lt_of_le_of_ne (tnn p) fun h => hne ?_
    have e := (vec_ends (low p)).2
    change evalV ccOps (vec p.1) (total ccOps p.1) = _ at e
    rw [← h] at e
    have := Except.ok.inj ((vec_ends (low p)).1.symm.trans e)
    rw [← e1, ← e2]
    exact congrArg Cfg.pose this
  have hd : directPath (env B) q0 g = some p := by
    unfold directPath
    rw [hp]
    show (if ((env B).validate false p).1 = true ∧ 0 < (env B).len ((env B).validate false p).2 then some p else none) = some p
    rw [hval, if_pos ⟨hacc, hlen⟩]
  have hqg : q0 ∉ [g] := fun h => hne (by rw [List.mem_singleton.1 h])
  obtain ⟨l, k1, k2, k3⟩ := C163_birrt (contract hB) heur q0 g [g] shoot (by simp) hqg p hd x (r := Roadmap.empty) ⟨Inv.empty, by simp [Roadmap.empty]⟩ rfl st late intr hint fuel
  obtain rfl := k3 rfl
  have hv : Valid B p := ((contract hB).valid_true false p hacc).1
  have hc : Connects (env B) (Valid B) q0 [p] g := ⟨hv, e1, e2⟩
  refine ⟨p, hpath, k1, ?_, (follows hB).steer q0 g p hp⟩
  have s := safe_of_connects [p] (V := Valid B) (fun p h => Or.inl h) (by simp) (by
    have := (valid_iff p).1 hv 0 le_rfl (tnn p) _ (vec_ends (low p)).1
    change B.Free (ini (low p)).1 at this
    rw [show ini (low p) = q0 from e1] at this
    exact this) hc
  simpa using s

/-- A car without obstacles. -/
noncomputable def Demo.open' : Bench (Fin 0) := ⟨{ Cars.Demo.world with pairs := [] }, 1 / 10, fun _ => 0⟩

/-- The hypotheses hold: between different poses, BiRRT returns the path of Dubins. -/
example : Demo.open'.Ok ∧ ∀ (q0 g : Conf (Fin 0)), q0.1.pose ≠ g.1.pose → ∀ heur shoot x (st : Settings ℝ) late fuel,
    ∃ p : SP Demo.open', path Demo.open'.X q0 g = .ok p.1 ∧ solve (birrt (env Demo.open') heur q0 [g] shoot) st late (fun _ => false) fuel (x, Roadmap.empty) = .path [p] := by
  have ok : Demo.open'.Ok := ⟨⟨by simp [Demo.open'], Cars.Demo.world_ok.radius, Cars.Demo.world_ok.extra, Cars.Demo.world_ok.between⟩, by norm_num [Demo.open'], fun j => j.elim0, fun _ _ j => j.elim0⟩
  refine ⟨ok, fun q0 g h heur shoot x st late fuel => ?_⟩
  obtain ⟨p, h1, h2, -⟩ := C163_car ok heur q0 g shoot h (fun l _ K _ t _ _ c hc => absurd hc (by simp [Demo.open'])) x st late (fun _ => false) rfl fuel
  exact ⟨p, h1, h2⟩

end Verif.Planner.CarsSampled
