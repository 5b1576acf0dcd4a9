import Verif.Planner.KPrmStar
import Verif.Planner.Visibility
import Verif.Planner.BiRRTStarCost
import Verif.Car.CarLike
import Verif.Kino.Path
set_option linter.unusedSectionVars false

/-!
# Steering methods that go one way only (C158)

The steering method of Dubins drives forward only and the one of Snibud backward only.  BiRRT inserts in the roadmap only the paths that it steers
(bi-rrt-planner.cc:132, 149, 156, 162, path-planner.cc:283), in the direction in which they are computed.  The other planners insert the reverse of each path as well
(diffusing-planner.cc:227, 245, 279, 283, visibility-prm-planner.cc:179, k-prm-star.cc:183, bi-rrt-star.cc:397, 413, 498, 514).  The models of the planners are those of C66 and C67.
-/
namespace Verif.Planner.OneWay
open Verif.Roadmap Verif.Planner

variable {Q P K : Type} [DecidableEq Q] [AddCommGroup K] [LinearOrder K] [IsOrderedAddMonoid K]

/-- Specification: the paths that can be followed (`A`) include those of the steering method, and their projections and parts found valid. -/
structure Follows (C : PEnv Q P K) (A : P → Prop) : Prop where
  steer : ∀ a b p, C.steer a b = some p → A p
  proj : ∀ f p b p', C.projector = some f → A p → f p = (b, some p') → A p'
  part : ∀ b p, A p → A (C.validate b p).2

/-- Specification: the paths of the edges can be followed. -/
def Edges (A : P → Prop) (r : Roadmap Q P) : Prop := ∀ e ∈ r.edges, A e.path

variable {C : PEnv Q P K} {A : P → Prop} {r r' : Roadmap Q P}

theorem addEdge_ways {a b : Nat} {p : P} (h : Edges A r) (hp : A p) (k : addEdge r a b p = .ok r') : Edges A r' := by
  have h1 := (Star.addEdge_added k).edges
  intro e he
  rw [h1] at he
  rcases List.mem_append.1 he with he | he
  · exact h e he
  · rw [List.mem_singleton.1 he]; exact hp

theorem addNode_ways {q : Q} {n : Nat} (h : Edges A r) (k : addNode C.toEnv r q = .ok (r', n)) : Edges A r' := by
  unfold addNode at k
  split at k
  · split at k
    · simp at k
    · split at k
      · cases k; exact h
      · cases k; exact h
  · cases k; exact h

theorem addNodeIn_ways {q : Q} {c n : Nat} (h : Edges A r) (k : addNodeIn C.toEnv r q c = .ok (r', n)) : Edges A r' := by
  unfold addNodeIn at k
  split at k
  · split at k
    · simp at k
    · split at k
      · cases k; exact h
      · cases k; exact h
  · cases k; exact h

theorem addNodeAndEdgeTo_ways {a n : Nat} {q : Q} {p : P} (h : Edges A r) (hp : A p) (k : addNodeAndEdgeTo C.toEnv r a q p = .ok (r', n)) : Edges A r' := by
  unfold addNodeAndEdgeTo at k
  split at k
  · simp [throw, throwThe, MonadExceptOf.throw, bind, Except.bind] at k
  · cases h1 : addNodeIn C.toEnv r q (r.cc a) with
    | error e => rw [h1] at k; simp [bind, Except.bind] at k
    | ok x =>
      obtain ⟨r1, m⟩ := x
      rw [h1] at k
      cases h2 : addEdge r1 a m p with
      | error e => simp [bind, Except.bind, h2] at k
      | ok r2 =>
        simp [bind, Except.bind, pure, Except.pure, h2] at k
        rw [← k.1]
        exact addEdge_ways (addNodeIn_ways h h1) hp h2

theorem addNodeAndEdgeFrom_ways {a n : Nat} {q : Q} {p : P} (h : Edges A r) (hp : A p) (k : addNodeAndEdgeFrom C.toEnv r q a p = .ok (r', n)) : Edges A r' := by
  unfold addNodeAndEdgeFrom at k
  split at k
  · simp [throw, throwThe, MonadExceptOf.throw, bind, Except.bind] at k
  · cases h1 : addNodeIn C.toEnv r q (r.cc a) with
    | error e => rw [h1] at k; simp [bind, Except.bind] at k
    | ok x =>
      obtain ⟨r1, m⟩ := x
      rw [h1] at k
      cases h2 : addEdge r1 m a p with
      | error e => simp [bind, Except.bind, h2] at k
      | ok r2 =>
        simp [bind, Except.bind, pure, Except.pure, h2] at k
        rw [← k.1]
        exact addEdge_ways (addNodeIn_ways h h1) hp h2

theorem directPath_ways (hA : Follows C A) {a b : Q} {p : P} (k : directPath C a b = some p) : A p := by
  unfold directPath at k
  cases hs : C.steer a b with
  | none => rw [hs] at k; simp at k
  | some p0 =>
    rw [hs] at k
    have h0 := hA.steer a b p0 hs
    cases hp : C.projector with
    | none =>
      rw [hp] at k
      simp only at k
      split at k
      · cases k; exact h0
      · simp at k
    | some f =>
      rw [hp] at k
      simp only at k
      rcases hf : f p0 with ⟨b', x⟩
      rw [hf] at k
      cases b' with
      | false => simp at k
      | true =>
        cases x with
        | none => simp at k
        | some p' =>
          simp only at k
          split at k
          · cases k; exact hA.proj f p0 true _ hp h0 hf
          · simp at k

theorem futureEdge_ways (hA : Follows C A) {fwd : Bool} {n c : Nat} {x : Option (Nat × Nat × P)} (k : futureEdge C r fwd n c = .ok x) :
    ∀ y, x = some y → A y.2.2 := by
  unfold futureEdge at k
  split at k
  · cases k; simp
  · split at k
    · simp at k
    · split at k
      · simp at k
      · split at k
        · simp at k
        · rename_i q _ _ _ near _ _ x' _
          split at k
          all_goals
            rw [← Except.ok.inj k]
            intro y hy
            obtain ⟨p, hp, rfl⟩ := Option.map_eq_some_iff.1 hy
            exact directPath_ways hA hp

theorem futureEdges_ways (hA : Follows C A) {fwd : Bool} {n : Nat} (cs : List Nat) {l : List (Nat × Nat × P)} (k : futureEdges C r fwd n cs = .ok l) :
    ∀ y ∈ l, A y.2.2 := by
  induction cs generalizing l with
  | nil => cases k; simp
  | cons c cs ih =>
    unfold futureEdges at k
    cases h1 : futureEdge C r fwd n c with
    | error e => rw [h1] at k; simp at k
    | ok x =>
      rw [h1] at k
      simp only at k
      cases h2 : futureEdges C r fwd n cs with
      | error e => rw [h2] at k; simp at k
      | ok l2 =>
        rw [h2] at k
        rw [← Except.ok.inj k]
        intro y hy
        rcases List.mem_append.1 hy with hy | hy
        · exact futureEdge_ways hA h1 y (by simpa using hy)
        · exact ih h2 y hy

theorem goalEdges_ways (hA : Follows C A) (gs : List Nat) {l : List (Nat × Nat × P)} (k : goalEdges C r gs = .ok l) : ∀ y ∈ l, A y.2.2 := by
  induction gs generalizing l with
  | nil => cases k; simp
  | cons g gs ih =>
    unfold goalEdges at k
    cases h1 : futureEdges C r false g r.live with
    | error e => rw [h1] at k; simp at k
    | ok x =>
      rw [h1] at k
      simp only at k
      cases h2 : goalEdges C r gs with
      | error e => rw [h2] at k; simp at k
      | ok l2 =>
        rw [h2] at k
        rw [← Except.ok.inj k]
        intro y hy
        rcases List.mem_append.1 hy with hy | hy
        · exact futureEdges_ways hA _ h1 y hy
        · exact ih h2 y hy

theorem addAll_ways (l : List (Nat × Nat × P)) (hl : ∀ y ∈ l, A y.2.2) {r : Roadmap Q P} (h : Edges A r) (k : addAll l r = .ok r') : Edges A r' := by
  induction l generalizing r with
  | nil => cases k; exact h
  | cons x l ih =>
    obtain ⟨a, b, p⟩ := x
    unfold addAll at k
    cases h1 : addEdge r a b p with
    | error e => rw [h1] at k; simp at k
    | ok r1 =>
      rw [h1] at k
      exact ih (fun y hy => hl y (by simp [hy])) (addEdge_ways h (hl (a, b, p) (by simp)) h1) k

theorem tryConnect_ways (hA : Follows C A) (h : Edges A r) (k : tryConnect C r = .ok r') : Edges A r' := by
  unfold tryConnect at k
  cases hi : r.init with
  | none => rw [hi] at k; simp at k
  | some i =>
    rw [hi] at k
    simp only at k
    cases h1 : futureEdges C r true i r.live with
    | error e => rw [h1] at k; simp at k
    | ok l =>
      rw [h1] at k
      simp only at k
      cases h2 : goalEdges C r r.goals with
      | error e => rw [h2] at k; simp at k
      | ok l' =>
        rw [h2] at k
        refine addAll_ways _ ?_ h k
        intro y hy
        rcases List.mem_append.1 hy with hy | hy
        · exact futureEdges_ways hA _ h1 y hy
        · exact goalEdges_ways hA _ h2 y hy

theorem addGoals_ways (gs : List Q) {r : Roadmap Q P} (h : Edges A r) (k : addGoals C gs r = .ok r') : Edges A r' := by
  induction gs generalizing r with
  | nil => cases k; exact h
  | cons g gs ih =>
    unfold addGoals at k
    cases h1 : addGoalNode C.toEnv r g with
    | error e => rw [h1] at k; simp at k
    | ok x =>
      rw [h1] at k
      refine ih ?_ k
      unfold addGoalNode at h1
      cases h2 : addNode C.toEnv r g with
      | error e => rw [h2] at h1; simp [bind, Except.bind] at h1
      | ok y =>
        rw [h2] at h1
        have : ({ y.1 with goals := y.1.goals ++ [y.2] }, y.2) = x := Except.ok.inj h1
        rw [← this]
        exact addNode_ways (n := y.2) (r' := y.1) h h2

theorem startSolve_ways {q0 : Q} {gs : List Q} (h : Edges A r) (k : startSolve C q0 gs r = .ok r') : Edges A r' := by
  unfold startSolve at k
  cases h1 : setInit C.toEnv (resetGoalNodes r) q0 with
  | error e => rw [h1] at k; simp at k
  | ok x =>
    rw [h1] at k
    refine addGoals_ways gs ?_ k
    unfold setInit at h1
    cases h2 : addNode C.toEnv (resetGoalNodes r) q0 with
    | error e => rw [h2] at h1; simp [bind, Except.bind] at h1
    | ok y =>
      rw [h2] at h1
      have : ({ y.1 with init := some y.2 }, y.2) = x := Except.ok.inj h1
      rw [← this]
      exact addNode_ways (A := A) (C := C) (q := q0) (n := y.2) (r' := y.1) (r := resetGoalNodes r) h h2

theorem bExtend_ways (hA : Follows C A) {x q : Q} {b : Bool} {p : P} (k : bExtend C x q b = some p) : A p := by
  unfold bExtend at k
  split at k
  · simp at k
  · split at k
    · exact hA.steer _ _ _ k
    · exact hA.steer _ _ _ k

theorem fromStart_ways (hA : Follows C A) {q : Q} {c : Nat} (h : Edges A r) {out : Roadmap Q P × Bool × Option (Nat × Q)} (k : fromStart C q c r = .ok out) :
    Edges A out.1 := by
  unfold fromStart at k
  split at k
  · simp at k
  · split at k
    · simp at k
    · split at k
      · cases k; exact h
      · rename_i p hp
        simp only at k
        split at k
        · split at k
          · simp at k
          · rename_i r1 n hn
            cases k
            exact addNodeAndEdgeTo_ways h (hA.part _ _ (bExtend_ways hA hp)) hn
        · cases k; exact h

theorem endLoop_ways (hA : Follows C A) {q : Q} {valid : Bool} {reached : Option (Nat × Q)} (cs : List Nat) {r : Roadmap Q P} (h : Edges A r)
    (k : endLoop C q valid reached cs r = .ok r') : Edges A r' := by
  induction cs generalizing r with
  | nil => cases k; exact h
  | cons c cs ih =>
    unfold endLoop at k
    split at k
    · simp at k
    · split at k
      · simp at k
      · split at k
        · exact ih h k
        · rename_i p hp
          have hv := hA.part true p (bExtend_ways hA hp)
          simp only at k
          split at k
          · split at k
            · simp at k
            · exact addEdge_ways h hv k
          · split at k
            · split at k
              · simp at k
              · rename_i r1 n2 hn
                have h1 := addNodeAndEdgeFrom_ways h hv hn
                split at k
                · exact ih h1 k
                · split at k
                  · exact ih h1 k
                  · rename_i p2 hp2
                    split at k
                    · exact addEdge_ways h1 (hA.steer _ _ _ hp2) k
                    · exact ih h1 k
            · exact ih h k

/-- C158: a step of BiRRT inserts only paths that can be followed in the direction of the edge. -/
theorem C158_step (hA : Follows C A) (q : Q) (s : BState) (h : Edges A r) (k : bStep C q s r = .ok r') : Edges A r' := by
  unfold bStep at k
  cases h1 : fromStart C q s.startC r with
  | error e => rw [h1] at k; simp at k
  | ok out =>
    obtain ⟨r1, v, reached⟩ := out
    rw [h1] at k
    exact endLoop_ways hA s.ends (fromStart_ways hA h h1) k

theorem Good.ways {V : List (Nat × Nat)} {Valid : P → Prop} (h : Good C Valid V r) (hA : Edges A r) : Good C (fun p => Valid p ∧ A p) V r :=
  ⟨h.inv, fun e he => ⟨⟨(h.edges e he).valid, hA e he⟩, (h.edges e he).src, (h.edges e he).dst⟩⟩

theorem connects_all {B : P → Prop} (l : List P) {a b : Q} (h : Connects C B a l b) : ∀ p ∈ l, B p := by
  induction l generalizing a with
  | nil => simp
  | cons p l ih =>
    obtain ⟨h1, -, h2⟩ := h
    intro x hx
    rcases List.mem_cons.1 hx with rfl | hx
    · exact h1
    · exact ih h2 x hx

/-- C158 for BiRRT: the path returned is a continuous sequence, from the init configuration to a goal configuration, of paths that can be followed (and are accepted by the
validation or reduced to a point), whatever the configurations that are drawn.  Partial as C67 for BiRRT: no constraints. -/
theorem C158_birrt_partial {Valid : P → Prop} {V : List (Nat × Nat)} (hA : Follows C A) (hC : Contract C Valid) (hP : PointContract C Valid)
    (hfree : ∀ x q, C.onKernel x q = some q) (heur : Roadmap Q P → Nat → K) (q0 : Q) (gs : List Q) (shoot : Nat → Q)
    {s : BState × Roadmap Q P} (h : Good C (ValidOrPoint C Valid) V s.2) (hw : Edges A s.2) (st : Settings K) (late intr : Nat → Bool) (fuel : Nat) (l : List P)
    (hl : solve (birrt C heur q0 gs shoot) st late intr fuel s = .path l) :
    Solves C (fun p => ValidOrPoint C Valid p ∧ A p) q0 gs l ∧ ∀ p ∈ l, A p := by
  obtain ⟨r1, h1, h2, -, h3⟩ := startSolve_spec h q0 gs
  obtain ⟨i, hi, -⟩ := h3.init
  obtain ⟨r2, h4, h5, h6⟩ := tryConnect_spec (hC.point hP) h2 hi
  have key : Solves C (fun p => ValidOrPoint C Valid p ∧ A p) q0 gs l := by
    refine solve_solves C _ heur _ _ q0 gs (fun s => ((∃ V, Good C (ValidOrPoint C Valid) V s.2) ∧ Edges A s.2) ∧ Tagged q0 gs s.2)
      (fun s hs => ⟨⟨_, Good.ways hs.1.1.choose_spec hs.1.2⟩, hs.2⟩) s (⟨r1.cc i, s.1.ends ++ r1.goals.map r1.cc, s.1.shots⟩, r2)
      (by simp only [bStart, h1, hi, h4]) ⟨⟨⟨V, h5⟩, tryConnect_ways hA (startSolve_ways hw h1) h4⟩, h3.mono h6⟩ ?_ st late intr fuel l hl
    rintro u u' ⟨⟨⟨V', k1⟩, kw⟩, k2⟩ hu
    cases hb : bStep C (shoot u.1.shots) u.1 u.2 with
    | error e => simp only [hb] at hu; simp at hu
    | ok r' =>
      simp only [hb] at hu
      obtain ⟨m1, m2⟩ := C66_birrt_partial hC hP hfree (shoot u.1.shots) u.1 k1 hb
      rw [← Except.ok.inj hu]
      exact ⟨⟨m1, C158_step hA _ _ kw hb⟩, k2.mono m2⟩
  refine ⟨key, ?_⟩
  rcases key with ⟨g, -, -, hc⟩ | ⟨-, p, hp, rfl⟩
  · exact fun p hp => (connects_all l hc p hp).2
  · intro p' hp'
    rw [List.mem_singleton.1 hp']
    exact hA.steer _ _ _ hp

/-! ## A line on which one moves up only -/

/-- The line of `Line.env` with a steering method that goes up only. -/
def up : PEnv Int Line.LP Int := { Line.env with steer := fun a b => if a ≤ b then Line.env.steer a b else none }

/-- Paths that go up. -/
def Up (p : Line.LP) : Prop := p.1 ≤ p.2.1

theorem up_contract : Contract up Line.Free := by
  have h := Line.contract
  refine ⟨?_, h.extract_ini, h.extract_valid, h.proj, h.proj_some, h.valid_ini, h.valid_part, h.valid_true, h.valid_fin, h.rev_ini, h.rev_fin, h.rev_valid⟩
  intro a b p hp
  simp only [up] at hp
  split at hp
  · exact h.steer a b p hp
  · simp at hp

theorem up_point : PointContract up Line.Free := ⟨Line.point.part, Line.point.extract, Line.point.rev⟩

theorem up_follows : Follows up Up := by
  refine ⟨?_, ?_, ?_⟩
  · intro a b p hp
    simp only [up, Line.env] at hp
    split at hp
    · split at hp
      · rw [← Option.some.inj hp]; assumption
      · simp at hp
    · simp at hp
  · intro f p b p' hf
    simp [up, Line.env] at hf
  · rintro b ⟨x, y, t⟩ h
    simp only [up, Line.env, Up] at h ⊢
    by_cases h1 : x < 10 ∧ y < 10
    · simp only [if_pos h1]; exact h
    · simp only [if_neg h1]
      cases b with
      | false =>
        by_cases h2 : x < 10
        · simp only [if_true, if_pos h2]; omega
        · simp only [if_true, if_neg h2]; omega
      | true =>
        by_cases h2 : y < 10
        · omega
        · simp [h2]

/-- the hypotheses hold and BiRRT solves a problem going up -/
example : Follows up Up ∧ Contract up Line.Free ∧ PointContract up Line.Free ∧ (∀ x q, up.onKernel x q = some q) ∧
    Line.out (solve (birrt up (fun _ _ => 0) 0 [8] (fun n => if n = 0 then 3 else if n = 1 then 5 else 4)) (Settings.default (K := Int))
      (fun _ => false) (fun _ => false) 10 (⟨0, [], 0⟩, Roadmap.empty)) = some [(0, 3), (3, 5), (5, 8)] :=
  ⟨up_follows, up_contract, up_point, fun _ _ => rfl, by decide +kernel⟩

/-- Going up only, one cannot go down. -/
theorem up_only (l : List Line.LP) {a b : Int} (h : Connects up Up a l b) : a ≤ b := by
  induction l generalizing a with
  | nil => exact le_of_eq h
  | cons p l ih =>
    obtain ⟨h1, h2, h3⟩ := h
    have h4 : p.1 = a := h2
    have := ih h3
    have h5 : p.2.1 ≤ b := this
    unfold Up at h1
    omega

/-- kPRM* on this line, 3 nodes, 3 neighbours. -/
def kup : KEnv Int Line.LP Int {l : List (Int × Nat) // l.Pairwise (fun a b => b.1 ≤ a.1)} := { Line.kenv with toPEnv := up, nodes := 3, k := 3 }

/-- BiRRT* on this line. -/
def sup : Star.SEnv Int Line.LP Int := { Star.LineStar.env with toPEnv := up }

/-- C158: on a line on which the steering method goes up only, no path that can be followed goes from 5 to 0, 2 or 4.  Yet the other planners return a path to such a goal, a part of
which, or all of it, is the reverse of a steered path. -/
theorem C158_reverse_counterexample : Contract up Line.Free ∧ Follows up Up ∧ (∀ l b, b < 5 → ¬ Connects up Up 5 l b) ∧
    Line.out (solve (diffusing up ⟨0, 1⟩ (fun _ _ => 0) 5 [0] (fun n => if n = 0 then 3 else 5)) (Settings.default (K := Int)) (fun _ => false) (fun _ => false) 10
      (0, Roadmap.empty)) = some [(5, 3), (3, 0)] ∧
    Line.out (solve (visibility up (fun _ _ => 0) 5 [4] (fun n => if n = 0 then -7 else 3)) (Settings.default (K := Int))
      (fun _ => false) (fun _ => false) 10 ((0, fun _ => false), Roadmap.empty)) = some [(5, 3), (3, 4)] ∧
    Line.out (solve (kprm kup (fun _ _ => 0) 5 [0]) (Settings.default (K := Int)) (fun _ => false) (fun _ => false) 100
      (⟨.failure, 7, [9], 3, 0⟩, Roadmap.empty)) = some [(5, 3), (3, 0)] ∧
    Line.out (solve (Star.birrtstar sup (fun _ _ => 0) Star.popMax 5 100 5 [4] (Star.LineStar.shots (fun _ => 6))) (Settings.default (K := Int))
      (fun _ => false) (fun _ => false) 10 ((Star.LineStar.noTrees, 0), Roadmap.empty)) = some [(5, 6), (6, 4)] := by
  refine ⟨up_contract, up_follows, fun l b hb h => ?_, by decide +kernel, by decide +kernel, by decide +kernel, by decide +kernel⟩
  have := up_only l h
  omega

/-! ## Paths without reverse

`KinodynamicPath::impl_extract` returns a null pointer for the whole interval reversed (kinodynamic-path.cc:315-320), hence `Path::reverse` (path.cc:228-233) does so too. -/

/-- C158: the reverse of a kinodynamic path that is not reduced to a point is a null pointer. -/
theorem C158_kinodynamic {k : Kino.KP} (h : 0 < k.len) : k.extract k.len 0 = .null :=
  (Kino.C81_degenerate k k.len 0).1 h (fun hh => by have := hh.1; linarith)

example : (⟨0, 0, 1, 0, 2, 1, 0, 1, 0, 1, 1⟩ : Kino.KP).extract 2 0 = .null := C158_kinodynamic (k := ⟨0, 0, 1, 0, 2, 1, 0, 1, 0, 1, 1⟩) (by norm_num)

/-- C158: whatever the reverse of paths is, a step of BiRRT inserts no edge with a null path (`none`). -/
theorem C158_null {C : PEnv Q (Option P) K} (hs : ∀ a b, C.steer a b ≠ some none) (hp : C.projector = none) (hv : ∀ b p, p ≠ none → (C.validate b p).2 ≠ none) (q : Q) (s : BState)
    {r r' : Roadmap Q (Option P)} (h : ∀ e ∈ r.edges, e.path ≠ none) (k : bStep C q s r = .ok r') : ∀ e ∈ r'.edges, e.path ≠ none :=
  C158_step (A := fun p => p ≠ none) ⟨fun a b p h1 h2 => hs a b (by rw [h1, h2]), fun f p b p' hf => by rw [hp] at hf; simp at hf, fun b p h1 => hv b p h1⟩ q s h k

/-- The line with paths that have no reverse: `none` is the null pointer. -/
def noRev : PEnv Int (Option Line.LP) Int where
  dist := Line.env.dist
  rev _ := none
  zeroLength p := p.elim false Line.env.zeroLength
  ini p := p.elim 0 Line.env.ini
  fin p := p.elim 0 Line.env.fin
  t0 p := p.elim 0 Line.env.t0
  t1 p := p.elim 0 Line.env.t1
  len p := p.elim 0 Line.env.len
  extract p a b := p.map (fun p => Line.env.extract p a b)
  steer a b := (Line.env.steer a b).map some
  projector := none
  validate b p := match p with
    | none => (false, none)
    | some p => ((Line.env.validate b p).1, some (Line.env.validate b p).2)
  onKernel _ q := some q

/-- the hypotheses of `C158_null` -/
example : (∀ a b, noRev.steer a b ≠ some none) ∧ noRev.projector = none ∧ ∀ b p, p ≠ none → (noRev.validate b p).2 ≠ none :=
  ⟨fun a b => by simp [noRev], rfl, fun b p h => by cases p with | none => exact absurd rfl h | some p => simp [noRev]⟩

/-- The roadmap after steps of the diffusing planner with given shots. -/
def runDiff (q0 : Int) (gs : List Int) (shots : List Int) : Option (Roadmap Int (Option Line.LP)) :=
  match startPlan noRev q0 gs (0, Roadmap.empty) with
  | .error _ => none
  | .ok s => shots.foldl (fun r q => match r with
    | none => none
    | some r => match diffStep noRev ⟨0, 1⟩ q r with
      | .error _ => none
      | .ok r => some r) (some s.2)

/-- C158: with paths that have no reverse, the diffusing planner from 0 to 8 ends with a roadmap in which the goal is reached (the search for a solution starts), and the only edge to the goal
carries a null path, the length of which is read by the search (astar.hh:117, 151). -/
theorem C158_null_counterexample :
    (runDiff 0 [8] [3, 5]).map (fun r => ((reached r).1, r.goals)) = some (true, [1]) ∧
    (runDiff 0 [8] [3, 5]).map (fun r => r.edges.map (fun e => ((e.src, e.dst), e.path.isSome))) =
      some [((0, 2), true), ((2, 0), false), ((2, 3), true), ((3, 2), false), ((1, 3), true), ((3, 1), false)] := by
  constructor <;> decide +kernel

/-! ## Cars -/
open Verif.Car
variable {E W : Type} [AddCommGroup E] [Module ℝ E]

/-- Specification: the velocity of the position is along the heading, never opposite to it. -/
def DrivesForward (l : List (CC E W)) : Prop :=
  ∀ k ∈ l, k.t0 < k.t1 → ∀ t, ∃ v : ℝ, 0 ≤ v ∧ HasDerivAt (fun t => (k.eval t).x) (v * (k.eval t).c) t ∧ HasDerivAt (fun t => (k.eval t).y) (v * (k.eval t).s) t

/-- Specification: the velocity of the position is opposite to the heading, never along it. -/
def DrivesBackward (l : List (CC E W)) : Prop :=
  ∀ k ∈ l, k.t0 < k.t1 → ∀ t, ∃ v : ℝ, v ≤ 0 ∧ HasDerivAt (fun t => (k.eval t).x) (v * (k.eval t).c) t ∧ HasDerivAt (fun t => (k.eval t).y) (v * (k.eval t).s) t

/-- Arcs driven with a signed length of sign `e`. -/
def Signed (e : ℝ) (l : List (CC E W)) : Prop := ∀ k ∈ l, k.t0 ≤ k.t1 ∧ 0 ≤ e * k.curveLength

theorem Signed.forward {l : List (CC E W)} (h : Signed 1 l) : DrivesForward l := by
  intro k hk hl t
  obtain ⟨h1, h2, -⟩ := C85_rolling k hl t
  refine ⟨_, div_nonneg ?_ (sub_pos.2 hl).le, h1, h2⟩
  have := (h k hk).2
  linarith

theorem Signed.backward {l : List (CC E W)} (h : Signed (-1) l) : DrivesBackward l := by
  intro k hk hl t
  obtain ⟨h1, h2, -⟩ := C85_rolling k hl t
  refine ⟨_, div_nonpos_of_nonpos_of_nonneg ?_ (sub_pos.2 hl).le, h1, h2⟩
  have := (h k hk).2
  linarith

/-- Specification: `l'` is made of arcs of `l` and of parts of them, followed in the same direction. -/
def PartsOf (l l' : List (CC E W)) : Prop :=
  ∀ k ∈ l', k ∈ l ∨ ∃ k0 ∈ l, ∃ a b, k0.t0 ≤ a ∧ a ≤ b ∧ b ≤ k0.t1 ∧ k = k0.extract a b

theorem Signed.parts {e : ℝ} {l l' : List (CC E W)} (h : Signed e l) (hp : PartsOf l l') : Signed e l' := by
  intro k hk
  rcases hp k hk with hk | ⟨k0, hk0, a, b, -, hab, -, rfl⟩
  · exact h k hk
  · obtain ⟨h1, h2⟩ := h k0 hk0
    unfold CC.extract
    simp only
    by_cases hL : k0.t1 - k0.t0 = 0
    · simp [hL]
    · have hpos : 0 < k0.t1 - k0.t0 := lt_of_le_of_ne (sub_nonneg.2 h1) (Ne.symm hL)
      simp only [ne_eq, hL, not_false_eq_true, if_true]
      refine ⟨by positivity, ?_⟩
      have : e * ((b - a) / (k0.t1 - k0.t0) * k0.curveLength) = (b - a) / (k0.t1 - k0.t0) * (e * k0.curveLength) := by ring
      rw [this]
      exact mul_nonneg (div_nonneg (sub_nonneg.2 hab) hpos.le) h2

/-- A problem for a car steered by Dubins (`e = 1`) or Snibud (`e = -1`), without path projector: `cfg` gives the configurations, of unit heading; the validation returns parts of the
path. -/
structure CarProblem (C : PEnv Q (List (CC E W)) K) (e : ℝ) (interp : Cfg E W → Cfg E W → ℝ → Cfg E W) (wheel : ℝ → W) (dist : Cfg E W → Cfg E W → ℝ) (rho : ℝ)
    (cfg : Q → Cfg E W) : Prop where
  radius : 0 < rho
  extra : ∀ a b, 0 ≤ dist a b
  between : ∀ a b u, (interp a b u).o = lerp a.o b.o u
  unit : ∀ q, (cfg q).Unit
  steer : ∀ a b l, C.steer a b = some l → (e = 1 ∧ dubinsSteer interp wheel dist rho (cfg a) (cfg b) = .ok l) ∨ (e = -1 ∧ snibudSteer interp wheel dist rho (cfg a) (cfg b) = .ok l)
  projector : C.projector = none
  part : ∀ b l, PartsOf l (C.validate b l).2

/-- C158: steering with Dubins or Snibud, and cutting the paths found valid, gives paths that are driven one way only. -/
theorem C158_cars {C : PEnv Q (List (CC E W)) K} {e : ℝ} {interp : Cfg E W → Cfg E W → ℝ → Cfg E W} {wheel : ℝ → W} {dist : Cfg E W → Cfg E W → ℝ} {rho : ℝ}
    {cfg : Q → Cfg E W} (h : CarProblem C e interp wheel dist rho cfg) : Follows C (Signed e) := by
  refine ⟨?_, fun f p b p' hf => (by rw [h.projector] at hf; simp at hf), fun b p hp => hp.parts (h.part b p)⟩
  intro a b l hl
  rcases h.steer a b l hl with ⟨rfl, hs⟩ | ⟨rfl, hs⟩
  · by_cases hne : (cfg a).pose = (cfg b).pose
    · rw [(C87_steer h.radius h.extra (h.unit a) (h.unit b) h.between wheel).2.2 hne] at hs
      simp at hs
    · obtain ⟨K1, K2, K3, e1, -, -, -, -, hall, -⟩ := C87_dubins_partial h.radius (h.extra (cfg a) (extraEnd (cfg a) (cfg b))) (h.unit a) (h.unit b) hne h.between wheel
      unfold dubinsSteer at hs
      rw [e1] at hs
      rw [← Except.ok.inj hs]
      intro k hk
      obtain ⟨c, -, d, -⟩ := hall k hk
      exact ⟨c.range, by linarith⟩
  · by_cases hne : (cfg a).pose = (cfg b).pose
    · rw [C110_still_counterexample h.radius dist (h.unit a) (h.unit b) hne interp wheel] at hs
      simp at hs
    · obtain ⟨K1, K2, K3, e1, -, -, -, -, hall, -⟩ := C110_snibud_partial h.radius h.extra (h.unit a) (h.unit b) hne h.between wheel
      rw [e1] at hs
      rw [← Except.ok.inj hs]
      intro k hk
      obtain ⟨c, -, d, -⟩ := hall k hk
      exact ⟨c.range, by linarith⟩

/-- C158: a path returned by BiRRT for a car steered by Dubins is driven forward all along; for a car steered by Snibud, backward. -/
theorem C158_birrt_cars_partial {C : PEnv Q (List (CC E W)) K} {e : ℝ} {interp : Cfg E W → Cfg E W → ℝ → Cfg E W} {wheel : ℝ → W} {dist : Cfg E W → Cfg E W → ℝ} {rho : ℝ}
    {cfg : Q → Cfg E W} (hc : CarProblem C e interp wheel dist rho cfg) {Valid : List (CC E W) → Prop} (hC : Contract C Valid) (hP : PointContract C Valid)
    (hfree : ∀ x q, C.onKernel x q = some q) (heur : Roadmap Q (List (CC E W)) → Nat → K) (q0 : Q) (gs : List Q) (shoot : Nat → Q) (s : BState) (st : Settings K)
    (late intr : Nat → Bool) (fuel : Nat) (l : List (List (CC E W)))
    (hl : solve (birrt C heur q0 gs shoot) st late intr fuel (s, Roadmap.empty) = .path l) :
    (e = 1 → DrivesForward l.flatten) ∧ (e = -1 → DrivesBackward l.flatten) := by
  have h := (C158_birrt_partial (C158_cars hc) hC hP hfree heur q0 gs shoot (s := (s, Roadmap.empty)) ⟨Inv.empty, by simp [Roadmap.empty]⟩
    (by intro x hx; simp [Roadmap.empty] at hx) st late intr fuel l hl).2
  have hf : Signed e l.flatten := by
    intro k hk
    obtain ⟨p, hp, hk⟩ := List.mem_flatten.1 hk
    exact h p hp k hk
  exact ⟨fun he => (he ▸ hf).forward, fun he => (he ▸ hf).backward⟩

/-- C158: the reverse of an arc driven forward is driven backward: its speed is the opposite.  An edge of the roadmap that carries such a reverse cannot be followed by a car that goes
forward only. -/
theorem C158_reversed {k : CC E W} (hl : k.t0 < k.t1) (hk : 0 < k.curveLength) (hu : k.fin.Unit) (t : ℝ) :
    ¬ DrivesForward [k.reverse] ∧ ∃ v < 0, HasDerivAt (fun t => (k.reverse.eval t).x) (v * (k.reverse.eval t).c) t ∧
      HasDerivAt (fun t => (k.reverse.eval t).y) (v * (k.reverse.eval t).s) t := by
  have hl' : k.reverse.t0 < k.reverse.t1 := by show (0 : ℝ) < k.t1 - k.t0; linarith
  obtain ⟨h1, h2, -⟩ := C85_rolling k.reverse hl' t
  have hneg : k.reverse.curveLength / (k.reverse.t1 - k.reverse.t0) < 0 := div_neg_of_neg_of_pos (by show -k.curveLength < 0; linarith) (by linarith)
  refine ⟨fun h => ?_, _, hneg, h1, h2⟩
  obtain ⟨v, hv, g1, g2⟩ := h k.reverse (by simp) hl' t
  have e1 := h1.unique g1
  have e2 := h2.unique g2
  have hn := C85_heading k.reverse hu t
  set u := k.reverse.curveLength / (k.reverse.t1 - k.reverse.t0)
  have : u = v := by
    have : (u - v) * ((k.reverse.eval t).c ^ 2 + (k.reverse.eval t).s ^ 2) = 0 := by
      have a : (u - v) * (k.reverse.eval t).c = 0 := by linarith
      have b : (u - v) * (k.reverse.eval t).s = 0 := by linarith
      calc _ = ((u - v) * (k.reverse.eval t).c) * (k.reverse.eval t).c + ((u - v) * (k.reverse.eval t).s) * (k.reverse.eval t).s := by ring
        _ = 0 := by rw [a, b]; ring
    rw [hn, mul_one] at this
    linarith
  linarith

/-! ### A car that meets the hypotheses: no obstacle, no wheel joint -/
namespace Demo
open Classical

/-- Configurations of unit heading. -/
abbrev Conf := {q : Cfg ℝ Unit // q.Unit}

def origin : Conf := ⟨⟨0, 0, 1, 0, 0, ()⟩, by simp [Cfg.Unit]⟩

/-- The configuration if its heading is unit. -/
noncomputable def conf (q : Option (Cfg ℝ Unit)) : Conf := match q with
  | none => origin
  | some q => if h : q.Unit then ⟨q, h⟩ else origin

noncomputable def interp (a b : Cfg ℝ Unit) (u : ℝ) : Cfg ℝ Unit := { a with o := lerp a.o b.o u }

noncomputable def env : PEnv Conf (List (CC ℝ Unit)) ℝ where
  dist a b := |a.1.x - b.1.x| + |a.1.y - b.1.y|
  rev l := l.reverse.map CC.reverse
  zeroLength _ := false
  ini l := conf (l.head?.map (·.init))
  fin l := conf (l.getLast?.map (·.fin))
  t0 _ := 0
  t1 _ := 1
  len _ := 1
  extract l _ _ := l
  steer a b := match dubinsSteer interp (fun _ => ()) (fun a b => |a.o - b.o|) 1 a.1 b.1 with
    | .ok l => some l
    | .error _ => none
  projector := none
  validate _ l := (true, l)
  onKernel _ q := some q

theorem env_contract : Contract env (fun _ => True) := by
  refine ⟨?_, fun _ _ => rfl, fun _ _ _ => trivial, fun f p b p' h => (by simp [env] at h), fun f p h => (by simp [env] at h), fun _ => rfl, fun _ _ => trivial,
    fun _ _ _ => ⟨trivial, trivial, rfl, rfl⟩, fun _ => rfl, ?_, ?_, fun _ _ => trivial⟩
  · intro a b l hl
    simp only [env] at hl
    have key := C87_steer (rho := 1) (by norm_num) (dist := fun a b : Cfg ℝ Unit => |a.o - b.o|) (fun _ _ => abs_nonneg _) a.2 b.2 (interp := interp) (fun _ _ _ => rfl) (fun _ => ())
    by_cases hne : a.1.pose = b.1.pose
    · rw [key.2.2 hne] at hl; simp at hl
    · obtain ⟨K1, K2, K3, e, e1, e2, -⟩ := key.1 hne
      rw [e] at hl
      simp only [Option.some.injEq] at hl
      subst hl
      have e3 : K3.fin = b.1 := Cfg.ext' e2.1 e2.2 rfl
      constructor
      · simp only [env, List.head?_cons, Option.map_some, e1, conf, dif_pos a.2]
      · simp only [env, List.getLast?_cons_cons, List.getLast?_singleton, Option.map_some, e3, conf, dif_pos b.2]
  · intro l
    simp only [env, List.head?_map, List.head?_reverse, Option.map_map]
    rfl
  · intro l
    simp only [env, List.getLast?_map, List.getLast?_reverse, Option.map_map]
    rfl

theorem env_point : PointContract env (fun _ => True) :=
  ⟨fun _ _ => Or.inl trivial, fun _ _ h => h, fun _ h => absurd h.2 (by simp [env])⟩

theorem env_car : CarProblem env 1 interp (fun _ => ()) (fun a b => |a.o - b.o|) 1 (·.1) := by
  refine ⟨by norm_num, fun _ _ => abs_nonneg _, fun _ _ _ => rfl, fun q => q.2, ?_, rfl, fun _ _ k hk => Or.inl hk⟩
  intro a b l hl
  left
  refine ⟨rfl, ?_⟩
  simp only [env] at hl
  split at hl
  · rename_i l' h
    rw [h, Option.some.inj hl]
  · simp at hl

/-- BiRRT solves problems of this car: the direct connection succeeds between two different poses. -/
example : ∃ l, env.steer origin ⟨⟨1, 1, 0, 1, 0, ()⟩, by simp [Cfg.Unit]⟩ = some l ∧ DrivesForward l := by
  have key := C87_steer (rho := 1) (by norm_num) (dist := fun a b : Cfg ℝ Unit => |a.o - b.o|) (fun _ _ => abs_nonneg _) origin.2
    (q1 := ⟨1, 1, 0, 1, 0, ()⟩) (by simp [Cfg.Unit]) (interp := interp) (fun _ _ _ => rfl) (fun _ => ())
  obtain ⟨K1, K2, K3, e, -⟩ := key.1 (by simp [origin, Cfg.pose, Complex.ext_iff])
  have hs : env.steer origin ⟨⟨1, 1, 0, 1, 0, ()⟩, by simp [Cfg.Unit]⟩ = some [K1, K2, K3] := by simp only [env, e]
  exact ⟨_, hs, ((C158_cars env_car).steer _ _ _ hs).forward⟩

end Demo

end Verif.Planner.OneWay
