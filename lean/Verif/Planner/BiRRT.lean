import Verif.Planner.Line
set_option linter.unusedSectionVars false

/-! # `BiRRTPlanner` (C66, C67) -/
namespace Verif.Planner
open Verif.Roadmap
variable {Q P K : Type} [DecidableEq Q] [AddCommGroup K] [LinearOrder K] [IsOrderedAddMonoid K]

/-! ## Model -/

/-- Members `startComponent_`, `endComponents_` of `BiRRTPlanner`, and the number of configurations shot. -/
structure BState where
  startC : Nat
  ends : List Nat
  shots : Nat

/-- `extendInternal`: bi-rrt-planner.cc:75-98; `x` is the configuration of `near`. -/
def bExtend (C : PEnv Q P K) (x q : Q) (reverse : Bool) : Option P := match C.onKernel x q with
  | none => none
  | some q' => if reverse then C.steer q' x else C.steer x q'

/-- Connection to the start component: bi-rrt-planner.cc:116-135.  Returns the roadmap, `pathValidFromStart`, and `reachedNodeFromStart` with `q_new`
(`none` when the pointer is null, i.e. `startComponentConnected` is false). -/
def fromStart (C : PEnv Q P K) (q : Q) (c : Nat) (r : Roadmap Q P) : Except Err (Roadmap Q P × Bool × Option (Nat × Q)) :=
  match search C.toEnv r q c false with
  | none => .error .nullPointer
  | some (_, near) => match r.configs[near]? with
    | none => .error .badNode
    | some x => match bExtend C x q false with
      | none => .ok (r, false, none)
      | some p =>
        let v := C.validate false p
        if C.t1 v.2 ≠ C.t0 p then match addNodeAndEdgeTo C.toEnv r near (C.fin v.2) v.2 with
          | .error e => .error e
          | .ok (r1, n) => .ok (r1, v.1, some (n, C.fin v.2))
        else .ok (r, v.1, none)

/-- Connection to the end components: bi-rrt-planner.cc:137-169. -/
def endLoop (C : PEnv Q P K) (q : Q) (valid : Bool) (reached : Option (Nat × Q)) : List Nat → Roadmap Q P → Except Err (Roadmap Q P)
  | [], r => .ok r
  | c :: cs, r => match search C.toEnv r q c true with
    | none => .error .nullPointer
    | some (_, near) => match r.configs[near]? with
      | none => .error .badNode
      | some x => match bExtend C x q true with
        | none => endLoop C q valid reached cs r
        | some p =>
          let v := C.validate true p
          if v.1 = true ∧ valid = true then match reached with
            | none => .error .nullPointer
            | some (n, _) => addEdge r n near v.2
          else if C.t1 v.2 ≠ C.t0 p then match addNodeAndEdgeFrom C.toEnv r (C.ini v.2) near v.2 with
            | .error e => .error e
            | .ok (r1, n2) => match reached with
              | none => endLoop C q valid reached cs r1
              | some (n, qn) => match C.steer qn (C.ini v.2) with
                | none => endLoop C q valid reached cs r1
                | some p2 =>
                  if (C.validate false p2).1 = true then addEdge r1 n n2 p2
                  else endLoop C q valid reached cs r1
          else endLoop C q valid reached cs r

/-- `oneStep`: bi-rrt-planner.cc:109-170. -/
def bStep (C : PEnv Q P K) (q : Q) (s : BState) (r : Roadmap Q P) : Except Err (Roadmap Q P) :=
  match fromStart C q s.startC r with
  | .error e => .error e
  | .ok (r1, valid, reached) => endLoop C q valid reached s.ends r1

/-- `startSolve`: bi-rrt-planner.cc:100-107 (the components of the former resolutions are kept), then `tryConnectInitAndGoals`. -/
def bStart (C : PEnv Q P K) (q0 : Q) (gs : List Q) (s : BState × Roadmap Q P) : Except PlanErr (BState × Roadmap Q P) :=
  match startSolve C q0 gs s.2 with
  | .error e => .error (.road e)
  | .ok r => match r.init with
    | none => .error (.road .nullPointer)
    | some i => match tryConnect C r with
      | .error e => .error (.road e)
      | .ok r1 => .ok (⟨r.cc i, s.1.ends ++ r.goals.map r.cc, s.1.shots⟩, r1)

/-- The planner. -/
def birrt (C : PEnv Q P K) (heur : Roadmap Q P → Nat → K) (q0 : Q) (gs : List Q) (shoot : Nat → Q) : Calls (BState × Roadmap Q P) (List P) PlanErr :=
  planCalls C heur (bStart C q0 gs) (fun s => match bStep C (shoot s.1.shots) s.1 s.2 with
    | .error e => .error (.road e)
    | .ok r => .ok ({ s.1 with shots := s.1.shots + 1 }, r))

/-! ## Proofs -/

/-- A path reduced to a point. -/
def Point (C : PEnv Q P K) (p : P) : Prop := C.ini p = C.fin p ∧ C.t0 p = C.t1 p

/-- Accepted by the validation, or reduced to a point. -/
def ValidOrPoint (C : PEnv Q P K) (Valid : P → Prop) (p : P) : Prop := Valid p ∨ Point C p

/-- Further assumptions on the external calls: the part returned by validation from the end is valid or reduced to a point, if it passes the test of the code (bi-rrt-planner.cc:153); a part of a point is a point. -/
structure PointContract (C : PEnv Q P K) (Valid : P → Prop) : Prop where
  part : ∀ p, C.t1 (C.validate true p).2 ≠ C.t0 p → ValidOrPoint C Valid (C.validate true p).2
  extract : ∀ p t, Point C p → Point C (C.extract p (C.t0 p) t)
  rev : ∀ p, Point C p → Point C (C.rev p)

variable {C : PEnv Q P K} {Valid : P → Prop} {V : List (Nat × Nat)} {r : Roadmap Q P}

theorem Contract.point (hC : Contract C Valid) (hP : PointContract C Valid) : Contract C (ValidOrPoint C Valid) := by
  refine ⟨hC.steer, hC.extract_ini, ?_, hC.proj, hC.proj_some, hC.valid_ini, fun p h => Or.inl (hC.valid_part p h), ?_, hC.valid_fin,
    hC.rev_ini, hC.rev_fin, ?_⟩
  · rintro p t (h | h)
    · exact Or.inl (hC.extract_valid p t h)
    · exact Or.inr (hP.extract p t h)
  · intro b p h
    obtain ⟨h1, h2, h3, h4⟩ := hC.valid_true b p h
    exact ⟨Or.inl h1, Or.inl h2, h3, h4⟩
  · rintro p (h | h)
    · exact Or.inl (hC.rev_valid p h)
    · exact Or.inr (hP.rev p h)

/-- Paths whose parts keep their parameters: the valid part of a validation from the end ends at the end of the interval; it is valid or empty. -/
theorem part_of_range (hf : ∀ p, C.fin (C.validate true p).2 = C.fin p) (ht : ∀ p, C.t1 (C.validate true p).2 = C.t1 p)
    (hv : ∀ p, (C.t0 (C.validate true p).2 ≠ C.t1 p → Valid (C.validate true p).2) ∧ (C.t0 (C.validate true p).2 = C.t1 p → C.ini (C.validate true p).2 = C.fin p)) (p : P) :
    ValidOrPoint C Valid (C.validate true p).2 := by
  obtain ⟨h1, h2⟩ := hv p
  by_cases h : C.t0 (C.validate true p).2 = C.t1 p
  · exact Or.inr ⟨by rw [h2 h, hf], by rw [h, ht]⟩
  · exact Or.inl (h1 h)

theorem Good.addNodeAndEdgeFrom (h : Good C Valid V r) {a : Nat} {p : P} (hv : Valid p) (ha : r.configs[a]? = some (C.fin p)) :
    ∃ r' n, Roadmap.addNodeAndEdgeFrom C.toEnv r (C.ini p) a p = .ok (r', n) ∧ Good C Valid (oneWay r n (a, n) V) r' ∧ Ext r r' ∧
      r'.configs[n]? = some (C.ini p) := by
  obtain ⟨r', n, h1, h2, h3, h4⟩ := h.inv.addNodeAndEdgeFrom C.toEnv (C.ini p) (lt_of_get ha) p
  have he := addNodeAndEdgeFrom_edges h.inv (lt_of_get ha) (C.ini p) p h1
  refine ⟨r', n, h1, ⟨h2, ?_⟩, ⟨h3.grow, h3.init, h3.goals⟩, h3.get⟩
  intro e hh
  rw [he] at hh
  rcases List.mem_append.1 hh with hh | hh
  · exact (h.edges e hh).mono h3.grow
  · rw [List.mem_singleton.1 hh]
    exact ⟨hv, h3.get, h3.grow.get ha⟩

theorem bExtend_spec (hC : Contract C Valid) (hfree : ∀ x q, C.onKernel x q = some q) {x q : Q} {b : Bool} {p : P} (h : bExtend C x q b = some p) :
    (b = false → C.ini p = x ∧ C.fin p = q) ∧ (b = true → C.ini p = q ∧ C.fin p = x) := by
  unfold bExtend at h
  rw [hfree] at h
  cases b with
  | false => exact ⟨fun _ => hC.steer x q p (by simpa using h), by simp⟩
  | true => exact ⟨by simp, fun _ => hC.steer q x p (by simpa using h)⟩

theorem fromStart_spec (hC : Contract C Valid) (hfree : ∀ x q, C.onKernel x q = some q) (q : Q) (c : Nat)
    (h : Good C (ValidOrPoint C Valid) V r) {out : Roadmap Q P × Bool × Option (Nat × Q)} (ho : fromStart C q c r = .ok out) :
    (∃ V', Good C (ValidOrPoint C Valid) V' out.1) ∧ Ext r out.1 ∧
      ∀ n qn, out.2.2 = some (n, qn) → out.1.configs[n]? = some qn ∧ (out.2.1 = true → qn = q) := by
  unfold fromStart at ho
  cases hs : search C.toEnv r q c false with
  | none => rw [hs] at ho; simp at ho
  | some dn =>
    obtain ⟨d, near⟩ := dn
    rw [hs] at ho
    simp only at ho
    cases hx : r.configs[near]? with
    | none => rw [hx] at ho; simp at ho
    | some x =>
      rw [hx] at ho
      simp only at ho
      cases he : bExtend C x q false with
      | none =>
        rw [he] at ho
        rw [← Except.ok.inj ho]
        exact ⟨⟨V, h⟩, Ext.refl r, by simp⟩
      | some p =>
        rw [he] at ho
        simp only at ho
        obtain ⟨e1, e2⟩ := (bExtend_spec hC hfree he).1 rfl
        by_cases ht : C.t1 (C.validate false p).2 ≠ C.t0 p
        · rw [if_pos ht] at ho
          obtain ⟨r', n, k1, k2, k3, k4⟩ := h.addNodeAndEdgeTo (a := near) (p := (C.validate false p).2) (Or.inl (hC.valid_part p (Or.inl ht)))
            (by rw [hx, hC.valid_ini, e1])
          rw [k1] at ho
          rw [← Except.ok.inj ho]
          refine ⟨⟨_, k2⟩, k3, ?_⟩
          intro n' qn hn
          simp only [Option.some.injEq, Prod.mk.injEq] at hn
          obtain ⟨rfl, rfl⟩ := hn
          refine ⟨k4, fun hv => ?_⟩
          rw [(hC.valid_true false p hv).2.2.2, e2]
        · rw [if_neg ht] at ho
          rw [← Except.ok.inj ho]
          exact ⟨⟨V, h⟩, Ext.refl r, by simp⟩

theorem endLoop_spec (hC : Contract C Valid) (hP : PointContract C Valid) (hfree : ∀ x q, C.onKernel x q = some q) (q : Q) (valid : Bool)
    (reached : Option (Nat × Q)) (cs : List Nat) {r : Roadmap Q P} {V : List (Nat × Nat)} (h : Good C (ValidOrPoint C Valid) V r)
    (hr : ∀ n qn, reached = some (n, qn) → r.configs[n]? = some qn ∧ (valid = true → qn = q))
    {r' : Roadmap Q P} (ho : endLoop C q valid reached cs r = .ok r') :
    (∃ V', Good C (ValidOrPoint C Valid) V' r') ∧ Ext r r' := by
  induction cs generalizing r V with
  | nil =>
    rw [← Except.ok.inj ho]
    exact ⟨⟨V, h⟩, Ext.refl r⟩
  | cons c cs ih =>
    unfold endLoop at ho
    cases hs : search C.toEnv r q c true with
    | none => rw [hs] at ho; simp at ho
    | some dn =>
      obtain ⟨d, near⟩ := dn
      rw [hs] at ho
      simp only at ho
      cases hx : r.configs[near]? with
      | none => rw [hx] at ho; simp at ho
      | some x =>
        rw [hx] at ho
        simp only at ho
        cases he : bExtend C x q true with
        | none =>
          rw [he] at ho
          exact ih h hr ho
        | some p =>
          rw [he] at ho
          simp only at ho
          obtain ⟨e1, e2⟩ := (bExtend_spec hC hfree he).2 rfl
          by_cases hv : (C.validate true p).1 = true ∧ valid = true
          · rw [if_pos hv] at ho
            cases reached with
            | none => simp at ho
            | some nq =>
              obtain ⟨n, qn⟩ := nq
              simp only at ho
              obtain ⟨w1, w2⟩ := hr n qn rfl
              obtain ⟨v1, v2, v3, v4⟩ := hC.valid_true true p hv.1
              obtain ⟨r2, k1, k2, k3, -⟩ := h.addEdge (a := n) (b := near) (p := (C.validate true p).2) (Or.inl v2)
                (by rw [w1, w2 hv.2, v3, e1]) (by rw [hx, v4, e2])
              rw [k1] at ho
              rw [← Except.ok.inj ho]
              exact ⟨⟨V, k2⟩, k3⟩
          · rw [if_neg hv] at ho
            by_cases ht : C.t1 (C.validate true p).2 ≠ C.t0 p
            · rw [if_pos ht] at ho
              obtain ⟨r1, n2, k1, k2, k3, k4⟩ := h.addNodeAndEdgeFrom (a := near) (p := (C.validate true p).2) (hP.part p ht)
                (by rw [hx, hC.valid_fin, e2])
              rw [k1] at ho
              have hr1 : ∀ n qn, reached = some (n, qn) → r1.configs[n]? = some qn ∧ (valid = true → qn = q) :=
                fun n qn hn => ⟨k3.grow.get (hr n qn hn).1, (hr n qn hn).2⟩
              have next : endLoop C q valid reached cs r1 = .ok r' →
                  (∃ V', Good C (ValidOrPoint C Valid) V' r') ∧ Ext r r' := by
                intro hh
                obtain ⟨j1, j2⟩ := ih k2 hr1 hh
                exact ⟨j1, k3.trans j2⟩
              cases hre : reached with
              | none => rw [hre] at ho next; exact next ho
              | some nq =>
                obtain ⟨n, qn⟩ := nq
                rw [hre] at ho next
                simp only at ho
                cases hst : C.steer qn (C.ini (C.validate true p).2) with
                | none => rw [hst] at ho; exact next ho
                | some p2 =>
                  rw [hst] at ho
                  simp only at ho
                  by_cases hv2 : (C.validate false p2).1 = true
                  · rw [if_pos hv2] at ho
                    obtain ⟨s1, s2⟩ := hC.steer _ _ p2 hst
                    obtain ⟨r2, m1, m2, m3, -⟩ := k2.addEdge (a := n) (b := n2) (p := p2) (Or.inl (hC.valid_true false p2 hv2).1)
                      (by rw [(hr1 n qn hre).1, s1]) (by rw [k4, s2])
                    rw [m1] at ho
                    rw [← Except.ok.inj ho]
                    exact ⟨⟨_, m2⟩, k3.trans m3⟩
                  · rw [if_neg hv2] at ho
                    exact next ho
            · rw [if_neg ht] at ho
              exact ih h hr ho

/-- C66 for BiRRT, partial.  Without constraints (the target of the extension is not modified by a projection), a step of BiRRT that ends normally keeps a roadmap
whose edges join the configurations of their nodes by paths accepted by the validation or reduced to a point.
Missing: with constraints the property is false (`C66_birrt_counterexample`); the step may use a null pointer (`C66_birrt_null_counterexample`). -/
theorem C66_birrt_partial (hC : Contract C Valid) (hP : PointContract C Valid) (hfree : ∀ x q, C.onKernel x q = some q) (q : Q) (s : BState)
    (h : Good C (ValidOrPoint C Valid) V r) {r' : Roadmap Q P} (ho : bStep C q s r = .ok r') :
    (∃ V', Good C (ValidOrPoint C Valid) V' r') ∧ Ext r r' := by
  unfold bStep at ho
  cases hs : fromStart C q s.startC r with
  | error e => rw [hs] at ho; simp at ho
  | ok out =>
    obtain ⟨r1, valid, reached⟩ := out
    rw [hs] at ho
    simp only at ho
    obtain ⟨⟨V', k1⟩, k2, k3⟩ := fromStart_spec hC hfree q s.startC h hs
    obtain ⟨m1, m2⟩ := endLoop_spec hC hP hfree q valid reached s.ends k1 k3 ho
    exact ⟨m1, k2.trans m2⟩

/-- C67 for BiRRT, partial: without constraints, the path returned is a continuous sequence of paths accepted by the validation or reduced to a point
from the init configuration to a goal configuration. -/
theorem C67_birrt_partial (hC : Contract C Valid) (hP : PointContract C Valid) (hfree : ∀ x q, C.onKernel x q = some q)
    (heur : Roadmap Q P → Nat → K) (q0 : Q) (gs : List Q) (shoot : Nat → Q)
    {s : BState × Roadmap Q P} (h : Good C (ValidOrPoint C Valid) V s.2) (st : Settings K) (late intr : Nat → Bool) (fuel : Nat) (l : List P)
    (hl : solve (birrt C heur q0 gs shoot) st late intr fuel s = .path l) : Solves C (ValidOrPoint C Valid) q0 gs l := by
  obtain ⟨r1, h1, h2, -, h3⟩ := startSolve_spec h q0 gs
  obtain ⟨i, hi, -⟩ := h3.init
  obtain ⟨r2, h4, h5, h6⟩ := tryConnect_spec (hC.point hP) h2 hi
  refine solve_solves C (ValidOrPoint C Valid) heur _ _ q0 gs (fun s => (∃ V, Good C (ValidOrPoint C Valid) V s.2) ∧ Tagged q0 gs s.2)
    (fun s hs => hs) s (⟨r1.cc i, s.1.ends ++ r1.goals.map r1.cc, s.1.shots⟩, r2) (by simp only [bStart, h1, hi, h4]) ⟨⟨V, h5⟩, h3.mono h6⟩ ?_ st late intr fuel l hl
  rintro u u' ⟨⟨V', k1⟩, k2⟩ hu
  cases hb : bStep C (shoot u.1.shots) u.1 u.2 with
  | error e => simp only [hb] at hu; simp at hu
  | ok r' =>
    simp only [hb] at hu
    obtain ⟨m1, m2⟩ := C66_birrt_partial hC hP hfree (shoot u.1.shots) u.1 k1 hb
    rw [← Except.ok.inj hu]
    exact ⟨m1, k2.mono m2⟩

/-! ## Examples and counterexamples -/

theorem Line.point : PointContract Line.env Line.Free := by
  refine ⟨fun p _ => part_of_range Line.contract.valid_fin ?_ Line.valid_part_rev p, ?_, ?_⟩
  · rintro ⟨a, b, c⟩
    simp only [Line.env, Line.dur, Bool.true_eq_false, if_false]
    split
    · rfl
    · split
      · simp only; omega
      · simp only; omega
  · rintro ⟨a, b, c⟩ t ⟨h1, h2⟩
    simp only [Point, Line.env, Line.dur, Line.pos] at h1 h2 ⊢
    subst h1
    simp
  · rintro ⟨a, b, c⟩ ⟨h1, h2⟩
    simp only [Point, Line.env, Line.dur] at h1 h2 ⊢
    subst h1
    simp

/-- two trees meet -/
example : Line.out (solve (birrt Line.env (fun _ _ => 0) 0 [8] (fun n => if n = 0 then 3 else if n = 1 then 5 else 4)) (Settings.default (K := Int))
    (fun _ => false) (fun _ => false) 10 (⟨0, [], 0⟩, Roadmap.empty)) = some [(0, 3), (3, 5), (5, 8)] := by decide +kernel

/-- the hypotheses of the theorems hold on the line -/
example : Contract Line.env Line.Free ∧ PointContract Line.env Line.Free ∧ (∀ x q, Line.env.onKernel x q = some q) ∧
    Good Line.env (ValidOrPoint Line.env Line.Free) [] (Roadmap.empty : Roadmap Int Line.LP) :=
  ⟨Line.contract, Line.point, fun _ _ => rfl, ⟨Inv.empty, by simp [Roadmap.empty]⟩⟩

/-- The line with a constraint: an extension from a node stops at distance 3 (in each direction), and there is no direct path longer than 3. -/
def Line.constrained : PEnv Int Line.LP Int :=
  { Line.env with onKernel := fun x q => some (max (x - 3) (min (x + 3) q)) }

/-- C66, C67 (constraints): the contract of the external calls holds, yet the path returned is discontinuous: the shot is projected on 3 from the init node 0 and
on 5 from the goal node 8, and the path from 5 to 8 is inserted as an edge from the node at 3. -/
theorem C66_birrt_counterexample : Contract Line.constrained Line.Free ∧
    Line.out (solve (birrt Line.constrained (fun _ _ => 0) 0 [8] (fun _ => 4)) (Settings.default (K := Int))
      (fun _ => false) (fun _ => false) 10 (⟨0, [], 0⟩, Roadmap.empty)) = some [(0, 3), (5, 8)] := by
  refine ⟨?_, by decide +kernel⟩
  have h := Line.contract
  exact ⟨h.steer, h.extract_ini, h.extract_valid, h.proj, h.proj_some, h.valid_ini, h.valid_part, h.valid_true, h.valid_fin, h.rev_ini, h.rev_fin, h.rev_valid⟩

/-- Error of a resolution. -/
def roadErr {R : Type} (r : Res R PlanErr) : Option Err := match r with
  | .error (.road e) => some e
  | _ => none

/-- The line with a path projector that always fails: the direct connection of init and goal is refused, the steps of BiRRT ignore the projector. -/
def Line.noProj : PEnv Int Line.LP Int := { Line.env with projector := some (fun _ => (false, none)) }

/-- C66 (null pointer): when the configuration shot is that of a node of the start component, the path from it is valid but has no length, no node is
inserted; if a path to an end component is valid too, the null pointer is given to `addEdge`.  Here the contract of the external calls holds, the init
configuration is 0, the goal is 2 and the shot is 0. -/
theorem C66_birrt_null_counterexample : Contract Line.noProj Line.Free ∧
    roadErr (solve (birrt Line.noProj (fun _ _ => 0) 0 [2] (fun _ => 0)) (⟨5, none, true⟩ : Settings Int)
      (fun _ => false) (fun _ => false) 10 (⟨0, [], 0⟩, Roadmap.empty)) = some .nullPointer := by
  refine ⟨?_, by decide +kernel⟩
  have h := Line.contract
  refine ⟨h.steer, h.extract_ini, h.extract_valid, ?_, ?_, h.valid_ini, h.valid_part, h.valid_true, h.valid_fin, h.rev_ini, h.rev_fin, h.rev_valid⟩
  · intro f p b p' hf hp
    simp only [Line.noProj, Option.some.injEq] at hf
    subst hf
    simp at hp
  · intro f p hf
    simp only [Line.noProj, Option.some.injEq] at hf
    subst hf
    simp

end Verif.Planner
