import Verif.Planner.BiRRT
import Verif.Planner.KPrmStar
import Verif.Planner.Visibility
import Verif.Planner.BiRRTStarSolve
set_option linter.unusedSectionVars false

/-!
# What the configurations and paths of the planners have in common (C130)

A property of configurations and a property of paths that are kept by the calls of the planners to the steering method, to the path projector, to the path
validation, to `extract` and to `reverse`, hold for all nodes and edges of the roadmap, and for the path returned: planners do not build configurations or
paths in any other way.  Nothing is assumed on these calls besides that.
-/
namespace Verif.Planner
open Verif.Roadmap

/-! ## Specification -/

/-- The calls keep the properties: `I` on configurations and `IP` on paths; `J` is the property of the configurations that are shot. -/
structure Closed {Q P K : Type} (C : PEnv Q P K) (J I : Q → Prop) (IP : P → Prop) : Prop where
  steer : ∀ a b p, I a → I b → C.steer a b = some p → IP p
  extract : ∀ p t, IP p → IP (C.extract p (C.t0 p) t)
  proj : ∀ f p b p', C.projector = some f → IP p → f p = (b, some p') → IP p'
  valid : ∀ b p, IP p → IP (C.validate b p).2
  rev : ∀ p, IP p → IP (C.rev p)
  kernel : ∀ x q q', I x → J q → C.onKernel x q = some q' → I q'
  ini : ∀ p, IP p → I (C.ini p)
  fin : ∀ p, IP p → I (C.fin p)

/-- All nodes and edges of the roadmap (in the list of edges and around the nodes) have the properties. -/
structure Within {Q P : Type} (I : Q → Prop) (IP : P → Prop) (r : Roadmap Q P) : Prop where
  configs : ∀ q ∈ r.configs, I q
  edges : ∀ e ∈ r.edges, IP e.path
  out : ∀ n, ∀ e ∈ r.out n, IP e.path
  inn : ∀ n, ∀ e ∈ r.inn n, IP e.path

/-! ## The roadmap -/

section road
variable {Q P K : Type} {I : Q → Prop} {IP : P → Prop} {r r' : Roadmap Q P}

theorem Within.empty : Within I IP (Roadmap.empty : Roadmap Q P) := ⟨by simp [Roadmap.empty], by simp [Roadmap.empty], by simp [Roadmap.empty], by simp [Roadmap.empty]⟩

/-- Same nodes and edges. -/
structure Same (r r' : Roadmap Q P) : Prop where
  configs : r'.configs = r.configs
  edges : r'.edges = r.edges
  out : r'.out = r.out
  inn : r'.inn = r.inn

theorem Same.refl (r : Roadmap Q P) : Same r r := ⟨rfl, rfl, rfl, rfl⟩
theorem Same.trans {a b c : Roadmap Q P} (h : Same a b) (k : Same b c) : Same a c :=
  ⟨k.configs.trans h.configs, k.edges.trans h.edges, k.out.trans h.out, k.inn.trans h.inn⟩

theorem Within.same (h : Within I IP r) (s : Same r r') : Within I IP r' :=
  ⟨by rw [s.configs]; exact h.configs, by rw [s.edges]; exact h.edges, by rw [s.out]; exact h.out, by rw [s.inn]; exact h.inn⟩

theorem Within.get (h : Within I IP r) {n : Nat} {q : Q} (hq : r.configs[n]? = some q) : I q := h.configs q (List.mem_of_getElem? hq)

theorem mergeAll_same (c : Nat) (l : List Nat) (r : Roadmap Q P) : Same r (mergeAll c l r) := by
  induction l generalizing r with
  | nil => exact Same.refl r
  | cons a l ih =>
    unfold mergeAll
    split
    · exact Same.trans (b := { mergeComp r c a with live := sErase a (mergeComp r c a).live }) ⟨rfl, rfl, rfl, rfl⟩ (ih _)
    · exact ih _

theorem canReach_same {a b : Nat} {x : Bool} (h : canReach r a b = some (x, r')) : Same r r' := by
  unfold canReach at h
  split at h
  · simp at h
  · cases h; exact ⟨rfl, rfl, rfl, rfl⟩

theorem canReachSet_same {a b : Nat} {x : Bool} {l : List Nat} (h : canReachSet r a b = some (x, l, r')) : Same r r' := by
  unfold canReachSet at h
  split at h
  · simp at h
  · simp only at h
    split at h
    · cases h; exact ⟨rfl, rfl, rfl, rfl⟩
    · split at h
      · simp at h
      · cases h; exact ⟨rfl, rfl, rfl, rfl⟩

theorem connect_same {a b : Nat} (h : connect r a b = .ok r') : Same r r' := by
  unfold connect at h
  split at h
  · simp at h
  · next k => cases h; exact canReach_same k
  · next k =>
    split at h
    · simp at h
    · next k' => cases h; exact ((canReach_same k).trans (canReachSet_same k')).trans (mergeAll_same _ _ _)
    · next k' => cases h; exact ((canReach_same k).trans (canReachSet_same k')).trans ⟨rfl, rfl, rfl, rfl⟩

theorem set_forall {α : Type} {p : α → Prop} {f : Nat → List α} {i : Nat} {l : List α} (h : ∀ n, ∀ x ∈ f n, p x) (hl : ∀ x ∈ l, p x) : ∀ n, ∀ x ∈ Roadmap.set f i l n, p x := by
  intro n x hx
  unfold Roadmap.set at hx
  split at hx
  · exact hl x hx
  · exact h n x hx

theorem append_forall {α : Type} {p : α → Prop} {l : List α} {a : α} (h : ∀ x ∈ l, p x) (ha : p a) : ∀ x ∈ l ++ [a], p x := by
  intro x hx
  rcases List.mem_append.1 hx with hx | hx
  · exact h x hx
  · rw [List.mem_singleton.1 hx]; exact ha

theorem Within.outEdge (h : Within I IP r) {e : Edge P} (he : IP e.path) (k : addOutEdge r e = .ok r') : Within I IP r' := by
  unfold addOutEdge at k
  split at k
  · simp at k
  · cases k; exact ⟨h.configs, h.edges, set_forall h.out (append_forall (h.out _) he), h.inn⟩

theorem Within.inEdge (h : Within I IP r) {e : Edge P} (he : IP e.path) (k : addInEdge r e = .ok r') : Within I IP r' := by
  unfold addInEdge at k
  split at k
  · simp at k
  · cases k; exact ⟨h.configs, h.edges, h.out, set_forall h.inn (append_forall (h.inn _) he)⟩

theorem Within.implEdge (h : Within I IP r) {e : Edge P} (he : IP e.path) (k : implAddEdge r e = .ok r') : Within I IP r' := by
  unfold implAddEdge at k
  exact Within.same (r := { r with edges := r.edges ++ [e] }) ⟨h.configs, append_forall h.edges he, h.out, h.inn⟩ (connect_same k)

theorem Within.addEdge (h : Within I IP r) {a b : Nat} {p : P} (hp : IP p) (k : addEdge r a b p = .ok r') : Within I IP r' := by
  by_cases hb : (decide (r.configs.length ≤ a) || decide (r.configs.length ≤ b)) = true
  · unfold Roadmap.addEdge at k
    rw [if_pos hb] at k
    simp [throw, throwThe, MonadExceptOf.throw, bind, Except.bind] at k
  · have k' : ((if (!isOutNeighbor r a b) = true then addOutEdge r ⟨r.edges.length, a, b, p⟩ else pure r) >>= fun r1 =>
        (if (!isInNeighbor r1 b a) = true then addInEdge r1 ⟨r.edges.length, a, b, p⟩ else pure r1) >>= fun r2 =>
          implAddEdge r2 ⟨r.edges.length, a, b, p⟩) = .ok r' := by
      rw [← k]
      unfold Roadmap.addEdge
      rw [if_neg hb]
      dsimp only
      split <;> (apply bind_congr; intro r1; split <;> rfl)
    clear k
    obtain ⟨r1, k1, k⟩ := bind_ok k'
    obtain ⟨r2, k2, k⟩ := bind_ok k
    have h1 : Within I IP r1 := by
      split at k1
      · exact h.outEdge hp k1
      · cases k1; exact h
    have h2 : Within I IP r2 := by
      split at k2
      · exact h1.inEdge hp k2
      · cases k2; exact h1
    exact h2.implEdge hp k

theorem Within.addReverseEdge (h : Within I IP r) {a b : Nat} {p : P} (hp : IP p) (k : addReverseEdge r a b p = .ok r') : Within I IP r' := by
  have k' : ((if (!isInNeighbor r a b) = true then addInEdge r ⟨r.edges.length, b, a, p⟩ else pure r) >>= fun r1 =>
      (if (!isOutNeighbor r1 b a) = true then addOutEdge r1 ⟨r.edges.length, b, a, p⟩ else pure r1) >>= fun r2 =>
        implAddEdge r2 ⟨r.edges.length, b, a, p⟩) = .ok r' := by
    rw [← k]
    unfold Roadmap.addReverseEdge
    dsimp only
    split <;> (apply bind_congr; intro r1; split <;> rfl)
  clear k
  obtain ⟨r1, k1, k⟩ := bind_ok k'
  obtain ⟨r2, k2, k⟩ := bind_ok k
  have h1 : Within I IP r1 := by
    split at k1
    · exact h.inEdge hp k1
    · cases k1; exact h
  have h2 : Within I IP r2 := by
    split at k2
    · exact h1.outEdge hp k2
    · cases k2; exact h1
  exact h2.implEdge hp k

variable {E : Env Q P K}

theorem Within.addEdges (h : Within I IP r) (hr : ∀ p, IP p → IP (E.rev p)) {a b : Nat} {p : P} (hp : IP p) (k : addEdges E r a b p = .ok r') : Within I IP r' := by
  unfold Roadmap.addEdges at k
  obtain ⟨r1, k1, k⟩ := bind_ok k
  exact (h.addEdge hp k1).addReverseEdge (hr p hp) k

theorem Within.push (h : Within I IP r) {q : Q} (hq : I q) : Within I IP (pushNewNode r q).1 :=
  ⟨append_forall h.configs hq, h.edges, set_forall h.out (by simp), set_forall h.inn (by simp)⟩

theorem Within.pushIn (h : Within I IP r) {q : Q} (hq : I q) (c : Nat) : Within I IP (pushNodeIn r q c).1 :=
  ⟨append_forall h.configs hq, h.edges, set_forall h.out (by simp), set_forall h.inn (by simp)⟩

variable [DecidableEq Q] [LinearOrder K]

theorem Within.addNode (h : Within I IP r) {q : Q} {n : Nat} (hq : I q) (k : addNode E r q = .ok (r', n)) : Within I IP r' := by
  unfold Roadmap.addNode at k
  have e := h.push hq
  split at k
  · split at k
    · simp at k
    · split at k
      · cases k; exact h
      · rw [Except.ok.inj k] at e; exact e
  · rw [Except.ok.inj k] at e; exact e

theorem Within.addNodeIn (h : Within I IP r) {q : Q} {c n : Nat} (hq : I q) (k : addNodeIn E r q c = .ok (r', n)) : Within I IP r' := by
  unfold Roadmap.addNodeIn at k
  have e := h.pushIn hq c
  split at k
  · split at k
    · simp at k
    · split at k
      · cases k; exact h
      · rw [Except.ok.inj k] at e; exact e
  · rw [Except.ok.inj k] at e; exact e

theorem Within.addNodeAndEdges (h : Within I IP r) (hr : ∀ p, IP p → IP (E.rev p)) {a n : Nat} {q : Q} {p : P} (hq : I q) (hp : IP p)
    (k : addNodeAndEdges E r a q p = .ok (r', n)) : Within I IP r' := by
  unfold Roadmap.addNodeAndEdges at k
  split at k
  · cases k
  · obtain ⟨⟨r1, m⟩, k1, k⟩ := bind_ok k
    obtain ⟨r2, k2, k⟩ := bind_ok k
    cases k
    exact (h.addNodeIn hq k1).addEdges hr hp k2

theorem Within.addNodeAndEdgeTo (h : Within I IP r) {a n : Nat} {q : Q} {p : P} (hq : I q) (hp : IP p)
    (k : addNodeAndEdgeTo E r a q p = .ok (r', n)) : Within I IP r' := by
  unfold Roadmap.addNodeAndEdgeTo at k
  split at k
  · cases k
  · obtain ⟨⟨r1, m⟩, k1, k⟩ := bind_ok k
    obtain ⟨r2, k2, k⟩ := bind_ok k
    cases k
    exact (h.addNodeIn hq k1).addEdge hp k2

theorem Within.addNodeAndEdgeFrom (h : Within I IP r) {a n : Nat} {q : Q} {p : P} (hq : I q) (hp : IP p)
    (k : addNodeAndEdgeFrom E r q a p = .ok (r', n)) : Within I IP r' := by
  unfold Roadmap.addNodeAndEdgeFrom at k
  split at k
  · cases k
  · obtain ⟨⟨r1, m⟩, k1, k⟩ := bind_ok k
    obtain ⟨r2, k2, k⟩ := bind_ok k
    cases k
    exact (h.addNodeIn hq k1).addEdge hp k2

end road

/-! ## `startSolve`, `tryConnectInitAndGoals`, `computePath` -/

section base
variable {Q P K : Type} [DecidableEq Q] [Zero K] [LinearOrder K] {C : PEnv Q P K} {J I : Q → Prop} {IP : P → Prop} {r r' : Roadmap Q P}

theorem Within.addGoals (gs : List Q) (h : Within I IP r) (hg : ∀ g ∈ gs, I g) (k : addGoals C gs r = .ok r') : Within I IP r' := by
  induction gs generalizing r with
  | nil => cases k; exact h
  | cons g gs ih =>
    unfold Planner.addGoals at k
    split at k
    · simp at k
    · next r1 n k1 =>
      unfold addGoalNode at k1
      obtain ⟨⟨r2, m⟩, k2, k1⟩ := bind_ok k1
      cases k1
      exact ih (Within.same (r' := { r2 with goals := r2.goals ++ [n] }) (h.addNode (hg g (by simp)) k2) ⟨rfl, rfl, rfl, rfl⟩) (fun x hx => hg x (by simp [hx])) k

theorem Within.startSolve {q0 : Q} {gs : List Q} (h : Within I IP r) (h0 : I q0) (hg : ∀ g ∈ gs, I g) (k : startSolve C q0 gs r = .ok r') : Within I IP r' := by
  unfold Planner.startSolve at k
  split at k
  · simp at k
  · next r1 n k1 =>
    unfold setInit at k1
    obtain ⟨⟨r2, m⟩, k2, k1⟩ := bind_ok k1
    cases k1
    have h' : Within I IP (resetGoalNodes r) := h.same ⟨rfl, rfl, rfl, rfl⟩
    exact Within.addGoals gs (Within.same (r' := { r2 with init := some n }) (h'.addNode h0 k2) ⟨rfl, rfl, rfl, rfl⟩) hg k

/-- The path after the projector, accepted only if it succeeds. -/
theorem proj_in (hC : Closed C J I IP) {p p' : P} (hp : IP p) (k : (match C.projector with
    | none => some p
    | some f => match f p with
      | (false, _) => none
      | (true, x) => x) = some p') : IP p' := by
  split at k
  · cases k; exact hp
  · next f hf =>
    split at k
    · simp at k
    · next x hx => subst k; exact hC.proj f p true p' hf hp hx

theorem directPath_in (hC : Closed C J I IP) {a b : Q} {p : P} (ha : I a) (hb : I b) (k : directPath C a b = some p) : IP p := by
  unfold directPath at k
  split at k
  · simp at k
  · next p0 hp0 =>
    simp only at k
    split at k
    · simp at k
    · next p1 hp1 =>
      split at k
      · cases k; exact proj_in hC (hC.steer a b p0 ha hb hp0) hp1
      · simp at k

theorem futureEdge_in (hC : Closed C J I IP) (h : Within I IP r) {fwd : Bool} {n c : Nat} {x : Option (Nat × Nat × P)} (k : futureEdge C r fwd n c = .ok x) :
    ∀ y ∈ x, IP y.2.2 := by
  unfold futureEdge at k
  split at k
  · cases k; simp
  · split at k
    · simp at k
    · next q hq =>
      split at k
      · simp at k
      · split at k
        · simp at k
        · next x' hx' =>
          split at k
          · cases k
            intro y hy
            obtain ⟨p, hp, rfl⟩ := Option.map_eq_some_iff.1 hy
            exact directPath_in hC (h.get hq) (h.get hx') hp
          · cases k
            intro y hy
            obtain ⟨p, hp, rfl⟩ := Option.map_eq_some_iff.1 hy
            exact directPath_in hC (h.get hx') (h.get hq) hp

theorem futureEdges_in (hC : Closed C J I IP) (h : Within I IP r) {fwd : Bool} {n : Nat} (cs : List Nat) {l : List (Nat × Nat × P)}
    (k : futureEdges C r fwd n cs = .ok l) : ∀ y ∈ l, IP y.2.2 := by
  induction cs generalizing l with
  | nil => cases k; simp
  | cons c cs ih =>
    unfold futureEdges at k
    split at k
    · simp at k
    · next x hx =>
      split at k
      · simp at k
      · next l' hl =>
        cases k
        intro y hy
        rcases List.mem_append.1 hy with hy | hy
        · exact futureEdge_in hC h hx y (by simpa using hy)
        · exact ih hl y hy

theorem goalEdges_in (hC : Closed C J I IP) (h : Within I IP r) (gs : List Nat) {l : List (Nat × Nat × P)} (k : goalEdges C r gs = .ok l) :
    ∀ y ∈ l, IP y.2.2 := by
  induction gs generalizing l with
  | nil => cases k; simp
  | cons c cs ih =>
    unfold goalEdges at k
    split at k
    · simp at k
    · next x hx =>
      split at k
      · simp at k
      · next l' hl =>
        cases k
        intro y hy
        rcases List.mem_append.1 hy with hy | hy
        · exact futureEdges_in hC h _ hx y hy
        · exact ih hl y hy

theorem Within.addAll (l : List (Nat × Nat × P)) (h : Within I IP r) (hl : ∀ y ∈ l, IP y.2.2) (k : addAll l r = .ok r') : Within I IP r' := by
  induction l generalizing r with
  | nil => cases k; exact h
  | cons x l ih =>
    obtain ⟨a, b, p⟩ := x
    unfold Planner.addAll at k
    split at k
    · simp at k
    · next r1 k1 => exact ih (h.addEdge (hl (a, b, p) (by simp)) k1) (fun y hy => hl y (by simp [hy])) k

theorem Within.tryConnect (hC : Closed C J I IP) (h : Within I IP r) (k : tryConnect C r = .ok r') : Within I IP r' := by
  unfold Planner.tryConnect at k
  split at k
  · simp at k
  · split at k
    · simp at k
    · next l hl =>
      split at k
      · simp at k
      · next l' hl' =>
        refine h.addAll _ ?_ k
        intro y hy
        rcases List.mem_append.1 hy with hy | hy
        · exact futureEdges_in hC h _ hl y hy
        · exact goalEdges_in hC h _ hl' y hy

end base

section astar
variable {P K : Type} [AddCommGroup K] [LinearOrder K]

/-- Parents are out edges. -/
theorem relax_parent (X : AStar.Input P K) (p : Edge P → Prop) (c : Nat) (l : List (Edge P)) (s : AStar.State P K) (hl : ∀ e ∈ l, p e)
    (h : ∀ n, ∀ e ∈ s.parent n, p e) : ∀ n, ∀ e ∈ (l.foldl (AStar.relax X c) s).parent n, p e := by
  induction l generalizing s with
  | nil => exact h
  | cons a l ih =>
    refine ih _ (fun e he => hl e (by simp [he])) ?_
    unfold AStar.relax
    split
    · exact h
    · simp only
      split
      · intro n e he
        simp only [Roadmap.set] at he
        split at he
        · cases he; exact hl a (by simp)
        · exact h n e he
      · exact h

theorem loop_parent (X : AStar.Input P K) (p : Edge P → Prop) (hX : ∀ n, ∀ e ∈ X.out n, p e) (f : Nat) (s s' : AStar.State P K) (m : Nat)
    (h : ∀ n, ∀ e ∈ s.parent n, p e) (k : AStar.loop X f s = .found m s') : ∀ n, ∀ e ∈ s'.parent n, p e := by
  induction f generalizing s with
  | zero => simp [AStar.loop] at k
  | succ f ih =>
    unfold AStar.loop at k
    split at k
    · simp at k
    · split at k
      · cases k; exact h
      · next cur rest _ _ => exact ih _ (relax_parent X p cur _ { s with opn := rest, closed := s.closed ++ [cur] } (hX _) h) k

theorem trace_in (parent : Nat → Option (Edge P)) (p : Edge P → Prop) (h : ∀ n, ∀ e ∈ parent n, p e) (f n : Nat) (acc es : List (Edge P))
    (ha : ∀ e ∈ acc, p e) (k : AStar.trace parent f n acc = some es) : ∀ e ∈ es, p e := by
  induction f generalizing n acc with
  | zero => simp [AStar.trace] at k
  | succ f ih =>
    unfold AStar.trace at k
    split at k
    · cases k; exact ha
    · next e he =>
      refine ih _ _ ?_ k
      intro x hx
      rcases List.mem_cons.1 hx with rfl | hx
      · exact h n x he
      · exact ha x hx

theorem solution_in (X : AStar.Input P K) (p : Edge P → Prop) (hX : ∀ n, ∀ e ∈ X.out n, p e) (f g : Nat) (es : List (Edge P))
    (k : AStar.solution X f = .path g es) : ∀ e ∈ es, p e := by
  unfold AStar.solution at k
  split at k
  · simp at k
  · simp at k
  · next n s hs =>
    split at k
    · simp at k
    · next es' he =>
      cases k
      exact trace_in s.parent p (loop_parent X p hX f _ s _ (by simp [AStar.start]) hs) f _ [] es (by simp) he

end astar

section plan
variable {Q P K X : Type} [DecidableEq Q] [AddCommGroup K] [LinearOrder K] [IsOrderedAddMonoid K] {C : PEnv Q P K} {J I : Q → Prop} {IP : P → Prop} {r r' : Roadmap Q P}

theorem computePath_in (hC : Closed C J I IP) (h : Within I IP r) (heur : Roadmap Q P → Nat → K) {l : List P} (k : computePath C heur r = .ok l) :
    l ≠ [] ∧ ∀ p ∈ l, IP p := by
  unfold computePath at k
  split at k
  · simp at k
  · split at k
    · simp at k
    · simp at k
    · next g es hs =>
      split at k
      · split at k
        · simp at k
        · next q hq =>
          split at k
          · simp at k
          · next p hp =>
            cases k
            refine ⟨by simp, fun x hx => ?_⟩
            rw [List.mem_singleton.1 hx]
            exact hC.steer q q p (h.get hq) (h.get hq) hp
      · next hne =>
        cases k
        refine ⟨by simpa using hne, fun p hp => ?_⟩
        obtain ⟨e, he, rfl⟩ := List.mem_map.1 hp
        exact solution_in _ (fun e => IP e.path) h.out _ _ es hs e he

/-- For any planner whose start and steps keep the roadmap within the properties: the path of `solve`, and the roadmap after any number of steps. -/
theorem solve_within (hC : Closed C J I IP) (heur : Roadmap Q P → Nat → K) (start step : X × Roadmap Q P → Except PlanErr (X × Roadmap Q P))
    (s : X × Roadmap Q P) (hstart : ∀ s', start s = .ok s' → Within I IP s'.2)
    (hstep : ∀ s s', Within I IP s.2 → step s = .ok s' → Within I IP s'.2) :
    (∀ s0 n t, start s = .ok s0 → After (planCalls C heur start step) s0 n t → Within I IP t.2) ∧
    ∀ (st : Settings K) (late intr : Nat → Bool) (fuel : Nat) (l : List P), solve (planCalls C heur start step) st late intr fuel s = .path l → l ≠ [] ∧ ∀ p ∈ l, IP p := by
  have key : ∀ s0 n t, start s = .ok s0 → After (planCalls C heur start step) s0 n t → Within I IP t.2 :=
    fun s0 n t h0 ht => after_inv (planCalls C heur start step) (fun s => Within I IP s.2) s0 (hstart s0 h0) hstep n t ht
  refine ⟨key, fun st late intr fuel l hl => ?_⟩
  cases hs : start s with
  | error e =>
    unfold solve at hl
    rw [show (planCalls C heur start step).start s = .error e from hs] at hl
    simp at hl
  | ok s0 =>
    have := C39_outcome (planCalls C heur start step) (fun _ => rfl) st late intr fuel s s0 hs
    rw [hl] at this
    obtain ⟨n, t, h1, h2, h3, -⟩ := this
    exact computePath_in hC (key s0 n t hs h1) heur h3

end plan

/-! ## The planners -/

section diffusing
variable {Q P K : Type} [DecidableEq Q] [AddCommGroup K] [LinearOrder K] [IsOrderedAddMonoid K] [Mul K] [One K] {C : PEnv Q P K} {J I : Q → Prop} {IP : P → Prop} {r r' : Roadmap Q P} {D : DiffParams K}

theorem diffExtend_in (hC : Closed C J I IP) {x q : Q} {p : P} (hx : I x) (hq : J q) (k : extend C D x q = some p) : IP p := by
  unfold extend at k
  split at k
  · simp at k
  · next q' hq' =>
    split at k
    · simp at k
    · next p0 hp0 =>
      have h0 := hC.steer x q' p0 hx (hC.kernel x q q' hx hq hq') hp0
      simp only at k
      have h1 : IP (if 0 < D.stepLength ∧ D.stepLength < C.len p0 then C.extract p0 (C.t0 p0) (C.t0 p0 + D.stepLength) else p0) := by
        split
        · exact hC.extract _ _ h0
        · exact h0
      split at k
      · cases k; exact h1
      · next f hf => exact hC.proj f _ _ p hf h1 (by rw [← k])

/-- Local variables of a step: the roadmap and the delayed edges. -/
theorem growOne_in (hC : Closed C J I IP) {q : Q} (hq : J q) {s s' : Local Q P} {c : Nat} (h : Within I IP s.r) (hd : ∀ x ∈ s.delayed, I x.2.1 ∧ IP x.2.2)
    (k : growOne C D q s c = .ok s') : Within I IP s'.r ∧ ∀ x ∈ s'.delayed, I x.2.1 ∧ IP x.2.2 := by
  unfold growOne at k
  split at k
  · simp at k
  · split at k
    · simp at k
    · next x hx =>
      simp only at k
      split at k
      · cases k; exact ⟨h, hd⟩
      · next p hp =>
        have h1 := hC.valid false p (diffExtend_in hC (h.get hx) hq hp)
        split at k
        · have h2 : IP (if (C.validate false p).1 = false ∧ 0 < D.stepRatio ∧ D.stepRatio < 1 then
              C.extract (C.validate false p).2 (C.t0 (C.validate false p).2) (C.t0 (C.validate false p).2 + C.len (C.validate false p).2 * D.stepRatio)
              else (C.validate false p).2) := by
            split
            · exact hC.extract _ _ h1
            · exact h1
          generalize (if (C.validate false p).1 = false ∧ 0 < D.stepRatio ∧ D.stepRatio < 1 then
              C.extract (C.validate false p).2 (C.t0 (C.validate false p).2) (C.t0 (C.validate false p).2 + C.len (C.validate false p).2 * D.stepRatio)
              else (C.validate false p).2) = vp at k h2
          split at k
          · split at k
            · simp at k
            · next r1 n k1 => cases k; exact ⟨h.addNodeAndEdges hC.rev (hC.fin _ h2) h2 k1, hd⟩
          · cases k
            refine ⟨h, append_forall hd ⟨hC.fin _ h2, h2⟩⟩
        · cases k; exact ⟨h, hd⟩

theorem growAll_in (hC : Closed C J I IP) {q : Q} (hq : J q) (cs : List Nat) {s s' : Local Q P} (h : Within I IP s.r) (hd : ∀ x ∈ s.delayed, I x.2.1 ∧ IP x.2.2)
    (k : growAll C D q cs s = .ok s') : Within I IP s'.r ∧ ∀ x ∈ s'.delayed, I x.2.1 ∧ IP x.2.2 := by
  induction cs generalizing s with
  | nil => cases k; exact ⟨h, hd⟩
  | cons c cs ih =>
    unfold growAll at k
    split at k
    · simp at k
    · next s1 k1 =>
      obtain ⟨h1, h2⟩ := growOne_in hC hq h hd k1
      exact ih h1 h2 k

theorem addDelayed_in (hC : Closed C J I IP) (l : List (Nat × Q × P)) (h : Within I IP r) (hd : ∀ x ∈ l, I x.2.1 ∧ IP x.2.2) (k : addDelayed C l r = .ok r') : Within I IP r' := by
  induction l generalizing r with
  | nil => cases k; exact h
  | cons x l ih =>
    obtain ⟨near, q, p⟩ := x
    unfold addDelayed at k
    split at k
    · simp at k
    · next r1 n k1 =>
      split at k
      · simp at k
      · next r2 k2 =>
        split at k
        · simp at k
        · next r3 k3 =>
          obtain ⟨hq, hp⟩ := hd (near, q, p) (by simp)
          exact ih (((h.addNode hq k1).addEdge hp k2).addEdge (hC.rev p hp) k3) (fun y hy => hd y (by simp [hy])) k

theorem tryLink_in (hC : Closed C J I IP) {a b : Nat} (h : Within I IP r) (k : tryLink C r a b = .ok r') : Within I IP r' := by
  unfold tryLink at k
  split at k
  · next q1 q2 h1 h2 =>
    split at k
    · cases k; exact h
    · next p0 hp0 =>
      simp only at k
      split at k
      · cases k; exact h
      · next p hp =>
        have hp1 := proj_in hC (hC.steer q1 q2 p0 (h.get h1) (h.get h2) hp0) hp
        split at k
        · split at k
          · simp at k
          · next r1 k1 => exact (h.addEdge hp1 k1).addEdge (hC.rev p hp1) k
        · split at k
          · cases hx : Roadmap.addNodeAndEdges C.toEnv r a (C.fin (C.validate false p).2) (C.validate false p).2 with
            | error e => rw [hx] at k; simp [Except.map] at k
            | ok y =>
              rw [hx] at k
              cases k
              exact h.addNodeAndEdges hC.rev (hC.fin _ (hC.valid false p hp1)) (hC.valid false p hp1) (r' := y.1) (n := y.2) hx
          · cases k; exact h
  · simp at k

theorem linkNew_in (hC : Closed C J I IP) {a : Nat} (l : List Nat) (h : Within I IP r) (k : linkNew C a l r = .ok r') : Within I IP r' := by
  induction l generalizing r with
  | nil => cases k; exact h
  | cons b l ih =>
    unfold linkNew at k
    split at k
    · simp at k
    · next r1 k1 => exact ih (tryLink_in hC h k1) k

theorem linkNear_in (hC : Closed C J I IP) {a c : Nat} (l : List Nat) (h : Within I IP r) (k : linkNear C a c l r = .ok r') : Within I IP r' := by
  induction l generalizing r with
  | nil => cases k; exact h
  | cons b l ih =>
    unfold linkNear at k
    split at k
    · exact ih h k
    · split at k
      · simp at k
      · next r1 k1 => exact ih (tryLink_in hC h k1) k

theorem linkAll_in (hC : Closed C J I IP) (near l : List Nat) (h : Within I IP r) (k : linkAll C near l r = .ok r') : Within I IP r' := by
  induction l generalizing r with
  | nil => cases k; exact h
  | cons b l ih =>
    unfold linkAll at k
    split at k
    · simp at k
    · next r1 k1 =>
      split at k
      · simp at k
      · next r2 k2 => exact ih (linkNear_in hC near (linkNew_in hC l h k1) k2) k

theorem diffStep_in (hC : Closed C J I IP) {q : Q} (hq : J q) (h : Within I IP r) (k : diffStep C D q r = .ok r') : Within I IP r' := by
  unfold diffStep at k
  split at k
  · simp at k
  · next s ks =>
    obtain ⟨h1, h2⟩ := growAll_in hC hq _ (s := ⟨r, [], [], []⟩) h (by simp) ks
    split at k
    · simp at k
    · next r1 k1 => exact linkAll_in hC _ _ (addDelayed_in hC _ h1 h2 k1) k

omit [Mul K] [One K] in
theorem startPlan_in (hC : Closed C J I IP) {q0 : Q} {gs : List Q} (h0 : I q0) (hg : ∀ g ∈ gs, I g) {s s' : Nat × Roadmap Q P} (h : Within I IP s.2)
    (k : startPlan C q0 gs s = .ok s') : Within I IP s'.2 := by
  unfold startPlan at k
  split at k
  · simp at k
  · next r1 k1 =>
    cases hx : tryConnect C r1 with
    | error e => rw [hx] at k; simp [lift] at k
    | ok r2 => rw [hx] at k; cases k; exact (h.startSolve h0 hg k1).tryConnect hC hx

/-- C130 for the diffusing planner. -/
theorem C130_diffusing (hC : Closed C J I IP) (D : DiffParams K) (heur : Roadmap Q P → Nat → K) (q0 : Q) (gs : List Q) (shoot : Nat → Q) (h0 : I q0) (hg : ∀ g ∈ gs, I g)
    (hq : ∀ n, J (shoot n)) (s : Nat × Roadmap Q P) (h : Within I IP s.2) :
    (∀ s0 n t, (diffusing C D heur q0 gs shoot).start s = .ok s0 → After (diffusing C D heur q0 gs shoot) s0 n t → Within I IP t.2) ∧
    ∀ (st : Settings K) (late intr : Nat → Bool) (fuel : Nat) (l : List P), solve (diffusing C D heur q0 gs shoot) st late intr fuel s = .path l → l ≠ [] ∧ ∀ p ∈ l, IP p := by
  refine solve_within hC heur _ _ s (fun s' k => startPlan_in hC h0 hg h k) ?_
  intro u u' hu k
  cases hx : diffStep C D (shoot u.1) u.2 with
  | error e => simp only [hx, lift] at k; simp at k
  | ok r2 => simp only [hx, lift] at k; cases k; exact diffStep_in hC (hq _) hu hx

end diffusing

section others
variable {Q P K : Type} [DecidableEq Q] [AddCommGroup K] [LinearOrder K] [IsOrderedAddMonoid K] {C : PEnv Q P K} {J I : Q → Prop} {IP : P → Prop} {r r' : Roadmap Q P}

/-! ### Bi-RRT -/

theorem bExtend_in (hC : Closed C J I IP) {x q : Q} {b : Bool} {p : P} (hx : I x) (hq : J q) (k : bExtend C x q b = some p) : IP p := by
  unfold bExtend at k
  split at k
  · simp at k
  · next q' hq' =>
    have h1 := hC.kernel x q q' hx hq hq'
    split at k
    · exact hC.steer _ _ p h1 hx k
    · exact hC.steer _ _ p hx h1 k

theorem fromStart_in (hC : Closed C J I IP) {q : Q} (hq : J q) {c : Nat} {v : Bool} {o : Option (Nat × Q)} (h : Within I IP r)
    (k : fromStart C q c r = .ok (r', v, o)) : Within I IP r' ∧ ∀ y ∈ o, I y.2 := by
  unfold fromStart at k
  split at k
  · simp at k
  · split at k
    · simp at k
    · next x hx =>
      split at k
      · cases k; exact ⟨h, by simp⟩
      · next p hp =>
        have h1 := hC.valid false p (bExtend_in hC (h.get hx) hq hp)
        simp only at k
        split at k
        · split at k
          · simp at k
          · next r1 n k1 =>
            cases k
            exact ⟨h.addNodeAndEdgeTo (hC.fin _ h1) h1 k1, by rintro y hy; cases hy; exact hC.fin _ h1⟩
        · cases k; exact ⟨h, by simp⟩

theorem endLoop_in (hC : Closed C J I IP) {q : Q} (hq : J q) {v : Bool} {o : Option (Nat × Q)} (ho : ∀ y ∈ o, I y.2) (cs : List Nat) (h : Within I IP r)
    (k : endLoop C q v o cs r = .ok r') : Within I IP r' := by
  induction cs generalizing r with
  | nil => cases k; exact h
  | cons c cs ih =>
    unfold endLoop at k
    split at k
    · simp at k
    · split at k
      · simp at k
      · next x hx =>
        split at k
        · exact ih h k
        · next p hp =>
          have h1 := hC.valid true p (bExtend_in hC (h.get hx) hq hp)
          simp only at k
          split at k
          · split at k
            · simp at k
            · exact h.addEdge h1 k
          · split at k
            · split at k
              · simp at k
              · next r1 n2 k1 =>
                have h2 := h.addNodeAndEdgeFrom (hC.ini _ h1) h1 k1
                split at k
                · exact ih h2 k
                · next n qn =>
                  split at k
                  · exact ih h2 k
                  · next p2 hp2 =>
                    split at k
                    · exact h2.addEdge (hC.steer _ _ _ (ho (n, qn) rfl) (hC.ini _ h1) hp2) k
                    · exact ih h2 k
            · exact ih h k

/-- C130 for Bi-RRT. -/
theorem C130_birrt (hC : Closed C J I IP) (heur : Roadmap Q P → Nat → K) (q0 : Q) (gs : List Q) (shoot : Nat → Q) (h0 : I q0) (hg : ∀ g ∈ gs, I g)
    (hq : ∀ n, J (shoot n)) (s : BState × Roadmap Q P) (h : Within I IP s.2) :
    (∀ s0 n t, (birrt C heur q0 gs shoot).start s = .ok s0 → After (birrt C heur q0 gs shoot) s0 n t → Within I IP t.2) ∧
    ∀ (st : Settings K) (late intr : Nat → Bool) (fuel : Nat) (l : List P), solve (birrt C heur q0 gs shoot) st late intr fuel s = .path l → l ≠ [] ∧ ∀ p ∈ l, IP p := by
  refine solve_within hC heur _ _ s ?_ ?_
  · intro s' k
    change bStart C q0 gs s = .ok s' at k
    unfold bStart at k
    split at k
    · simp at k
    · next r1 k1 =>
      split at k
      · simp at k
      · split at k
        · simp at k
        · next r2 k2 => cases k; exact (h.startSolve h0 hg k1).tryConnect hC k2
  · intro u u' hu k
    cases hx : bStep C (shoot u.1.shots) u.1 u.2 with
    | error e => simp only [hx] at k; simp at k
    | ok r2 =>
      simp only [hx] at k; cases k
      unfold bStep at hx
      split at hx
      · simp at hx
      · next r1 v o k1 =>
        obtain ⟨h1, h2⟩ := fromStart_in hC (hq _) hu k1
        exact endLoop_in hC (hq _) h2 _ h1 hx

/-! ### Visibility-PRM -/

theorem visibleLoop_in (hC : Closed C J I IP) {g : Nat → Bool} {q : Q} (hq : I q) (h : Within I IP r) (l : List Nat) {b b' : Option (K × Nat × P)} (hb : ∀ y ∈ b, IP y.2.2)
    (k : visibleLoop C r g q l b = .ok b') : ∀ y ∈ b', IP y.2.2 := by
  induction l generalizing b with
  | nil => cases k; exact hb
  | cons n l ih =>
    rw [visibleLoop] at k
    split at k
    · split at k
      · simp at k
      · next x hx =>
        split at k
        · exact ih hb k
        · next p hp =>
          have h1 : IP p := by
            unfold seePath at hp
            split at hp
            · simp at hp
            · next p0 hp0 =>
              split at hp
              · cases hp; exact hC.steer q x p hq (h.get hx) hp0
              · simp at hp
          have h2 : ∀ y ∈ some (C.len p, n, C.rev p), IP y.2.2 := by intro y hy; cases hy; exact hC.rev p h1
          split at k
          · exact ih h2 k
          · split at k
            · exact ih h2 k
            · exact ih hb k
    · exact ih hb k

theorem visibleAll_in (hC : Closed C J I IP) {g : Nat → Bool} {q : Q} (hq : I q) (h : Within I IP r) (cs : List Nat) {l : List (Nat × Q × P)}
    (k : visibleAll C r g q cs = .ok l) : ∀ y ∈ l, I y.2.1 ∧ IP y.2.2 := by
  induction cs generalizing l with
  | nil => cases k; simp
  | cons c cs ih =>
    unfold visibleAll at k
    split at k
    · simp at k
    · next b kb =>
      have hb := visibleLoop_in hC hq h _ (b := none) (by simp) kb
      split at k
      · simp at k
      · next l' kl =>
        split at k
        · cases k; exact ih kl
        · next x =>
          cases k
          intro y hy
          rcases List.mem_cons.1 hy with rfl | hy
          · exact ⟨hq, hb x rfl⟩
          · exact ih kl y hy

theorem connectDelayed_in (hC : Closed C J I IP) (l : List (Nat × Q × P)) {s s' : (Nat → Bool) × Roadmap Q P} (h : Within I IP s.2) (hl : ∀ y ∈ l, I y.2.1 ∧ IP y.2.2)
    (k : connectDelayed C l s = .ok s') : Within I IP s'.2 := by
  induction l generalizing s with
  | nil => cases k; exact h
  | cons x l ih =>
    obtain ⟨near, q, p⟩ := x
    obtain ⟨hq, hp⟩ := hl (near, q, p) (by simp)
    unfold connectDelayed at k
    split at k
    · simp at k
    · next r1 n k1 =>
      split at k
      · simp at k
      · next r2 k2 =>
        split at k
        · simp at k
        · next r3 k3 =>
          exact ih (s := (Roadmap.set s.1 n false, r3)) (((h.addNode hq k1).addEdge hp k2).addEdge (hC.rev p hp) k3) (fun y hy => hl y (by simp [hy])) k

theorem visStep_in (hC : Closed C J I IP) {q : Q} (hq : I q) {s s' : (Nat → Bool) × Roadmap Q P} (h : Within I IP s.2) (k : visStep C q s = .ok s') : Within I IP s'.2 := by
  unfold visStep at k
  split at k
  · simp at k
  · simp only at k
    split at k
    · simp at k
    · next l kl =>
      split at k
      · split at k
        · simp at k
        · next r1 n k1 => cases k; exact h.addNode hq k1
      · split at k
        · next i _ _ _ _ => exact connectDelayed_in hC l (s := (s.2.goals.foldl (fun g n => Roadmap.set g n true) (Roadmap.set s.1 i true), s.2)) h (visibleAll_in hC hq h _ kl) k
        · cases k; exact h

/-- C130 for Visibility-PRM; `sample` are the configurations accepted by the configuration validation after projection. -/
theorem C130_visibility (hC : Closed C J I IP) (heur : Roadmap Q P → Nat → K) (q0 : Q) (gs : List Q) (sample : Nat → Q) (h0 : I q0) (hg : ∀ g ∈ gs, I g)
    (hq : ∀ n, I (sample n)) (s : (Nat × (Nat → Bool)) × Roadmap Q P) (h : Within I IP s.2) :
    (∀ s0 n t, (visibility C heur q0 gs sample).start s = .ok s0 → After (visibility C heur q0 gs sample) s0 n t → Within I IP t.2) ∧
    ∀ (st : Settings K) (late intr : Nat → Bool) (fuel : Nat) (l : List P), solve (visibility C heur q0 gs sample) st late intr fuel s = .path l → l ≠ [] ∧ ∀ p ∈ l, IP p := by
  refine solve_within hC heur _ _ s ?_ ?_
  · intro s' k
    cases hx : startPlan C q0 gs (0, s.2) with
    | error e => simp only [visibility, planCalls, hx] at k; simp at k
    | ok u => simp only [visibility, planCalls, hx] at k; cases k; exact startPlan_in hC h0 hg (s := (0, s.2)) h hx
  · intro u u' hu k
    cases hx : visStep C (sample u.1.1) (u.1.2, u.2) with
    | error e => simp only [hx] at k; simp at k
    | ok v => simp only [hx] at k; cases k; exact visStep_in hC (hq _) (s := (u.1.2, u.2)) hu hx

end others

/-! ### kPRM* -/

section kprm
variable {Q P K H : Type} [DecidableEq Q] [AddCommGroup K] [LinearOrder K] [IsOrderedAddMonoid K] {C : KEnv Q P K H} {J I : Q → Prop} {IP : P → Prop} {r r' : Roadmap Q P}

theorem shootValid_in (hs : ∀ n, J (C.shoot n)) (hc : ∀ q q', J q → C.check q = some q' → I q') (f n m : Nat) (q : Q) (k : shootValid C f n = (some q, m)) : I q := by
  induction f generalizing n with
  | zero => simp [shootValid] at k
  | succ f ih =>
    unfold shootValid at k
    split at k
    · next q' hq => cases k; exact hc _ _ (hs n) hq
    · exact ih _ k

theorem generate_in (hs : ∀ n, J (C.shoot n)) (hc : ∀ q q', J q → C.check q = some q' → I q') {s : KState} {s' : KState × Roadmap Q P} (h : Within I IP r)
    (k : generate C s r = .ok s') : Within I IP s'.2 := by
  unfold generate at k
  split at k
  · split at k
    · simp at k
    · next q n hx =>
      split at k
      · simp at k
      · next r1 m k1 => cases k; exact h.addNode (shootValid_in hs hc _ _ _ q hx) k1
  · split at k
    · simp at k
    · split at k
      · simp at k
      · cases k; exact h

theorem connectNode_in {C : PEnv Q P K} (hC : Closed C J I IP) {a b : Nat} (h : Within I IP r) (k : connectNode C r a b = .ok r') : Within I IP r' := by
  unfold connectNode at k
  split at k
  · split at k
    · next q1 q2 h1 h2 =>
      split at k
      · cases k; exact h
      · next p hp =>
        refine h.addEdges hC.rev ?_ k
        unfold kPath at hp
        split at hp
        · simp at hp
        · next p0 hp0 =>
          simp only at hp
          split at hp
          · simp at hp
          · next p1 hp1 =>
            split at hp
            · cases hp; exact proj_in hC (hC.steer q1 q2 p0 (h.get h1) (h.get h2) hp0) hp1
            · simp at hp
    · simp at k
  · cases k; exact h

theorem connectAll_in {C : PEnv Q P K} (hC : Closed C J I IP) {a : Nat} (l : List Nat) (h : Within I IP r) (k : connectAll C a l r = .ok r') : Within I IP r' := by
  induction l generalizing r with
  | nil => cases k; exact h
  | cons b l ih =>
    unfold connectAll at k
    split at k
    · simp at k
    · next r1 k1 => exact ih (connectNode_in hC h k1) k

theorem connectOne_in (hC : Closed C.toPEnv J I IP) {a : Nat} {go : Bool} (h : Within I IP r) (k : connectOne C r a go = .ok r') : Within I IP r' := by
  unfold connectOne at k
  split at k
  · simp at k
  · split at k
    · simp at k
    · split at k
      · exact connectAll_in hC _ h k
      · cases k; exact h

theorem connectGoals_in (hC : Closed C.toPEnv J I IP) (l : List Nat) (h : Within I IP r) (k : connectGoals C l r = .ok r') : Within I IP r' := by
  induction l generalizing r with
  | nil => cases k; exact h
  | cons b l ih =>
    unfold connectGoals at k
    split at k
    · simp at k
    · next r1 k1 => exact ih (connectOne_in hC h k1) k

theorem kStep_in (hC : Closed C.toPEnv J I IP) (hs : ∀ n, J (C.shoot n)) (hc : ∀ q q', J q → C.check q = some q' → I q') {s s' : KState × Roadmap Q P} (h : Within I IP s.2)
    (k : kStep C s = .ok s') : Within I IP s'.2 := by
  unfold kStep at k
  split at k
  · exact generate_in hs hc h k
  · unfold linkNodes at k
    split at k
    · cases k; exact h
    · split at k
      · simp at k
      · split at k
        · split at k
          · cases k; exact h
          · split at k
            · simp at k
            · split at k
              · simp at k
              · cases k; exact h
        · split at k
          · simp at k
          · split at k
            · simp at k
            · next r1 k1 => cases k; exact connectNode_in hC h k1
  · split at k
    · simp at k
    · next r1 k1 =>
      cases k
      unfold connectInitAndGoal at k1
      split at k1
      · simp at k1
      · next i hi =>
        split at k1
        · simp at k1
        · next r2 k2 =>
          have h2 : Within I IP r2 := by
            split at k2
            · exact connectOne_in hC h k2
            · cases k2; exact h
          exact connectGoals_in hC _ h2 k1
  · simp at k

/-- C130 for kPRM*: the configurations inserted are those accepted by `check` (projection on the constraints, then configuration validation). -/
theorem C130_kprm (hC : Closed C.toPEnv J I IP) (heur : Roadmap Q P → Nat → K) (q0 : Q) (gs : List Q) (h0 : I q0) (hg : ∀ g ∈ gs, I g)
    (hs : ∀ n, J (C.shoot n)) (hc : ∀ q q', J q → C.check q = some q' → I q') (s : KState × Roadmap Q P) (h : Within I IP s.2) :
    (∀ s0 n t, (kprm C heur q0 gs).start s = .ok s0 → After (kprm C heur q0 gs) s0 n t → Within I IP t.2) ∧
    ∀ (st : Settings K) (late intr : Nat → Bool) (fuel : Nat) (l : List P), solve (kprm C heur q0 gs) st late intr fuel s = .path l → l ≠ [] ∧ ∀ p ∈ l, IP p := by
  refine solve_within hC heur _ _ s ?_ (fun u u' hu k => kStep_in hC hs hc hu k)
  intro s' k
  change kStart C q0 gs s = .ok s' at k
  unfold kStart at k
  split at k
  · simp at k
  · next r1 k1 =>
    split at k
    · simp at k
    · cases k; exact h.startSolve h0 hg k1

end kprm

end Verif.Planner

/-! ### BiRRT* -/

namespace Verif.Planner.Star
open Verif.Roadmap Verif.Planner
variable {Q P K : Type} [DecidableEq Q] [AddCommGroup K] [LinearOrder K] [IsOrderedAddMonoid K] {J I : Q → Prop} {IP : P → Prop} {r r' : Roadmap Q P}

/-- BiRRT* moreover steers toward the configuration drawn without projecting it (`improve`), and draws around nodes. -/
structure SClosed (C : SEnv Q P K) (J I : Q → Prop) (IP : P → Prop) : Prop extends Closed C.toPEnv J I IP where
  sub : ∀ q, I q → J q
  adjust : ∀ x q, I x → J q → J (C.adjust x q)
  between : ∀ n x y z, I x → I y → I z → J (C.between n x y z)
  toward : ∀ x q p, I x → J q → C.steer x q = some p → IP p

theorem buildPath_in {C : SEnv Q P K} (hC : SClosed C J I IP) {a b : Q} {l : Option K} {v : Bool} {p : P} (ha : I a) (hb : J b) (k : (buildPath C.toPEnv a b l v).2 = some p) : IP p := by
  unfold buildPath at k
  split at k
  · simp at k
  · next p0 hp0 =>
    have h0 := hC.toward a b p0 ha hb hp0
    split at k
    · simp at k
    · next ok p1 hp1 =>
      have h1 : IP p1 := by
        unfold project at hp1
        split at hp1
        · cases hp1; exact h0
        · next f hf => exact hC.proj f p0 ok p1 hf h0 hp1
      have h2 : IP (cut C.toPEnv l p1) := by
        unfold cut
        split
        · exact h1
        · split
          · exact hC.extract _ _ h1
          · exact h1
      split at k
      · cases k; exact hC.valid false _ h2
      · cases k; exact h2

theorem scan_in {C : SEnv Q P K} (hC : SClosed C J I IP) {configs : List Q} (hcs : ∀ q ∈ configs, I q) {cost : Nat → Except SErr K} {q : Q} (hq : I q) {cmp : Scan P K → Nat × P}
    (hcmp : ∀ s : Scan P K, IP s.path → IP (cmp s).2) (l : List Nat) {s s' : Scan P K} (h1 : IP s.path) (h2 : ∀ e ∈ s.paths, ∀ p ∈ e.2.2, IP p)
    (k : scan C.toPEnv configs cost q cmp l s = .ok s') : IP s'.path ∧ ∀ e ∈ s'.paths, ∀ p ∈ e.2.2, IP p := by
  induction l generalizing s with
  | nil => cases k; exact ⟨h1, h2⟩
  | cons n l ih =>
    unfold scan at k
    split at k
    · exact ih (s := { s with paths := s.paths ++ [(n, true, some (cmp s).2)] }) h1 (append_forall h2 (by intro p hp; cases hp; exact hcmp s h1)) k
    · split at k
      · simp at k
      · next x hx =>
        split at k
        · exact ih (s := { s with paths := s.paths ++ [(n, false, none)] }) h1 (append_forall h2 (by intro p hp; cases hp)) k
        · simp at k
        · next p hp =>
          have h3 : IP p := buildPath_in hC (hcs x (List.mem_of_getElem? hx)) (hC.sub q hq) (l := none) (v := false) (by rw [hp])
          split at k
          · simp at k
          · split at k
            · split at k
              · exact ih (s := ⟨n, p, _, s.paths ++ [(n, true, some p)]⟩) h3 (append_forall h2 (by intro p' hp'; cases hp'; exact h3)) k
              · exact ih (s := { s with paths := s.paths ++ [(n, true, none)] }) h1 (append_forall h2 (by intro p' hp'; cases hp')) k
            · exact ih (s := { s with paths := s.paths ++ [(n, false, some p)] }) h1 (append_forall h2 (by intro p' hp'; cases hp'; exact h3)) k

theorem newEdge_in {a b : Nat} {p : P} {e : Edge P} (h : Within I IP r) (hp : IP p) (k : newEdge r a b p = .ok (r', e)) : Within I IP r' := by
  unfold newEdge at k
  split at k
  · simp at k
  · next r1 k1 => cases k; exact h.addEdge hp k1

theorem rewire_in {C : SEnv Q P K} (hC : SClosed C J I IP) {nnew near : Nat} {c : K} (l : List (Entry P)) {m m' : PMap P} (h : Within I IP r)
    (hl : ∀ e ∈ l, ∀ p ∈ e.2.2, IP p) (k : rewire C.toPEnv nnew near c l r m = .ok (r', m')) : Within I IP r' := by
  induction l generalizing r m with
  | nil => cases k; exact h
  | cons x l ih =>
    have hl' : ∀ e ∈ l, ∀ p ∈ e.2.2, IP p := fun e he => hl e (by simp [he])
    obtain ⟨n, b, o⟩ := x
    cases o with
    | none => rw [rewire] at k; exact ih h hl' k
    | some p =>
      have hp : IP p := hl (n, b, some p) (by simp) p rfl
      rw [rewire] at k
      split at k
      · exact ih h hl' k
      · split at k
        · simp at k
        · split at k
          · split at k
            · simp at k
            · next r1 e1 k1 =>
              split at k
              · simp at k
              · next r2 e2 k2 =>
                split at k
                · simp at k
                · exact ih (newEdge_in (newEdge_in h hp k1) (hC.rev p hp) k2) hl' k
          · exact ih h hl' k

theorem attach_in {C : SEnv Q P K} (hC : SClosed C J I IP) {nnew : Nat} {s : Scan P K} {m m' : PMap P} {b : Bool} (h : Within I IP r) (h1 : IP s.path)
    (h2 : ∀ e ∈ s.paths, ∀ p ∈ e.2.2, IP p) (k : attach C.toPEnv nnew s r m = .ok (r', m', b)) : Within I IP r' := by
  unfold attach at k
  split at k
  · simp at k
  · next r1 e1 k1 =>
    split at k
    · simp at k
    · next r2 e2 k2 =>
      have h3 := newEdge_in (newEdge_in h h1 k1) (hC.rev _ h1) k2
      split at k
      · cases k; exact h3
      · split at k
        · simp at k
        · split at k
          · simp at k
          · next r3 m2 k3 => cases k; exact rewire_in hC _ h3 h2 k3

theorem extend_in {C : SEnv Q P K} (hC : SClosed C J I IP) {target : Nat} {q q' : Q} (hq : J q) {m m' : PMap P} {b : Bool} (h : Within I IP r)
    (k : extend C target q r m = .ok (r', m', q', b)) : Within I IP r' ∧ J q' := by
  unfold extend at k
  split at k
  · simp at k
  · split at k
    · cases k; exact ⟨h, hq⟩
    · split at k
      · simp at k
      · next x hx =>
        have ha := hC.adjust x q (h.get hx) hq
        split at k
        · cases k; exact ⟨h, ha⟩
        · next p hp =>
          have h1 := buildPath_in hC (h.get hx) ha hp
          split at k
          · cases k; exact ⟨h, ha⟩
          · split at k
            · simp at k
            · split at k
              · simp at k
              · next s ks =>
                obtain ⟨h2, h3⟩ := scan_in hC h.configs (hC.fin p h1) (cmp := fun s => (s.near, s.path)) (fun _ h => h) _ (s := ⟨_, p, _, []⟩) h1 (by simp) ks
                split at k
                · simp at k
                · next r1 n k1 =>
                  split at k
                  · simp at k
                  · next r2 m2 b2 k2 => cases k; exact ⟨attach_in hC (h.addNode (hC.fin p h1) k1) h2 h3 k2, hC.sub _ (hC.fin p h1)⟩

theorem connectLoop_in {C : SEnv Q P K} (hC : SClosed C J I IP) {t : Nat} {q : Q} (hq : J q) (f : Nat) {m m' : PMap P} {b : Bool} (h : Within I IP r)
    (k : connectLoop C t q f r m = .ok (r', m', b)) : Within I IP r' := by
  induction f generalizing r m with
  | zero => simp [connectLoop] at k
  | succ f ih =>
    unfold connectLoop at k
    split at k
    · split at k
      · simp at k
      · next k1 => cases k; exact (extend_in hC hq h k1).1
      · next k1 => exact ih (extend_in hC hq h k1).1 k
    · cases k; exact h

theorem improveTree_in {C : SEnv Q P K} (hC : SClosed C J I IP) {a n : Nat} {p : P} {l : List Nat} {m m' : PMap P} (h : Within I IP r) (hp : IP p)
    (k : improveTree C a p l n r m = .ok (r', m')) : Within I IP r' := by
  unfold improveTree at k
  split at k
  · simp at k
  · split at k
    · simp at k
    · next s ks =>
      obtain ⟨h2, h3⟩ := scan_in hC h.configs (hC.fin p hp) (cmp := fun _ => (a, p)) (fun _ _ => hp) _ (s := ⟨_, p, _, []⟩) hp (by simp) ks
      split at k
      · simp at k
      · next k1 => cases k; exact attach_in hC h h2 h3 k1

theorem improve_in {C : SEnv Q P K} (hC : SClosed C J I IP) {q : Q} (hq : J q) {t t' : Trees P} (h : Within I IP r) (k : improve C q r t = .ok (r', t')) : Within I IP r' := by
  unfold improve at k
  split at k
  · simp at k
  · split at k
    · cases k; exact h
    · split at k
      · simp at k
      · next x hx =>
        split at k
        · cases k; exact h
        · next p hp =>
          have h1 := buildPath_in hC (h.get hx) hq hp
          split at k
          · cases k; exact h
          · split at k
            · simp at k
            · next r1 n k1 =>
              simp only at k
              split at k
              · simp at k
              · next r2 m0 k2 =>
                split at k
                · simp at k
                · next r3 m1 k3 => cases k; exact improveTree_in hC (improveTree_in hC (h.addNode (hC.fin p h1) k1) h1 k2) h1 k3

theorem sample_in {C : SEnv Q P K} (hC : SClosed C J I IP) {w : Draw Q} (hw : J w.shot) {t : Trees P} {q : Q} (h : Within I IP r) (k : sample C w r t = .ok q) : J q := by
  unfold sample at k
  split at k
  · split at k
    · simp at k
    · split at k
      · split at k
        · simp at k
        · split at k
          · simp at k
          · split at k
            · simp at k
            · split at k
              · next x y z hx hy hz => cases k; exact hC.between _ x y z (h.get hx) (h.get hy) (h.get hz)
              · simp at k
      · cases k; exact hw
  · cases k; exact hw

theorem oneStep_in {C : SEnv Q P K} (hC : SClosed C J I IP) {pop : List (WNode P K) → Option (WNode P K × List (WNode P K))} {fc fp : Nat} {w : Draw Q} (hw : J w.shot)
    {t t' : Trees P} (h : Within I IP r) (k : oneStep C pop fc fp w r t = .ok (r', t')) : Within I IP r' := by
  unfold oneStep at k
  split at k
  · simp at k
  · next q kq =>
    have hq := sample_in hC hw h kq
    split at k
    · split at k
      · simp at k
      · next k1 => cases k; exact (extend_in hC hq h k1).1
      · next k1 =>
        obtain ⟨h1, h2⟩ := extend_in hC hq h k1
        split at k
        · cases k; exact h1
        · split at k
          · simp at k
          · next k2 => cases k; exact connectLoop_in hC h2 _ h1 k2
    · split at k
      · split at k
        · exact improve_in hC hq h k
        · simp at k
      · exact improve_in hC hq h k

/-- C130 for BiRRT*. -/
theorem C130_birrtstar {C : SEnv Q P K} (hC : SClosed C J I IP) (heur : Roadmap Q P → Nat → K) (pop : List (WNode P K) → Option (WNode P K × List (WNode P K))) (fc fp : Nat)
    (q0 : Q) (gs : List Q) (draws : Nat → Draw Q) (h0 : I q0) (hg : ∀ g ∈ gs, I g) (hw : ∀ n, J (draws n).shot) (s : (Trees P × Nat) × Roadmap Q P) (h : Within I IP s.2) :
    (∀ s0 n t, (birrtstar C heur pop fc fp q0 gs draws).start s = .ok s0 → After (birrtstar C heur pop fc fp q0 gs draws) s0 n t → Within I IP t.2) ∧
    ∀ (st : Settings K) (late intr : Nat → Bool) (fuel : Nat) (l : List P), solve (birrtstar C heur pop fc fp q0 gs draws) st late intr fuel s = .path l → l ≠ [] ∧ ∀ p ∈ l, IP p := by
  refine solve_within hC.toClosed heur _ _ s ?_ ?_
  · intro s' k
    cases hx : starStart C q0 gs s.2 with
    | error e => simp only [birrtstar, planCalls, hx] at k; simp at k
    | ok u =>
      obtain ⟨r1, t1⟩ := u
      simp only [birrtstar, planCalls, hx] at k; cases k
      unfold starStart at hx
      split at hx
      · simp at hx
      · next r2 k2 =>
        split at hx
        · split at hx
          · simp at hx
          · split at hx
            · split at hx
              · simp at hx
              · next r3 k3 => cases hx; exact (h.startSolve h0 hg k2).tryConnect hC.toClosed k3
            · simp at hx
        · simp at hx
  · intro u u' hu k
    cases hx : oneStep C pop fc fp (draws u.1.2) u.2 u.1.1 with
    | error e => simp only [hx] at k; simp at k
    | ok v => obtain ⟨r1, t1⟩ := v; simp only [hx] at k; cases k; exact oneStep_in hC (hw _) hu hx

end Verif.Planner.Star
