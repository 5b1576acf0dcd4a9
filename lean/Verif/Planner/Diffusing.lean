import Verif.Planner.Base
set_option linter.unusedSectionVars false

/-! # `DiffusingPlanner` (C66, C67) -/
namespace Verif.Planner
open Verif.Roadmap
variable {Q P K : Type} [DecidableEq Q] [AddCommGroup K] [Mul K] [One K] [LinearOrder K]

/-- Parameters "DiffusingPlanner/extensionStepLength" and "DiffusingPlanner/extensionStepRatio". -/
structure DiffParams (K : Type) where
  stepLength : K
  stepRatio : K

/-- `DiffusingPlanner::extend`: diffusing-planner.cc:98-143; `x` is the configuration of `near`. -/
def extend (C : PEnv Q P K) (D : DiffParams K) (x q : Q) : Option P :=
  match C.onKernel x q with
  | none => none
  | some q' => match C.steer x q' with
    | none => none
    | some p =>
      let p1 := if 0 < D.stepLength ∧ D.stepLength < C.len p then C.extract p (C.t0 p) (C.t0 p + D.stepLength) else p
      match C.projector with
      | none => some p1
      | some f => (f p1).2

/-- Local variables of `oneStep`. -/
structure Local (Q P : Type) where
  r : Roadmap Q P
  newNodes : List Nat
  nearest : List Nat
  delayed : List (Nat × Q × P)

/-- `belongs`: diffusing-planner.cc:90-96. -/
def belongs (r : Roadmap Q P) (q : Q) (nodes : List Nat) : Bool := nodes.any (fun n => decide (r.configs[n]? = some q))

/-- Body of the loop on the connected components: diffusing-planner.cc:204-235. -/
def growOne (C : PEnv Q P K) (D : DiffParams K) (q : Q) (s : Local Q P) (c : Nat) : Except Err (Local Q P) :=
  match search C.toEnv s.r q c false with
  | none => .error .nullPointer
  | some (_, near) => match s.r.configs[near]? with
    | none => .error .badNode
    | some x =>
      let s1 := { s with nearest := s.nearest ++ [near] }
      match extend C D x q with
      | none => .ok s1
      | some p =>
        let v := C.validate false p
        if C.t1 v.2 ≠ C.t0 p then
          let vp := if v.1 = false ∧ 0 < D.stepRatio ∧ D.stepRatio < 1 then
              C.extract v.2 (C.t0 v.2) (C.t0 v.2 + C.len v.2 * D.stepRatio) else v.2
          if v.1 = false ∨ belongs s.r (C.fin vp) s.newNodes = false then
            match addNodeAndEdges C.toEnv s.r near (C.fin vp) vp with
            | .error e => .error e
            | .ok (r', n) => .ok { s1 with r := r', newNodes := s1.newNodes ++ [n] }
          else .ok { s1 with delayed := s1.delayed ++ [(near, C.fin vp, vp)] }
        else .ok s1

/-- Loop on the connected components (a list that is not modified by the body: `growAll_live`). -/
def growAll (C : PEnv Q P K) (D : DiffParams K) (q : Q) : List Nat → Local Q P → Except Err (Local Q P)
  | [], s => .ok s
  | c :: cs, s => match growOne C D q s c with
    | .error e => .error e
    | .ok s' => growAll C D q cs s'

/-- Delayed edges: diffusing-planner.cc:239-246, also visibility-prm-planner.cc:171-183. -/
def addDelayed (C : PEnv Q P K) : List (Nat × Q × P) → Roadmap Q P → Except Err (Roadmap Q P)
  | [], r => .ok r
  | (near, q, p) :: l, r => match addNode C.toEnv r q with
    | .error e => .error e
    | .ok (r1, n) => match addEdge r1 near n p with
      | .error e => .error e
      | .ok r2 => match addEdge r2 n near (C.rev p) with
        | .error e => .error e
        | .ok r3 => addDelayed C l r3

/-- Attempt to connect two nodes: diffusing-planner.cc:259-284 and 292-316. -/
def tryLink (C : PEnv Q P K) (r : Roadmap Q P) (n1 n2 : Nat) : Except Err (Roadmap Q P) :=
  match r.configs[n1]?, r.configs[n2]? with
  | some q1, some q2 => match C.steer q1 q2 with
    | none => .ok r
    | some p0 =>
      let p' : Option P := match C.projector with
        | none => some p0
        | some f => match f p0 with
          | (false, _) => none
          | (true, x) => x
      match p' with
      | none => .ok r
      | some p =>
        let v := C.validate false p
        if v.1 = true then
          match addEdge r n1 n2 p with
          | .error e => .error e
          | .ok r1 => addEdge r1 n2 n1 (C.rev p)
        else if 0 < C.len v.2 then (addNodeAndEdges C.toEnv r n1 (C.fin v.2) v.2).map (·.1)
        else .ok r
  | _, _ => .error .badNode

/-- Loop on the following new nodes: 264-295. -/
def linkNew (C : PEnv Q P K) (n1 : Nat) : List Nat → Roadmap Q P → Except Err (Roadmap Q P)
  | [], r => .ok r
  | n2 :: l, r => match tryLink C r n1 n2 with
    | .error e => .error e
    | .ok r1 => linkNew C n1 l r1

/-- Loop on the nearest neighbours: 299-329; `cc1` is the component of the node before the loop. -/
def linkNear (C : PEnv Q P K) (n1 cc1 : Nat) : List Nat → Roadmap Q P → Except Err (Roadmap Q P)
  | [], r => .ok r
  | n2 :: l, r =>
    if cc1 = r.cc n2 then linkNear C n1 cc1 l r
    else match tryLink C r n1 n2 with
    | .error e => .error e
    | .ok r1 => linkNear C n1 cc1 l r1

/-- Loop on the new nodes: 261-330. -/
def linkAll (C : PEnv Q P K) (nearest : List Nat) : List Nat → Roadmap Q P → Except Err (Roadmap Q P)
  | [], r => .ok r
  | n1 :: l, r => match linkNew C n1 l r with
    | .error e => .error e
    | .ok r1 => match linkNear C n1 (r1.cc n1) nearest r1 with
      | .error e => .error e
      | .ok r2 => linkAll C nearest l r2

/-- `DiffusingPlanner::oneStep`: diffusing-planner.cc:180-328, `q` is the configuration shot. -/
def diffStep (C : PEnv Q P K) (D : DiffParams K) (q : Q) (r : Roadmap Q P) : Except Err (Roadmap Q P) :=
  match growAll C D q r.live ⟨r, [], [], []⟩ with
  | .error e => .error e
  | .ok s => match addDelayed C s.delayed s.r with
    | .error e => .error e
    | .ok r1 => linkAll C s.nearest s.newNodes r1

/-! ## Proofs -/

variable {C : PEnv Q P K} {Valid : P → Prop} {V : List (Nat × Nat)} {D : DiffParams K} {r : Roadmap Q P}

theorem extend_spec (hC : Contract C Valid) {x q : Q} {p : P} (h : extend C D x q = some p) : C.ini p = x := by
  unfold extend at h
  cases hk : C.onKernel x q with
  | none => rw [hk] at h; simp at h
  | some q' =>
    rw [hk] at h
    simp only at h
    cases hs : C.steer x q' with
    | none => rw [hs] at h; simp at h
    | some p0 =>
      rw [hs] at h
      simp only at h
      have hi : C.ini (if 0 < D.stepLength ∧ D.stepLength < C.len p0 then C.extract p0 (C.t0 p0) (C.t0 p0 + D.stepLength) else p0) = x := by
        split
        · rw [hC.extract_ini, (hC.steer x q' p0 hs).1]
        · exact (hC.steer x q' p0 hs).1
      cases hp : C.projector with
      | none =>
        rw [hp] at h
        rw [← Option.some.inj h]
        exact hi
      | some f =>
        rw [hp] at h
        simp only at h
        have := (hC.proj f _ _ p hp (Prod.ext rfl h)).1
        rw [this]
        exact hi

/-- Insertion in the component of a node does not change the set of components. -/
theorem connect_self (r : Roadmap Q P) (c : Nat) : ∃ r', connect r c c = .ok r' ∧ r'.live = r.live := by
  unfold connect canReach canReachLoop
  simp only [if_true]
  exact ⟨_, rfl, rfl⟩

/-- The invariant of the loop on the components. -/
structure LocalOk (C : PEnv Q P K) (Valid : P → Prop) (V : List (Nat × Nat)) (r : Roadmap Q P) (s : Local Q P) : Prop where
  good : Good C Valid V s.r
  ext : Ext r s.r
  live : s.r.live = r.live
  new : ∀ n ∈ s.newNodes, n < s.r.configs.length
  near : ∀ n ∈ s.nearest, n < s.r.configs.length
  delayed : ∀ x ∈ s.delayed, Valid x.2.2 ∧ s.r.configs[x.1]? = some (C.ini x.2.2) ∧ x.2.1 = C.fin x.2.2

theorem bind_ok {A B E : Type} {x : Except E A} {f : A → Except E B} {b : B} (h : (x >>= f) = .ok b) : ∃ a, x = .ok a ∧ f a = .ok b := by
  cases x with
  | error e => simp [bind, Except.bind] at h
  | ok a => exact ⟨a, rfl, h⟩

/-- Same components and same component of each node. -/
def SameCC (r r' : Roadmap Q P) : Prop := r'.live = r.live ∧ r'.cc = r.cc

theorem SameCC.trans {r1 r2 r3 : Roadmap Q P} (h1 : SameCC r1 r2) (h2 : SameCC r2 r3) : SameCC r1 r3 :=
  ⟨h2.1.trans h1.1, h2.2.trans h1.2⟩

theorem addOutEdge_same {r r' : Roadmap Q P} {e : Edge P} (h : addOutEdge r e = .ok r') : SameCC r r' := by
  unfold addOutEdge at h
  split at h
  · simp at h
  · rw [← Except.ok.inj h]; exact ⟨rfl, rfl⟩

theorem addInEdge_same {r r' : Roadmap Q P} {e : Edge P} (h : addInEdge r e = .ok r') : SameCC r r' := by
  unfold addInEdge at h
  split at h
  · simp at h
  · rw [← Except.ok.inj h]; exact ⟨rfl, rfl⟩

theorem implAddEdge_same {r r' : Roadmap Q P} {e : Edge P} (h : implAddEdge r e = .ok r') (hc : r.cc e.src = r.cc e.dst) : SameCC r r' := by
  unfold implAddEdge connect at h
  simp only [hc] at h
  unfold canReach canReachLoop at h
  simp only [if_true] at h
  rw [← Except.ok.inj h]
  exact ⟨rfl, rfl⟩

theorem addEdge_live_same {r r' : Roadmap Q P} {a b : Nat} {p : P} (h : addEdge r a b p = .ok r') (hc : r.cc a = r.cc b) :
    SameCC r r' := by
  by_cases hb : (decide (r.configs.length ≤ a) || decide (r.configs.length ≤ b)) = true
  · unfold addEdge at h
    rw [if_pos hb] at h
    simp [throw, throwThe, MonadExceptOf.throw, bind, Except.bind] at h
  · have h' : ((if (!isOutNeighbor r a b) = true then addOutEdge r ⟨r.edges.length, a, b, p⟩ else pure r) >>= fun r1 =>
        (if (!isInNeighbor r1 b a) = true then addInEdge r1 ⟨r.edges.length, a, b, p⟩ else pure r1) >>= fun r2 =>
          implAddEdge r2 ⟨r.edges.length, a, b, p⟩) = .ok r' := by
      rw [← h]
      unfold addEdge
      rw [if_neg hb]
      dsimp only
      split <;> (apply bind_congr; intro r1; split <;> rfl)
    obtain ⟨r1, h1, h2⟩ := bind_ok h'
    obtain ⟨r2, h3, h4⟩ := bind_ok h2
    have k1 : SameCC r r1 := by
      split at h1
      · exact addOutEdge_same h1
      · rw [← Except.ok.inj h1]; exact ⟨rfl, rfl⟩
    have k2 : SameCC r1 r2 := by
      split at h3
      · exact addInEdge_same h3
      · rw [← Except.ok.inj h3]; exact ⟨rfl, rfl⟩
    have k3 := k1.trans k2
    exact k3.trans (implAddEdge_same h4 (by rw [k3.2]; exact hc))

theorem addReverseEdge_live_same {r r' : Roadmap Q P} {a b : Nat} {p : P} (h : addReverseEdge r a b p = .ok r') (hc : r.cc a = r.cc b) :
    SameCC r r' := by
  have h' : ((if (!isInNeighbor r a b) = true then addInEdge r ⟨r.edges.length, b, a, p⟩ else pure r) >>= fun r1 =>
      (if (!isOutNeighbor r1 b a) = true then addOutEdge r1 ⟨r.edges.length, b, a, p⟩ else pure r1) >>= fun r2 =>
        implAddEdge r2 ⟨r.edges.length, b, a, p⟩) = .ok r' := by
    rw [← h]
    unfold addReverseEdge
    dsimp only
    split <;> (apply bind_congr; intro r1; split <;> rfl)
  obtain ⟨r1, h1, h2⟩ := bind_ok h'
  obtain ⟨r2, h3, h4⟩ := bind_ok h2
  have k1 : SameCC r r1 := by
    split at h1
    · exact addInEdge_same h1
    · rw [← Except.ok.inj h1]; exact ⟨rfl, rfl⟩
  have k2 : SameCC r1 r2 := by
    split at h3
    · exact addOutEdge_same h3
    · rw [← Except.ok.inj h3]; exact ⟨rfl, rfl⟩
  have k3 := k1.trans k2
  exact k3.trans (implAddEdge_same h4 (by rw [k3.2]; exact hc.symm))

/-- Inserting a node with its two edges from a node does not change the components. -/
theorem addNodeAndEdges_live (h : Inv V r) {a : Nat} (hla : a < r.configs.length) (q : Q) (p : P) {r' : Roadmap Q P} {n : Nat}
    (hok : addNodeAndEdges C.toEnv r a q p = .ok (r', n)) : r'.live = r.live := by
  obtain ⟨r1, m, h1, h2, h3, h4⟩ := h.addNodeIn C.toEnv q hla
  have hlive : r1.live = r.live ∧ r1.cc m = r1.cc a := by
    rcases h4 with ⟨rfl, k1, k2⟩ | ⟨hr1, hn, -⟩
    · exact ⟨rfl, k2⟩
    · subst hr1 hn
      refine ⟨rfl, ?_⟩
      simp only [pushNodeIn, set_eq]
      rw [set_ne _ _ (by omega)]
  unfold addNodeAndEdges at hok
  rw [if_neg (by omega), h1] at hok
  change (do let r2 ← Roadmap.addEdges C.toEnv r1 a m p; return (r2, m)) = _ at hok
  cases hE : Roadmap.addEdges C.toEnv r1 a m p with
  | error e => rw [hE] at hok; simp [bind, Except.bind] at hok
  | ok r2 =>
    rw [hE] at hok
    have hh : (r2, m) = (r', n) := Except.ok.inj hok
    obtain ⟨rfl, rfl⟩ := Prod.mk.inj hh
    unfold Roadmap.addEdges at hE
    cases hA : addEdge r1 a m p with
    | error e => rw [hA] at hE; simp [bind, Except.bind] at hE
    | ok r3 =>
      rw [hA] at hE
      have hE' : addReverseEdge r3 a m (C.rev p) = .ok r2 := hE
      obtain ⟨k1, k2⟩ := addEdge_live_same hA hlive.2.symm
      obtain ⟨k3, k4⟩ := addReverseEdge_live_same hE' (by rw [k2]; exact hlive.2.symm)
      rw [k3, k1, hlive.1]

theorem growOne_spec (hC : Contract C Valid) (q : Q) {s : Local Q P} (h : LocalOk C Valid V r s) {c : Nat} (hc : c ∈ r.live) :
    ∃ s', growOne C D q s c = .ok s' ∧ LocalOk C Valid V r s' := by
  obtain ⟨d, near, x, h1, h2, h3⟩ := search_good (C := C) h.good.inv q (h.live ▸ hc) false
  have hn : near < s.r.configs.length := lt_of_get h2
  have hs1 : LocalOk C Valid V r { s with nearest := s.nearest ++ [near] } := by
    refine ⟨h.good, h.ext, h.live, h.new, ?_, h.delayed⟩
    intro n hn'
    rcases List.mem_append.1 hn' with hn' | hn'
    · exact h.near n hn'
    · rw [List.mem_singleton.1 hn']; exact hn
  unfold growOne
  simp only [h1, h2]
  cases he : extend C D x q with
  | none => exact ⟨_, rfl, hs1⟩
  | some p =>
    simp only
    have hp := extend_spec hC he
    by_cases ht : C.t1 (C.validate false p).2 ≠ C.t0 p
    · rw [if_pos ht]
      set vp := if (C.validate false p).1 = false ∧ 0 < D.stepRatio ∧ D.stepRatio < 1 then
        C.extract (C.validate false p).2 (C.t0 (C.validate false p).2) (C.t0 (C.validate false p).2 + C.len (C.validate false p).2 * D.stepRatio)
        else (C.validate false p).2 with hvp
      have hv0 := hC.valid_part p (Or.inl ht)
      have hvi : Valid vp ∧ C.ini vp = x := by
        rw [hvp]
        split
        · exact ⟨hC.extract_valid _ _ hv0, by rw [hC.extract_ini, hC.valid_ini, hp]⟩
        · exact ⟨hv0, by rw [hC.valid_ini, hp]⟩
      have hnear : s.r.configs[near]? = some (C.ini vp) := by rw [h2, hvi.2]
      by_cases hb : (C.validate false p).1 = false ∨ belongs s.r (C.fin vp) s.newNodes = false
      · rw [if_pos hb]
        obtain ⟨r', n, k1, k2, k3, k4⟩ := h.good.addNodeAndEdges hC hvi.1 hnear
        rw [k1]
        refine ⟨_, rfl, ⟨k2, h.ext.trans k3, ?_, ?_, ?_, ?_⟩⟩
        · rw [addNodeAndEdges_live h.good.inv hn _ _ k1, h.live]
        · intro m hm
          rcases List.mem_append.1 hm with hm | hm
          · exact lt_of_lt_of_le (h.new m hm) k3.grow.length
          · rw [List.mem_singleton.1 hm]; exact lt_of_get k4
        · intro m hm
          exact lt_of_lt_of_le (hs1.near m hm) k3.grow.length
        · intro y hy
          obtain ⟨m1, m2, m3⟩ := h.delayed y hy
          exact ⟨m1, k3.grow.get m2, m3⟩
      · rw [if_neg hb]
        refine ⟨_, rfl, ⟨h.good, h.ext, h.live, h.new, hs1.near, ?_⟩⟩
        intro y hy
        rcases List.mem_append.1 hy with hy | hy
        · exact h.delayed y hy
        · rw [List.mem_singleton.1 hy]; exact ⟨hvi.1, hnear, rfl⟩
    · rw [if_neg ht]
      exact ⟨_, rfl, hs1⟩

theorem growAll_spec (hC : Contract C Valid) (q : Q) (cs : List Nat) {s : Local Q P} (h : LocalOk C Valid V r s) (hcs : ∀ c ∈ cs, c ∈ r.live) :
    ∃ s', growAll C D q cs s = .ok s' ∧ LocalOk C Valid V r s' := by
  induction cs generalizing s with
  | nil => exact ⟨s, rfl, h⟩
  | cons c cs ih =>
    obtain ⟨s1, h1, h2⟩ := growOne_spec (D := D) hC q h (hcs c (by simp))
    obtain ⟨s2, h3, h4⟩ := ih h2 (fun c' hc' => hcs c' (by simp [hc']))
    exact ⟨s2, by simp only [growAll, h1, h3], h4⟩

theorem addDelayed_spec (hC : Contract C Valid) (l : List (Nat × Q × P)) {r : Roadmap Q P} (h : Good C Valid V r)
    (hl : ∀ x ∈ l, Valid x.2.2 ∧ r.configs[x.1]? = some (C.ini x.2.2) ∧ x.2.1 = C.fin x.2.2) :
    ∃ r', addDelayed C l r = .ok r' ∧ Good C Valid V r' ∧ Ext r r' := by
  induction l generalizing r with
  | nil => exact ⟨r, rfl, h, Ext.refl r⟩
  | cons x l ih =>
    obtain ⟨near, q, p⟩ := x
    obtain ⟨h1, h2, h3⟩ := hl _ (by simp : (near, q, p) ∈ (near, q, p) :: l)
    simp only at h1 h2 h3
    obtain ⟨r1, n, k1, k2, k3, k4⟩ := h.addNode q
    obtain ⟨r2, m1, m2, m3, m4, -⟩ := k2.addEdge (b := n) h1 (k3.grow.get h2) (by rw [k4, h3])
    obtain ⟨r3, n1, n2, n3, n4, -⟩ := m2.addEdge (a := n) (b := near) (hC.rev_valid p h1) (by rw [hC.rev_ini, m4, k4, h3])
      (by rw [hC.rev_fin, m4]; exact k3.grow.get h2)
    have hext := k3.trans (m3.trans n3)
    obtain ⟨r4, j1, j2, j3⟩ := ih n2 (fun x hx => by
      obtain ⟨a1, a2, a3⟩ := hl x (by simp [hx])
      exact ⟨a1, hext.grow.get a2, a3⟩)
    exact ⟨r4, by simp only [addDelayed, k1, m1, n1, j1], j2, hext.trans j3⟩

theorem tryLink_spec (hC : Contract C Valid) {r : Roadmap Q P} (h : Good C Valid V r) {n1 n2 : Nat} (h1 : n1 < r.configs.length)
    (h2 : n2 < r.configs.length) : ∃ r', tryLink C r n1 n2 = .ok r' ∧ Good C Valid V r' ∧ Ext r r' := by
  have e1 : r.configs[n1]? = some r.configs[n1] := List.getElem?_eq_getElem h1
  have e2 : r.configs[n2]? = some r.configs[n2] := List.getElem?_eq_getElem h2
  unfold tryLink
  simp only [e1, e2]
  cases hs : C.steer r.configs[n1] r.configs[n2] with
  | none => exact ⟨r, rfl, h, Ext.refl r⟩
  | some p0 =>
    obtain ⟨s1, s2⟩ := hC.steer _ _ p0 hs
    have main : ∀ p, C.ini p = r.configs[n1] → C.fin p = r.configs[n2] → ∃ r',
        (if (C.validate false p).1 = true then
          match addEdge r n1 n2 p with
          | .error e => Except.error e
          | .ok r1 => addEdge r1 n2 n1 (C.rev p)
        else if 0 < C.len (C.validate false p).2 then (addNodeAndEdges C.toEnv r n1 (C.fin (C.validate false p).2) (C.validate false p).2).map (·.1)
        else .ok r) = .ok r' ∧ Good C Valid V r' ∧ Ext r r' := by
      intro p hi hf
      by_cases hv : (C.validate false p).1 = true
      · rw [if_pos hv]
        have hvp := (hC.valid_true false p hv).1
        obtain ⟨r2, m1, m2, m3, m4, -⟩ := h.addEdge (a := n1) (b := n2) hvp (by rw [e1, hi]) (by rw [e2, hf])
        obtain ⟨r3, j1, j2, j3, j4, -⟩ := m2.addEdge (a := n2) (b := n1) (hC.rev_valid p hvp) (by rw [hC.rev_ini, m4, e2, hf])
          (by rw [hC.rev_fin, m4, e1, hi])
        rw [m1]
        exact ⟨r3, j1, j2, m3.trans j3⟩
      · rw [if_neg hv]
        by_cases hl : 0 < C.len (C.validate false p).2
        · rw [if_pos hl]
          obtain ⟨r', n, k1, k2, k3, k4⟩ := h.addNodeAndEdges hC (a := n1) (hC.valid_part p (Or.inr hl)) (by rw [hC.valid_ini, hi, e1])
          rw [k1]
          exact ⟨r', rfl, k2, k3⟩
        · rw [if_neg hl]
          exact ⟨r, rfl, h, Ext.refl r⟩
    cases hp : C.projector with
    | none => exact main p0 s1 s2
    | some f =>
      simp only
      cases hf : f p0 with
      | mk b x =>
        cases b with
        | false => exact ⟨r, rfl, h, Ext.refl r⟩
        | true =>
          cases x with
          | none => exact ⟨r, rfl, h, Ext.refl r⟩
          | some p =>
            obtain ⟨k1, k2⟩ := hC.proj f p0 true p hp hf
            exact main p (by rw [k1, s1]) (by rw [k2 rfl, s2])

theorem linkNew_spec (hC : Contract C Valid) (n1 : Nat) (l : List Nat) {r : Roadmap Q P} (h : Good C Valid V r) (h1 : n1 < r.configs.length)
    (hl : ∀ n ∈ l, n < r.configs.length) : ∃ r', linkNew C n1 l r = .ok r' ∧ Good C Valid V r' ∧ Ext r r' := by
  induction l generalizing r with
  | nil => exact ⟨r, rfl, h, Ext.refl r⟩
  | cons n2 l ih =>
    obtain ⟨r1, k1, k2, k3⟩ := tryLink_spec hC h h1 (hl n2 (by simp))
    obtain ⟨r2, m1, m2, m3⟩ := ih k2 (lt_of_lt_of_le h1 k3.grow.length) (fun n hn => lt_of_lt_of_le (hl n (by simp [hn])) k3.grow.length)
    exact ⟨r2, by simp only [linkNew, k1, m1], m2, k3.trans m3⟩

theorem linkNear_spec (hC : Contract C Valid) (n1 cc1 : Nat) (l : List Nat) {r : Roadmap Q P} (h : Good C Valid V r)
    (h1 : n1 < r.configs.length) (hl : ∀ n ∈ l, n < r.configs.length) :
    ∃ r', linkNear C n1 cc1 l r = .ok r' ∧ Good C Valid V r' ∧ Ext r r' := by
  induction l generalizing r with
  | nil => exact ⟨r, rfl, h, Ext.refl r⟩
  | cons n2 l ih =>
    by_cases hc : cc1 = r.cc n2
    · obtain ⟨r2, m1, m2, m3⟩ := ih h h1 (fun n hn => hl n (by simp [hn]))
      exact ⟨r2, by simp only [linkNear, if_pos hc, m1], m2, m3⟩
    · obtain ⟨r1, k1, k2, k3⟩ := tryLink_spec hC h h1 (hl n2 (by simp))
      obtain ⟨r2, m1, m2, m3⟩ := ih k2 (lt_of_lt_of_le h1 k3.grow.length) (fun n hn => lt_of_lt_of_le (hl n (by simp [hn])) k3.grow.length)
      exact ⟨r2, by simp only [linkNear, if_neg hc, k1, m1], m2, k3.trans m3⟩

theorem linkAll_spec (hC : Contract C Valid) (nearest l : List Nat) {r : Roadmap Q P} (h : Good C Valid V r)
    (hn : ∀ n ∈ nearest, n < r.configs.length) (hl : ∀ n ∈ l, n < r.configs.length) :
    ∃ r', linkAll C nearest l r = .ok r' ∧ Good C Valid V r' ∧ Ext r r' := by
  induction l generalizing r with
  | nil => exact ⟨r, rfl, h, Ext.refl r⟩
  | cons n1 l ih =>
    obtain ⟨r1, k1, k2, k3⟩ := linkNew_spec hC n1 l h (hl n1 (by simp)) (fun n hn => hl n (by simp [hn]))
    obtain ⟨r2, m1, m2, m3⟩ := linkNear_spec hC n1 (r1.cc n1) nearest k2 (lt_of_lt_of_le (hl n1 (by simp)) k3.grow.length)
      (fun n hn' => lt_of_lt_of_le (hn n hn') k3.grow.length)
    have hext := k3.trans m3
    obtain ⟨r3, j1, j2, j3⟩ := ih m2 (fun n hn' => lt_of_lt_of_le (hn n hn') hext.grow.length)
      (fun n hn' => lt_of_lt_of_le (hl n (by simp [hn'])) hext.grow.length)
    exact ⟨r3, by simp only [linkAll, k1, m1, j1], j2, hext.trans j3⟩

/-- C66: within an iteration, a path that is wholly valid and ends at a configuration reached before in the iteration gives a delayed edge and no node; any other
extension that progresses gives a node. -/
theorem C66_diffusing_delayed (D : DiffParams K) (q : Q) {s : Local Q P} {c : Nat} {d : K} {near : Nat} {x : Q} {p : P}
    (hn : search C.toEnv s.r q c false = some (d, near)) (hx : s.r.configs[near]? = some x) (he : extend C D x q = some p)
    (hv : (C.validate false p).1 = true) (ht : C.t1 (C.validate false p).2 ≠ C.t0 p) :
    ((∃ n ∈ s.newNodes, s.r.configs[n]? = some (C.fin (C.validate false p).2)) →
      growOne C D q s c = .ok { s with nearest := s.nearest ++ [near], delayed := s.delayed ++ [(near, C.fin (C.validate false p).2, (C.validate false p).2)] }) ∧
    ((∀ n ∈ s.newNodes, s.r.configs[n]? ≠ some (C.fin (C.validate false p).2)) →
      growOne C D q s c = match addNodeAndEdges C.toEnv s.r near (C.fin (C.validate false p).2) (C.validate false p).2 with
        | .error e => .error e
        | .ok (r', n) => .ok { s with r := r', newNodes := s.newNodes ++ [n], nearest := s.nearest ++ [near] }) := by
  have hb : belongs s.r (C.fin (C.validate false p).2) s.newNodes = true ↔ ∃ n ∈ s.newNodes, s.r.configs[n]? = some (C.fin (C.validate false p).2) := by
    unfold belongs; simp [List.any_eq_true]
  constructor
  · intro h
    have h1 := hb.2 h
    simp only [growOne, hn, hx, he, ne_eq, ht, not_false_eq_true, if_true, hv, Bool.true_eq_false, false_and, if_false, false_or, h1]
  · intro h
    have h1 : belongs s.r (C.fin (C.validate false p).2) s.newNodes = false := by
      rw [← Bool.not_eq_true, hb]; rintro ⟨n, h2, h3⟩; exact h n h2 h3
    simp only [growOne, hn, hx, he, ne_eq, ht, not_false_eq_true, if_true, hv, Bool.true_eq_false, false_and, if_false, false_or, h1]

/-- C66: one step of the diffusing planner, from any good roadmap and for any random configuration, does not fail, does not
remove anything, keeps init and goals, and all edges of the result carry validated paths that join the configurations of their nodes. -/
theorem C66_diffusing (hC : Contract C Valid) (D : DiffParams K) (q : Q) {r : Roadmap Q P} (h : Good C Valid V r) :
    ∃ r', diffStep C D q r = .ok r' ∧ Good C Valid V r' ∧ Ext r r' := by
  obtain ⟨s, h1, h2⟩ := growAll_spec (D := D) hC q r.live (s := ⟨r, [], [], []⟩)
    ⟨h, Ext.refl r, rfl, by simp, by simp, by simp⟩ (fun _ hc => hc)
  obtain ⟨r1, h3, h4, h5⟩ := addDelayed_spec hC s.delayed h2.good h2.delayed
  obtain ⟨r2, h6, h7, h8⟩ := linkAll_spec hC s.nearest s.newNodes h4
    (fun n hn => lt_of_lt_of_le (h2.near n hn) h5.grow.length) (fun n hn => lt_of_lt_of_le (h2.new n hn) h5.grow.length)
  exact ⟨r2, by simp only [diffStep, h1, h3, h6], h7, h2.ext.trans (h5.trans h8)⟩

/-- C66: the loop on the connected components of the roadmap does not change the set of components it iterates on. -/
theorem C66_diffusing_iteration (hC : Contract C Valid) (D : DiffParams K) (q : Q) {r : Roadmap Q P} (h : Good C Valid V r) (cs : List Nat)
    (hcs : cs <+: r.live) : ∃ s, growAll C D q cs ⟨r, [], [], []⟩ = .ok s ∧ s.r.live = r.live := by
  obtain ⟨s, h1, h2⟩ := growAll_spec (D := D) hC q cs (s := ⟨r, [], [], []⟩)
    ⟨h, Ext.refl r, rfl, by simp, by simp, by simp⟩ (fun _ hc => hcs.subset hc)
  exact ⟨s, h1, h2.live⟩

/-! ## The whole planner -/

section
variable [IsOrderedAddMonoid K]

/-- Lift of the errors. -/
def lift (x : Except Err (Roadmap Q P)) (n : Nat) : Except PlanErr (Nat × Roadmap Q P) := match x with
  | .error e => .error (.road e)
  | .ok r => .ok (n, r)

/-- `startSolve` and `tryConnectInitAndGoals`: path-planner.cc:110-111. -/
def startPlan (C : PEnv Q P K) (q0 : Q) (gs : List Q) (s : Nat × Roadmap Q P) : Except PlanErr (Nat × Roadmap Q P) :=
  match startSolve C q0 gs s.2 with
  | .error e => .error (.road e)
  | .ok r => lift (tryConnect C r) s.1

/-- The diffusing planner with a sequence of random configurations. -/
def diffusing (C : PEnv Q P K) (D : DiffParams K) (heur : Roadmap Q P → Nat → K) (q0 : Q) (gs : List Q) (shoot : Nat → Q) :
    Calls (Nat × Roadmap Q P) (List P) PlanErr :=
  planCalls C heur (startPlan C q0 gs) (fun s => lift (diffStep C D (shoot s.1) s.2) (s.1 + 1))

omit [Mul K] [One K] in
theorem startPlan_spec (hC : Contract C Valid) (q0 : Q) (gs : List Q) {s : Nat × Roadmap Q P} (h : Good C Valid V s.2) :
    ∃ r', startPlan C q0 gs s = .ok (s.1, r') ∧ Good C Valid V r' ∧ Tagged q0 gs r' := by
  obtain ⟨r1, h1, h2, -, h3⟩ := startSolve_spec h q0 gs
  obtain ⟨i, hi, -⟩ := h3.init
  obtain ⟨r2, h4, h5, h6⟩ := tryConnect_spec hC h2 hi
  exact ⟨r2, by simp only [startPlan, h1, h4, lift], h5, h3.mono h6⟩

/-- C67: whatever the random configurations, the limits and the clock, the path returned by the diffusing planner is a continuous sequence of validated
paths from the init configuration to a goal configuration. -/
theorem C67_diffusing (hC : Contract C Valid) (D : DiffParams K) (heur : Roadmap Q P → Nat → K) (q0 : Q) (gs : List Q) (shoot : Nat → Q)
    {r : Roadmap Q P} (h : Good C Valid V r) (st : Settings K) (late intr : Nat → Bool) (fuel n : Nat) (l : List P)
    (hl : solve (diffusing C D heur q0 gs shoot) st late intr fuel (n, r) = .path l) : Solves C Valid q0 gs l := by
  obtain ⟨r1, h1, h2, h3⟩ := startPlan_spec hC q0 gs (s := (n, r)) h
  refine solve_solves C Valid heur _ _ q0 gs (fun s => Good C Valid V s.2 ∧ Tagged q0 gs s.2) (fun s hs => ⟨⟨V, hs.1⟩, hs.2⟩) (n, r) _ h1
    ⟨h2, h3⟩ ?_ st late intr fuel l hl
  rintro s s' ⟨k1, k2⟩ hs
  obtain ⟨r', m1, m2, m3⟩ := C66_diffusing hC D (shoot s.1) k1
  simp only [m1, lift] at hs
  cases hs
  exact ⟨m2, k2.mono m3⟩

/-- C67: from a roadmap without node inserted one-way (e.g. empty), the diffusing planner throws only for the limits and for `interrupt()`. -/
theorem C67_diffusing_noError (hC : Contract C Valid) (D : DiffParams K) (heur : Roadmap Q P → Nat → K) (q0 : Q) (gs : List Q) (shoot : Nat → Q)
    (hq : ∀ q, C.steer q q ≠ none)
    {r : Roadmap Q P} (h : Good C Valid [] r) (st : Settings K) (late intr : Nat → Bool) (fuel n : Nat) (e : PlanErr) :
    solve (diffusing C D heur q0 gs shoot) st late intr fuel (n, r) ≠ .error e := by
  obtain ⟨r1, h1, h2, h3⟩ := startPlan_spec hC q0 gs (s := (n, r)) h
  refine solve_noError C Valid heur _ _ q0 gs (fun s => Good C Valid [] s.2 ∧ Tagged q0 gs s.2) (fun s hs => hs) (n, r) _ h1
    ⟨h2, h3⟩ ?_ hq st late intr fuel e
  rintro s ⟨k1, k2⟩
  obtain ⟨r', m1, m2, m3⟩ := C66_diffusing hC D (shoot s.1) k1
  exact ⟨(s.1 + 1, r'), by simp only [m1, lift], m2, k2.mono m3⟩

end

end Verif.Planner
