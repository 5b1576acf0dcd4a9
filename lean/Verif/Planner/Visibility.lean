import Verif.Planner.Line
set_option linter.unusedSectionVars false

/-! # `VisibilityPrmPlanner` (C66, C67, C68) -/
namespace Verif.Planner
open Verif.Roadmap
variable {Q P K : Type} [DecidableEq Q] [AddCommGroup K] [LinearOrder K] [IsOrderedAddMonoid K]

/-! ## Model -/

/-- Direct path accepted by the validation: visibility-prm-planner.cc:90-92 (the path projector is not used). -/
def seePath (C : PEnv Q P K) (q x : Q) : Option P := match C.steer q x with
  | none => none
  | some p => if (C.validate false p).1 = true then some p else none

/-- Loop of `visibleFromCC` on the nodes of a component: visibility-prm-planner.cc:85-101.  `best` is `length` with the delayed edge, `none` before one is
found (`length` is infinity, `found` false).  A node without configuration is an invalid pointer. -/
def visibleLoop (C : PEnv Q P K) (r : Roadmap Q P) (guard : Nat → Bool) (q : Q) : List Nat → Option (K × Nat × P) → Except Err (Option (K × Nat × P))
  | [], best => .ok best
  | n :: l, best =>
    if guard n = true then
      match r.configs[n]? with
      | none => .error .badNode
      | some x => match seePath C q x with
        | none => visibleLoop C r guard q l best
        | some p => match best with
          | none => visibleLoop C r guard q l (some (C.len p, n, C.rev p))
          | some b => if C.len p < b.1 then visibleLoop C r guard q l (some (C.len p, n, C.rev p)) else visibleLoop C r guard q l best
    else visibleLoop C r guard q l best

/-- Loop on the components: visibility-prm-planner.cc:155-163; the delayed edges. -/
def visibleAll (C : PEnv Q P K) (r : Roadmap Q P) (guard : Nat → Bool) (q : Q) : List Nat → Except Err (List (Nat × Q × P))
  | [] => .ok []
  | c :: cs => match visibleLoop C r guard q (r.comp c).nodes none with
    | .error e => .error e
    | .ok b => match visibleAll C r guard q cs with
      | .error e => .error e
      | .ok l => match b with
        | none => .ok l
        | some x => .ok ((x.2.1, q, x.2.2) :: l)

/-- Loop inserting the delayed edges: visibility-prm-planner.cc:172-183. -/
def connectDelayed (C : PEnv Q P K) : List (Nat × Q × P) → (Nat → Bool) × Roadmap Q P → Except Err ((Nat → Bool) × Roadmap Q P)
  | [], s => .ok s
  | (near, q, p) :: l, s => match addNode C.toEnv s.2 q with
    | .error e => .error e
    | .ok (r1, n) => match addEdge r1 near n p with
      | .error e => .error e
      | .ok r2 => match addEdge r2 n near (C.rev p) with
        | .error e => .error e
        | .ok r3 => connectDelayed C l (set s.1 n false, r3)

/-- `oneStep`: visibility-prm-planner.cc:127-186, `q` is the configuration accepted by the loop 147-152 (the loop itself, which shoots until a
configuration is accepted, is not modelled); `guard` is `nodeStatus_`. -/
def visStep (C : PEnv Q P K) (q : Q) (s : (Nat → Bool) × Roadmap Q P) : Except Err ((Nat → Bool) × Roadmap Q P) :=
  match s.2.init with
  | none => .error .nullPointer
  | some i =>
    let g1 := s.2.goals.foldl (fun g n => set g n true) (set s.1 i true)
    match visibleAll C s.2 g1 q s.2.live with
    | .error e => .error e
    | .ok l =>
      if l.length = 0 then
        match addNode C.toEnv s.2 q with
        | .error e => .error e
        | .ok (r1, n) => .ok (set g1 n true, r1)
      else if 1 < l.length then connectDelayed C l (g1, s.2)
      else .ok (g1, s.2)

/-! ## Specification -/

/-- Node `n` of component `c` is a guard that sees `q`. -/
def Sees (C : PEnv Q P K) (r : Roadmap Q P) (guard : Nat → Bool) (q : Q) (c n : Nat) : Prop :=
  n < r.configs.length ∧ r.cc n = c ∧ guard n = true ∧ ∃ x p, r.configs[n]? = some x ∧ seePath C q x = some p

/-- Status of the nodes at the beginning of a step: the init and goal nodes are guards. -/
def Guards (r : Roadmap Q P) (g0 guard : Nat → Bool) : Prop :=
  ∀ n, guard n = true ↔ (r.init = some n ∨ n ∈ r.goals ∨ g0 n = true)

/-! ## Proofs -/
variable {C : PEnv Q P K} {Valid : P → Prop} {V : List (Nat × Nat)} {r : Roadmap Q P}

theorem seePath_spec (hC : Contract C Valid) {q x : Q} {p : P} (h : seePath C q x = some p) : Valid p ∧ C.ini p = q ∧ C.fin p = x := by
  unfold seePath at h
  cases hs : C.steer q x with
  | none => rw [hs] at h; simp at h
  | some p0 =>
    rw [hs] at h
    simp only at h
    split at h
    · rename_i hv
      rw [← Option.some.inj h]
      obtain ⟨h1, h2⟩ := hC.steer q x p0 hs
      exact ⟨(hC.valid_true false p0 hv).1, h1, h2⟩
    · simp at h

/-- What is recorded: a validated path (reversed) from a guard. -/
def BestOk (C : PEnv Q P K) (r : Roadmap Q P) (guard : Nat → Bool) (q : Q) (nodes : List Nat) (b : K × Nat × P) : Prop :=
  b.2.1 ∈ nodes ∧ guard b.2.1 = true ∧ ∃ x p, r.configs[b.2.1]? = some x ∧ seePath C q x = some p ∧ b.2.2 = C.rev p ∧ b.1 = C.len p

theorem visibleLoop_spec (guard : Nat → Bool) (q : Q) (all l : List Nat) (hsub : ∀ n ∈ l, n ∈ all) (hl : ∀ n ∈ l, n < r.configs.length)
    (best : Option (K × Nat × P)) (hb : ∀ b, best = some b → BestOk C r guard q all b) :
    ∃ out, visibleLoop C r guard q l best = .ok out ∧ (∀ b, out = some b → BestOk C r guard q all b) ∧
      (out = none → best = none ∧ ∀ n ∈ l, guard n = true → ∀ x, r.configs[n]? = some x → seePath C q x = none) ∧
      (∀ b, out = some b → (∀ b', best = some b' → b.1 ≤ b'.1) ∧
        ∀ n ∈ l, guard n = true → ∀ x p, r.configs[n]? = some x → seePath C q x = some p → b.1 ≤ C.len p) := by
  induction l generalizing best with
  | nil =>
    refine ⟨best, rfl, hb, fun h => ⟨h, by simp⟩, ?_⟩
    intro b h
    refine ⟨fun b' h' => ?_, by simp⟩
    rw [h] at h'
    cases h'
    exact le_refl _
  | cons n l ih =>
    have ih' := ih (fun m hm => hsub m (by simp [hm])) (fun m hm => hl m (by simp [hm]))
    have hnl : n < r.configs.length := hl n (by simp)
    have hn : r.configs[n]? = some r.configs[n] := List.getElem?_eq_getElem hnl
    by_cases hg : guard n = true
    · cases hp : seePath C q r.configs[n] with
      | none =>
        obtain ⟨out, k1, k2, k3, k4⟩ := ih' best hb
        refine ⟨out, by simp only [visibleLoop, if_pos hg, hn, hp, k1], k2, ?_, ?_⟩
        · intro ho
          obtain ⟨j1, j2⟩ := k3 ho
          refine ⟨j1, ?_⟩
          intro m hm hgm x hx
          rcases List.mem_cons.1 hm with rfl | hm
          · rw [hn] at hx; cases hx; exact hp
          · exact j2 m hm hgm x hx
        · intro b ho
          obtain ⟨j1, j2⟩ := k4 b ho
          refine ⟨j1, ?_⟩
          intro m hm hgm x p hx hxp
          rcases List.mem_cons.1 hm with rfl | hm
          · rw [hn] at hx; cases hx; rw [hp] at hxp; simp at hxp
          · exact j2 m hm hgm x p hx hxp
      | some p =>
        have hnew : BestOk C r guard q all (C.len p, n, C.rev p) := ⟨hsub n (by simp), hg, _, p, hn, hp, rfl, rfl⟩
        have fin1 : ∀ {out : Option (K × Nat × P)} {b : K × Nat × P} {b0 : K}, b0 ≤ C.len p → b.1 ≤ b0 →
            (∀ m ∈ l, guard m = true → ∀ x p, r.configs[m]? = some x → seePath C q x = some p → b.1 ≤ C.len p) →
            ∀ m ∈ n :: l, guard m = true → ∀ x p, r.configs[m]? = some x → seePath C q x = some p → b.1 ≤ C.len p := by
          intro out b b0 h1 h2 h3 m hm hgm x p' hx hxp
          rcases List.mem_cons.1 hm with rfl | hm
          · rw [hn] at hx; cases hx; rw [hp] at hxp; cases hxp; exact le_trans h2 h1
          · exact h3 m hm hgm x p' hx hxp
        cases best with
        | none =>
          obtain ⟨out, k1, k2, k3, k4⟩ := ih' (some (C.len p, n, C.rev p)) (fun b h => by cases h; exact hnew)
          refine ⟨out, by simp only [visibleLoop, if_pos hg, hn, hp, k1], k2, fun ho => ?_, fun b ho => ?_⟩
          · exact absurd (k3 ho).1 (by simp)
          · obtain ⟨j1, j2⟩ := k4 b ho
            exact ⟨by simp, fin1 (out := none) (le_refl _) (j1 _ rfl) j2⟩
        | some b0 =>
          by_cases hlt : C.len p < b0.1
          · obtain ⟨out, k1, k2, k3, k4⟩ := ih' (some (C.len p, n, C.rev p)) (fun b h => by cases h; exact hnew)
            refine ⟨out, by simp only [visibleLoop, if_pos hg, hn, hp, if_pos hlt, k1], k2, fun ho => ?_, fun b ho => ?_⟩
            · exact absurd (k3 ho).1 (by simp)
            · obtain ⟨j1, j2⟩ := k4 b ho
              refine ⟨?_, fin1 (out := none) (le_refl _) (j1 _ rfl) j2⟩
              intro b' hb'
              cases hb'
              exact le_trans (j1 _ rfl) (le_of_lt hlt)
          · obtain ⟨out, k1, k2, k3, k4⟩ := ih' (some b0) hb
            refine ⟨out, by simp only [visibleLoop, if_pos hg, hn, hp, if_neg hlt, k1], k2, fun ho => ?_, fun b ho => ?_⟩
            · exact absurd (k3 ho).1 (by simp)
            · obtain ⟨j1, j2⟩ := k4 b ho
              exact ⟨j1, fin1 (out := none) (not_lt.1 hlt) (j1 _ rfl) j2⟩
    · obtain ⟨out, k1, k2, k3, k4⟩ := ih' best hb
      refine ⟨out, by simp only [visibleLoop, if_neg hg, k1], k2, ?_, ?_⟩
      · intro ho
        obtain ⟨j1, j2⟩ := k3 ho
        refine ⟨j1, ?_⟩
        intro m hm hgm x hx
        rcases List.mem_cons.1 hm with rfl | hm
        · exact absurd hgm hg
        · exact j2 m hm hgm x hx
      · intro b ho
        obtain ⟨j1, j2⟩ := k4 b ho
        refine ⟨j1, ?_⟩
        intro m hm hgm x p hx hxp
        rcases List.mem_cons.1 hm with rfl | hm
        · exact absurd hgm hg
        · exact j2 m hm hgm x p hx hxp

/-- A delayed edge of a component: the shortest validated path, reversed, from a guard of the component. -/
structure DelayedOk (C : PEnv Q P K) (r : Roadmap Q P) (guard : Nat → Bool) (q : Q) (c : Nat) (d : Nat × Q × P) : Prop where
  conf : d.2.1 = q
  sees : ∃ x p, d.1 < r.configs.length ∧ r.cc d.1 = c ∧ guard d.1 = true ∧ r.configs[d.1]? = some x ∧ seePath C q x = some p ∧ d.2.2 = C.rev p ∧
    ∀ m, m < r.configs.length → r.cc m = c → guard m = true → ∀ y p', r.configs[m]? = some y → seePath C q y = some p' → C.len p ≤ C.len p'

theorem visibleAll_spec (h : Inv V r) (guard : Nat → Bool) (q : Q) (cs : List Nat) (hcs : ∀ c ∈ cs, c ∈ r.live) (hnd : cs.Nodup) :
    ∃ l, visibleAll C r guard q cs = .ok l ∧ (∀ d ∈ l, ∃ c ∈ cs, DelayedOk C r guard q c d) ∧
      (∀ c ∈ cs, (∃ n, Sees C r guard q c n) → ∃ d ∈ l, DelayedOk C r guard q c d) ∧ l.Pairwise (fun a b => r.cc a.1 ≠ r.cc b.1) := by
  induction cs with
  | nil => exact ⟨[], rfl, by simp, by simp, List.Pairwise.nil⟩
  | cons c cs ih =>
    rw [List.nodup_cons] at hnd
    obtain ⟨l, k1, k2, k3, k4⟩ := ih (fun c' hc' => hcs c' (by simp [hc'])) hnd.2
    have hc := hcs c (by simp)
    have hown : ∀ n ∈ (r.comp c).nodes, n < r.configs.length ∧ r.cc n = c := fun n hn => h.wf.owned c hc n hn
    have hmem : ∀ n, n < r.configs.length → r.cc n = c → n ∈ (r.comp c).nodes := by
      intro n hn hcn
      have := h.wf.mem n hn
      rw [hcn] at this
      exact this
    obtain ⟨out, m1, m2, m3, m4⟩ := visibleLoop_spec (C := C) (r := r) guard q (r.comp c).nodes (r.comp c).nodes (fun _ hn => hn)
      (fun n hn => (hown n hn).1) none (by simp)
    cases out with
    | none =>
      refine ⟨l, by simp only [visibleAll, m1, k1], ?_, ?_, k4⟩
      · intro d hd
        obtain ⟨c', hc', hd'⟩ := k2 d hd
        exact ⟨c', by simp [hc'], hd'⟩
      · intro c' hc' hs
        rcases List.mem_cons.1 hc' with rfl | hc'
        · obtain ⟨n, s1, s2, s3, x, p, s4, s5⟩ := hs
          have := (m3 rfl).2 n (hmem n s1 s2) s3 x s4
          rw [s5] at this
          simp at this
        · exact k3 c' hc' hs
    | some b =>
      obtain ⟨b1, b2, x, p, b3, b4, b5, b6⟩ := m2 b rfl
      have hD : DelayedOk C r guard q c (b.2.1, q, b.2.2) := by
        refine ⟨rfl, x, p, (hown _ b1).1, (hown _ b1).2, b2, b3, b4, b5, ?_⟩
        intro m hm hcm hgm y p' hy hyp
        rw [← b6]
        exact (m4 b rfl).2 m (hmem m hm hcm) hgm y p' hy hyp
      refine ⟨(b.2.1, q, b.2.2) :: l, by simp only [visibleAll, m1, k1], ?_, ?_, ?_⟩
      · intro d hd
        rcases List.mem_cons.1 hd with rfl | hd
        · exact ⟨c, by simp, hD⟩
        · obtain ⟨c', hc', hd'⟩ := k2 d hd
          exact ⟨c', by simp [hc'], hd'⟩
      · intro c' hc' hs
        rcases List.mem_cons.1 hc' with rfl | hc'
        · exact ⟨_, by simp, hD⟩
        · obtain ⟨d, hd, hd'⟩ := k3 c' hc' hs
          exact ⟨d, by simp [hd], hd'⟩
      · refine List.pairwise_cons.2 ⟨?_, k4⟩
        intro d hd heq
        obtain ⟨c', hc', hd'⟩ := k2 d hd
        obtain ⟨x', p', -, e1, -⟩ := hd'.sees
        simp only at heq
        rw [e1, (hown _ b1).2] at heq
        exact hnd.1 (heq ▸ hc')

theorem connectDelayed_spec (hC : Contract C Valid) (q : Q) (l : List (Nat × Q × P)) {s : (Nat → Bool) × Roadmap Q P} (h : Good C Valid V s.2)
    (hl : ∀ x ∈ l, x.2.1 = q ∧ Valid x.2.2 ∧ s.2.configs[x.1]? = some (C.ini x.2.2) ∧ q = C.fin x.2.2) :
    ∃ s', connectDelayed C l s = .ok s' ∧ Good C Valid V s'.2 ∧ Ext s.2 s'.2 ∧
      ∀ x ∈ l, ∃ n, s'.2.configs[n]? = some q ∧ HasEdge s'.2 x.1 n ∧ HasEdge s'.2 n x.1 := by
  induction l generalizing s with
  | nil => exact ⟨s, rfl, h, Ext.refl _, by simp⟩
  | cons x l ih =>
    obtain ⟨near, q', p⟩ := x
    obtain ⟨h0, h1, h2, h3⟩ := hl _ (by simp : (near, q', p) ∈ (near, q', p) :: l)
    simp only at h0 h1 h2 h3
    subst h0
    obtain ⟨r1, n, k1, k2, k3, k4⟩ := h.addNode q'
    obtain ⟨r2, m1, m2, m3, m4, m5⟩ := k2.addEdge (b := n) h1 (k3.grow.get h2) (by rw [k4, h3])
    obtain ⟨r3, n1, n2, n3, n4, n5⟩ := m2.addEdge (a := n) (b := near) (hC.rev_valid p h1) (by rw [hC.rev_ini, m4, k4, h3])
      (by rw [hC.rev_fin, m4]; exact k3.grow.get h2)
    have hext := k3.trans (m3.trans n3)
    obtain ⟨s', j1, j2, j3, j4⟩ := ih (s := (set s.1 n false, r3)) n2 (fun x hx => by
      obtain ⟨a0, a1, a2, a3⟩ := hl x (by simp [hx])
      exact ⟨a0, a1, hext.grow.get a2, a3⟩)
    refine ⟨s', by simp only [connectDelayed, k1, m1, n1, j1], j2, hext.trans j3, ?_⟩
    intro x hx
    rcases List.mem_cons.1 hx with rfl | hx
    · refine ⟨n, ?_, ?_, ?_⟩
      · exact j3.grow.get (n3.grow.get (m3.grow.get k4))
      · exact ⟨⟨r1.edges.length, near, n, p⟩, j3.grow.edges.subset (n3.grow.edges.subset (by rw [m5.edges]; simp)), rfl, rfl⟩
      · exact ⟨⟨r2.edges.length, n, near, C.rev p⟩, j3.grow.edges.subset (by rw [show ((set s.1 n false, r3) : (Nat → Bool) × Roadmap Q P).2 = r3 from rfl, n5.edges]; simp), rfl, rfl⟩
    · exact j4 x hx

theorem foldl_guards (gs : List Nat) (g : Nat → Bool) (n : Nat) :
    gs.foldl (fun g n => set g n true) g n = true ↔ (n ∈ gs ∨ g n = true) := by
  induction gs generalizing g with
  | nil => simp
  | cons a gs ih =>
    rw [List.foldl_cons, ih]
    by_cases h : n = a
    · subst h; simp [set_eq]
    · rw [set_ne _ _ h]; simp [h]

theorem start_guards {s : (Nat → Bool) × Roadmap Q P} {i : Nat} (hi : s.2.init = some i) :
    Guards s.2 s.1 (s.2.goals.foldl (fun g n => set g n true) (set s.1 i true)) := by
  intro n
  rw [foldl_guards, hi]
  by_cases h : n = i
  · subst h; simp [set_eq]
  · rw [set_ne _ _ h]
    constructor
    · rintro (h' | h')
      · exact Or.inr (Or.inl h')
      · exact Or.inr (Or.inr h')
    · rintro (h' | h' | h')
      · exact absurd (Option.some.inj h').symm h
      · exact Or.inl h'
      · exact Or.inr h'

/-- C68: one step of Visibility-PRM with configuration `q`.  The guards are the init node, the goal nodes and the nodes added as guards.
If no guard sees `q`, the node is added (as a guard) and no edge is added; if the guards of exactly one component see it, the roadmap does not change; if
the guards of several components see it, it is linked both ways to a guard of each of these components, the one with the shortest direct path. -/
theorem C68_visibility (hC : Contract C Valid) (q : Q) {s : (Nat → Bool) × Roadmap Q P} (h : Good C Valid V s.2) {i : Nat} (hi : s.2.init = some i) :
    ∃ s' guard, visStep C q s = .ok s' ∧ Guards s.2 s.1 guard ∧
      ((∀ c n, ¬ Sees C s.2 guard q c n) → ∃ n, s'.2.configs[n]? = some q ∧ s'.1 n = true ∧ s'.2.edges = s.2.edges) ∧
      (∀ c, (∃ n, Sees C s.2 guard q c n) → (∀ c' n, Sees C s.2 guard q c' n → c' = c) → s'.2 = s.2) ∧
      (∀ c c' n n', c ≠ c' → Sees C s.2 guard q c n → Sees C s.2 guard q c' n' →
        ∃ a b x p, s'.2.configs[b]? = some q ∧ HasEdge s'.2 a b ∧ HasEdge s'.2 b a ∧
          Sees C s.2 guard q c a ∧ s.2.configs[a]? = some x ∧ seePath C q x = some p ∧
          ∀ m y p', Sees C s.2 guard q c m → s.2.configs[m]? = some y → seePath C q y = some p' → C.len p ≤ C.len p') := by
  set guard := s.2.goals.foldl (fun g n => set g n true) (set s.1 i true) with hguard
  have hG : Guards s.2 s.1 guard := start_guards hi
  have hnd : s.2.live.Nodup := h.inv.wf.live_sorted.imp (fun h => ne_of_lt h)
  obtain ⟨l, k1, k2, k3, k4⟩ := visibleAll_spec (C := C) h.inv guard q s.2.live (fun _ hc => hc) hnd
  have hlive : ∀ c n, Sees C s.2 guard q c n → c ∈ s.2.live := by
    rintro c n ⟨h1, rfl, -⟩
    exact h.inv.wf.cc_live n h1
  have hsee : ∀ d ∈ l, Sees C s.2 guard q (s.2.cc d.1) d.1 := by
    intro d hd
    obtain ⟨c, -, hd'⟩ := k2 d hd
    obtain ⟨x, p, e1, e2, e3, e4, e5, -⟩ := hd'.sees
    exact ⟨e1, rfl, e3, x, p, e4, e5⟩
  by_cases h0 : l.length = 0
  · obtain ⟨r1, n, m1, m2, m3, m4⟩ := h.addNode q
    have hnil : l = [] := List.length_eq_zero_iff.1 h0
    have hno : ∀ c n, ¬ Sees C s.2 guard q c n := by
      intro c n hs
      obtain ⟨d, hd, -⟩ := k3 c (hlive c n hs) ⟨n, hs⟩
      rw [hnil] at hd
      simp at hd
    refine ⟨(set guard n true, r1), guard, ?_, hG, ?_, ?_, ?_⟩
    · simp only [visStep, hi]
      rw [← hguard]
      simp only [k1, if_pos h0, m1]
    · intro _
      obtain ⟨r', n', e1, e2, e3, e4, e5, -⟩ := h.inv.addNode C.toEnv q
      rw [m1] at e1
      cases e1
      exact ⟨n, m4, by simp [set_eq], e5⟩
    · rintro c ⟨n, hs⟩
      exact absurd hs (hno c n)
    · intro c c' n n' _ hs
      exact absurd hs (hno c n)
  · by_cases h1 : 1 < l.length
    · obtain ⟨s', m1, m2, m3, m4⟩ := connectDelayed_spec hC q l (s := (guard, s.2)) h (by
        intro d hd
        obtain ⟨c, -, hd'⟩ := k2 d hd
        obtain ⟨x, p, e1, e2, e3, e4, e5, e6, -⟩ := hd'.sees
        obtain ⟨v1, v2, v3⟩ := seePath_spec hC e5
        refine ⟨hd'.conf, by rw [e6]; exact hC.rev_valid p v1, ?_, ?_⟩
        · rw [e6, hC.rev_ini, v3]; exact e4
        · rw [e6, hC.rev_fin, v2])
      refine ⟨s', guard, ?_, hG, ?_, ?_, ?_⟩
      · simp only [visStep, hi]
        rw [← hguard]
        simp only [k1, if_neg h0, if_pos h1, m1]
      · intro hno
        obtain ⟨d, hd⟩ := List.exists_mem_of_length_pos (show 0 < l.length by omega)
        exact absurd (hsee d hd) (hno _ _)
      · rintro c - hone
        obtain ⟨d1, d2, l', rfl⟩ : ∃ d1 d2 l', l = d1 :: d2 :: l' := by
          match l, h1 with
          | d1 :: d2 :: l', _ => exact ⟨d1, d2, l', rfl⟩
        have e1 := hone _ _ (hsee d1 (by simp))
        have e2 := hone _ _ (hsee d2 (by simp))
        rw [List.pairwise_cons] at k4
        exact absurd (e1.trans e2.symm) (k4.1 d2 (by simp))
      · intro c c' n n' _ hs _
        obtain ⟨d, hd, hd'⟩ := k3 c (hlive c n hs) ⟨n, hs⟩
        obtain ⟨x, p, e1, e2, e3, e4, e5, e6, e7⟩ := hd'.sees
        obtain ⟨b, b1, b2, b3⟩ := m4 d hd
        refine ⟨d.1, b, x, p, b1, b2, b3, ⟨e1, e2, e3, x, p, e4, e5⟩, e4, e5, ?_⟩
        rintro m y p' ⟨q1, q2, q3, -⟩ hy hyp
        exact e7 m q1 q2 q3 y p' hy hyp
    · refine ⟨(guard, s.2), guard, ?_, hG, ?_, ?_, ?_⟩
      · simp only [visStep, hi]
        rw [← hguard]
        simp only [k1, if_neg h0, if_neg h1]
      · intro hno
        obtain ⟨d, hd⟩ := List.exists_mem_of_length_pos (show 0 < l.length by omega)
        exact absurd (hsee d hd) (hno _ _)
      · intros; rfl
      · intro c c' n n' hcc hs hs'
        obtain ⟨d, hd, hd'⟩ := k3 c (hlive c n hs) ⟨n, hs⟩
        obtain ⟨e, he, he'⟩ := k3 c' (hlive c' n' hs') ⟨n', hs'⟩
        obtain ⟨a, ha⟩ : ∃ a, l = [a] := List.length_eq_one_iff.1 (by omega)
        rw [ha] at hd he
        rw [List.mem_singleton.1 hd] at hd'
        rw [List.mem_singleton.1 he] at he'
        obtain ⟨x, p, -, e2, -⟩ := hd'.sees
        obtain ⟨x', p', -, e2', -⟩ := he'.sees
        exact absurd (e2.symm.trans e2') hcc

/-- C66: one step of Visibility-PRM keeps the roadmap good. -/
theorem C66_visibility (hC : Contract C Valid) (q : Q) {s : (Nat → Bool) × Roadmap Q P} (h : Good C Valid V s.2) {i : Nat} (hi : s.2.init = some i) :
    ∃ s', visStep C q s = .ok s' ∧ Good C Valid V s'.2 ∧ Ext s.2 s'.2 := by
  set guard := s.2.goals.foldl (fun g n => set g n true) (set s.1 i true) with hguard
  have hnd : s.2.live.Nodup := h.inv.wf.live_sorted.imp (fun h => ne_of_lt h)
  obtain ⟨l, k1, k2, k3, k4⟩ := visibleAll_spec (C := C) h.inv guard q s.2.live (fun _ hc => hc) hnd
  by_cases h0 : l.length = 0
  · obtain ⟨r1, n, m1, m2, m3, m4⟩ := h.addNode q
    refine ⟨(set guard n true, r1), ?_, m2, m3⟩
    simp only [visStep, hi]
    rw [← hguard]
    simp only [k1, if_pos h0, m1]
  · by_cases h1 : 1 < l.length
    · obtain ⟨s', m1, m2, m3, m4⟩ := connectDelayed_spec hC q l (s := (guard, s.2)) h (by
        intro d hd
        obtain ⟨c, -, hd'⟩ := k2 d hd
        obtain ⟨x, p, e1, e2, e3, e4, e5, e6, -⟩ := hd'.sees
        obtain ⟨v1, v2, v3⟩ := seePath_spec hC e5
        refine ⟨hd'.conf, by rw [e6]; exact hC.rev_valid p v1, ?_, ?_⟩
        · rw [e6, hC.rev_ini, v3]; exact e4
        · rw [e6, hC.rev_fin, v2])
      refine ⟨s', ?_, m2, m3⟩
      simp only [visStep, hi]
      rw [← hguard]
      simp only [k1, if_neg h0, if_pos h1, m1]
    · refine ⟨(guard, s.2), ?_, h, Ext.refl _⟩
      simp only [visStep, hi]
      rw [← hguard]
      simp only [k1, if_neg h0, if_neg h1]

/-! ## The whole planner -/

/-- Visibility-PRM with a sequence of accepted configurations; state: number of steps and status of the nodes. -/
def visibility (C : PEnv Q P K) (heur : Roadmap Q P → Nat → K) (q0 : Q) (gs : List Q) (sample : Nat → Q) :
    Calls ((Nat × (Nat → Bool)) × Roadmap Q P) (List P) PlanErr :=
  planCalls C heur
    (fun s => match startPlan C q0 gs (0, s.2) with
      | .error e => .error e
      | .ok s' => .ok (s.1, s'.2))
    (fun s => match visStep C (sample s.1.1) (s.1.2, s.2) with
      | .error e => .error (.road e)
      | .ok s' => .ok ((s.1.1 + 1, s'.1), s'.2))

/-- C67: the path returned by Visibility-PRM is a continuous sequence of validated paths from the init configuration to a goal configuration. -/
theorem C67_visibility (hC : Contract C Valid) (heur : Roadmap Q P → Nat → K) (q0 : Q) (gs : List Q) (sample : Nat → Q)
    {s : (Nat × (Nat → Bool)) × Roadmap Q P} (h : Good C Valid V s.2) (st : Settings K) (late intr : Nat → Bool) (fuel : Nat) (l : List P)
    (hl : solve (visibility C heur q0 gs sample) st late intr fuel s = .path l) : Solves C Valid q0 gs l := by
  obtain ⟨r1, h1, h2, h3⟩ := startPlan_spec hC q0 gs (s := (0, s.2)) h
  refine solve_solves C Valid heur _ _ q0 gs (fun s => Good C Valid V s.2 ∧ Tagged q0 gs s.2) (fun s hs => ⟨⟨V, hs.1⟩, hs.2⟩) s (s.1, r1)
    (by simp only [h1]) ⟨h2, h3⟩ ?_ st late intr fuel l hl
  rintro u u' ⟨k1, k2⟩ hu
  obtain ⟨i, hi, -⟩ := k2.init
  obtain ⟨s', m1, m2, m3⟩ := C66_visibility hC (sample u.1.1) (s := (u.1.2, u.2)) k1 hi
  simp only [m1] at hu
  cases hu
  exact ⟨m2, k2.mono m3⟩

/-- C67: Visibility-PRM throws only for the limits and for `interrupt()` when no node of the roadmap was inserted one-way. -/
theorem C67_visibility_noError (hC : Contract C Valid) (heur : Roadmap Q P → Nat → K) (q0 : Q) (gs : List Q) (sample : Nat → Q)
    (hq : ∀ q, C.steer q q ≠ none) {s : (Nat × (Nat → Bool)) × Roadmap Q P} (h : Good C Valid [] s.2) (st : Settings K) (late intr : Nat → Bool)
    (fuel : Nat) (e : PlanErr) : solve (visibility C heur q0 gs sample) st late intr fuel s ≠ .error e := by
  obtain ⟨r1, h1, h2, h3⟩ := startPlan_spec hC q0 gs (s := (0, s.2)) h
  refine solve_noError C Valid heur _ _ q0 gs (fun s => Good C Valid [] s.2 ∧ Tagged q0 gs s.2) (fun s hs => hs) s (s.1, r1)
    (by simp only [h1]) ⟨h2, h3⟩ ?_ hq st late intr fuel e
  rintro u ⟨k1, k2⟩
  obtain ⟨i, hi, -⟩ := k2.init
  obtain ⟨s', m1, m2, m3⟩ := C66_visibility hC (sample u.1.1) (s := (u.1.2, u.2)) k1 hi
  exact ⟨((u.1.1 + 1, s'.1), s'.2), by simp only [m1], m2, k2.mono m3⟩

/-- a problem solved through one configuration seen by the init and goal nodes -/
example : Line.out (solve (visibility Line.env (fun _ _ => 0) 0 [5] (fun n => if n = 0 then -7 else 3)) (Settings.default (K := Int))
    (fun _ => false) (fun _ => false) 10 ((0, fun _ => false), Roadmap.empty)) = some [(0, 3), (3, 5)] := by decide +kernel

end Verif.Planner
