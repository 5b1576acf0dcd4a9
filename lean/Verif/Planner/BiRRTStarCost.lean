import Verif.Planner.Closed
set_option linter.unusedSectionVars false

/-!
# BiRRT*: costs during a whole resolution (C83)

The parents computed anew when the trees have met are those of shortest paths among the edges *listed around the nodes*.  `Roadmap::addEdge` does not list
an edge between two nodes that are already neighbours, so a parent could be an edge that the computation does not see.  This does not happen: while there are two trees, the parents are
edges listed around the nodes, and no cost increases from the beginning of the resolution to its end.
-/
namespace Verif.Planner.Star
open Verif.Roadmap Verif.Planner Relation
variable {Q P K : Type} [DecidableEq Q] [AddCommGroup K] [LinearOrder K] [IsOrderedAddMonoid K]
  {C : SEnv Q P K} {Valid : P → Prop} {r r' : Roadmap Q P} {m m' : PMap P} {root : Nat}

/-! ## Edges of the roadmap -/

/-- The parents are edges listed around the nodes. -/
def Listed (r : Roadmap Q P) (m : PMap P) : Prop := ∀ n e, m n = some (some e) → e ∈ r.out e.src

/-- Each edge has an edge in the other direction. -/
def Paired (r : Roadmap Q P) : Prop := ∀ e ∈ r.edges, HasEdge r e.dst e.src

/-- No edge is listed from `a` to `b`. -/
def NoOut (r : Roadmap Q P) (a b : Nat) : Prop := ∀ e ∈ r.out a, e.dst ≠ b

/-- What the insertion of an edge does to the lists. -/
structure EdgeAdded (r r' : Roadmap Q P) (e : Edge P) : Prop where
  configs : r'.configs = r.configs
  edges : r'.edges = r.edges ++ [e]
  keep : ∀ n, ∀ f ∈ r.out n, f ∈ r'.out n
  only : ∀ n, ∀ f ∈ r'.out n, f ∈ r.out n ∨ (n = e.src ∧ f = e)
  listed : NoOut r e.src e.dst → e ∈ r'.out e.src

omit [DecidableEq Q] in
theorem addEdge_added {a b : Nat} {p : P} (k : addEdge r a b p = .ok r') : EdgeAdded r r' ⟨r.edges.length, a, b, p⟩ := by
  by_cases hb : (decide (r.configs.length ≤ a) || decide (r.configs.length ≤ b)) = true
  · unfold Roadmap.addEdge at k
    rw [if_pos hb] at k
    simp [throw, throwThe, MonadExceptOf.throw, bind, Except.bind] at k
  · have k' : ((if (!isOutNeighbor r a b) = true then addOutEdge r ⟨r.edges.length, a, b, p⟩ else pure r) >>= fun r1 =>
        (if (!isInNeighbor r1 b a) = true then addInEdge r1 ⟨r.edges.length, a, b, p⟩ else pure r1) >>= fun r2 =>
          implAddEdge r2 ⟨r.edges.length, a, b, p⟩) = .ok r' := by
      rw [← k]
      unfold Roadmap.addEdge
      rw [if_neg hb]
      dsimp only
      split <;> (apply bind_congr; intro r1; split <;> rfl)
    clear k
    obtain ⟨r1, k1, k⟩ := bind_ok k'
    obtain ⟨r2, k2, k⟩ := bind_ok k
    have h1 : r1.configs = r.configs ∧ r1.edges = r.edges ∧ (r1.out = r.out ∧ ¬ NoOut r a b ∨ r1.out = set r.out a (r.out a ++ [⟨r.edges.length, a, b, p⟩])) := by
      split at k1
      · unfold addOutEdge at k1
        split at k1
        · simp at k1
        · cases k1; exact ⟨rfl, rfl, Or.inr rfl⟩
      · next hn =>
        cases k1
        refine ⟨rfl, rfl, Or.inl ⟨rfl, fun hh => hn ?_⟩⟩
        rw [Bool.not_eq_true', Bool.eq_false_iff]
        intro h2
        simp only [isOutNeighbor, List.any_eq_true, beq_iff_eq] at h2
        obtain ⟨x, hx, hx'⟩ := h2
        exact hh x hx hx'
    have h2 : r2.configs = r1.configs ∧ r2.edges = r1.edges ∧ r2.out = r1.out := by
      split at k2
      · unfold addInEdge at k2
        split at k2
        · simp at k2
        · cases k2; exact ⟨rfl, rfl, rfl⟩
      · cases k2; exact ⟨rfl, rfl, rfl⟩
    unfold implAddEdge at k
    have hs := connect_same k
    obtain ⟨a1, a2, a3⟩ := h1
    obtain ⟨b1, b2, b3⟩ := h2
    have ho : r'.out = r1.out := by rw [hs.out]; exact b3
    refine ⟨by rw [hs.configs]; show r2.configs = _; rw [b1, a1], by rw [hs.edges]; show r2.edges ++ _ = _; rw [b2, a2], ?_, ?_, ?_⟩
    · intro n f hf
      rw [ho]
      rcases a3 with ⟨a3, -⟩ | a3
      · rw [a3]; exact hf
      · rw [a3]
        by_cases hn : n = a
        · subst hn; rw [set_eq]; exact List.mem_append_left _ hf
        · rw [set_ne _ _ hn]; exact hf
    · intro n f hf
      rw [ho] at hf
      rcases a3 with ⟨a3, -⟩ | a3
      · rw [a3] at hf; exact Or.inl hf
      · rw [a3] at hf
        by_cases hn : n = a
        · subst hn
          rw [set_eq] at hf
          rcases List.mem_append.1 hf with hf | hf
          · exact Or.inl hf
          · exact Or.inr ⟨rfl, List.mem_singleton.1 hf⟩
        · rw [set_ne _ _ hn] at hf; exact Or.inl hf
    · intro hno
      rcases a3 with ⟨-, a3⟩ | a3
      · exact absurd hno a3
      · rw [ho, a3, set_eq]; simp

omit [DecidableEq Q] in
theorem newEdge_added {a b : Nat} {p : P} {e : Edge P} (k : newEdge r a b p = .ok (r', e)) : EdgeAdded r r' e ∧ e.src = a ∧ e.dst = b := by
  unfold newEdge at k
  split at k
  · simp at k
  · next k' => cases k; exact ⟨addEdge_added k', rfl, rfl⟩

omit [DecidableEq Q] in
theorem setParent_eq {n : Nat} {e : Option (Edge P)} {b : Bool} (k : setParent m n e b = .ok m') : m' = set m n (some e) := by
  unfold setParent at k
  split at k
  · simp at k
  · split at k
    · simp at k
    · cases k; rfl

/-- An edge and its reverse. -/
theorem pair_added {a b : Nat} {p p' : P} {r1 r2 : Roadmap Q P} {e1 e2 : Edge P} (k1 : newEdge r a b p = .ok (r1, e1)) (k2 : newEdge r1 b a p' = .ok (r2, e2)) :
    (∀ n, ∀ f ∈ r.out n, f ∈ r2.out n) ∧ (∀ n, ∀ f ∈ r2.out n, f ∈ r.out n ∨ (f.src = n ∧ (n = a ∧ f.dst = b ∨ n = b ∧ f.dst = a))) ∧
    (NoOut r a b → e1 ∈ r2.out a) ∧ (a ≠ b → NoOut r b a → e2 ∈ r2.out b) ∧ (Paired r → Paired r2) := by
  obtain ⟨h1, s1, d1⟩ := newEdge_added k1
  obtain ⟨h2, s2, d2⟩ := newEdge_added k2
  refine ⟨fun n f hf => h2.keep n f (h1.keep n f hf), ?_, ?_, ?_, ?_⟩
  · intro n f hf
    rcases h2.only n f hf with hf | ⟨h3, rfl⟩
    · rcases h1.only n f hf with hf | ⟨h3, rfl⟩
      · exact Or.inl hf
      · exact Or.inr ⟨h3.symm, Or.inl ⟨by rw [h3, s1], d1⟩⟩
    · exact Or.inr ⟨h3.symm, Or.inr ⟨by rw [h3, s2], d2⟩⟩
  · intro hno
    have := h1.listed (by rw [s1, d1]; exact hno)
    rw [s1] at this
    exact h2.keep _ _ this
  · intro hab hno
    have := h2.listed (by
      rw [s2, d2]
      intro f hf
      rcases h1.only b f hf with hf | ⟨h3, rfl⟩
      · exact hno f hf
      · rw [s1] at h3; exact absurd h3.symm hab)
    rw [s2] at this
    exact this
  · intro hp e he
    have hmem : e1 ∈ r2.edges ∧ e2 ∈ r2.edges := by rw [h2.edges, h1.edges]; simp
    rw [h2.edges, h1.edges] at he
    simp only [List.append_assoc, List.mem_append, List.mem_singleton] at he
    rcases he with he | rfl | rfl
    · obtain ⟨f, f1, f2, f3⟩ := hp e he
      exact ⟨f, by rw [h2.edges, h1.edges]; simp [f1], f2, f3⟩
    · exact ⟨e2, hmem.2, by rw [s2, d1], by rw [d2, s1]⟩
    · exact ⟨e1, hmem.1, by rw [s1, d2], by rw [d1, s2]⟩

/-! ## The functions of the planner -/

theorem scan_nodes {configs : List Q} {cost : Nat → Except SErr K} {q : Q} {cmp : Scan P K → Nat × P} (l : List Nat) {s s' : Scan P K}
    (k : scan C.toPEnv configs cost q cmp l s = .ok s') : s'.paths.map (·.1) = s.paths.map (·.1) ++ l := by
  induction l generalizing s with
  | nil => rw [scan] at k; cases k; simp
  | cons n ns ih =>
    rw [scan] at k
    split at k
    · rw [ih k]; simp
    · split at k
      · simp at k
      · split at k
        · rw [ih k]; simp
        · simp at k
        · split at k
          · simp at k
          · split at k
            · split at k
              · rw [ih k]; simp
              · rw [ih k]; simp
            · rw [ih k]; simp

theorem rewire_listed {nnew near : Nat} {costq : K} (l : List (Entry P)) (k : rewire C.toPEnv nnew near costq l r m = .ok (r', m')) :
    (Paired r → Paired r') ∧ (∀ n, ∀ f ∈ r.out n, f ∈ r'.out n) ∧
    (Listed r m → (l.map (·.1)).Nodup → (∀ x ∈ l, x.1 ≠ near → x.1 ≠ nnew ∧ NoOut r nnew x.1) → Listed r' m') := by
  induction l generalizing r m with
  | nil => rw [rewire] at k; cases k; exact ⟨id, fun _ _ h => h, fun h _ _ => h⟩
  | cons x l ih =>
    obtain ⟨n, b, p⟩ := x
    have skip : rewire C.toPEnv nnew near costq l r m = .ok (r', m') → (Paired r → Paired r') ∧ (∀ n, ∀ f ∈ r.out n, f ∈ r'.out n) ∧
        (Listed r m → (((n, b, p) :: l).map (·.1)).Nodup → (∀ x ∈ (n, b, p) :: l, x.1 ≠ near → x.1 ≠ nnew ∧ NoOut r nnew x.1) → Listed r' m') := by
      intro k
      obtain ⟨i1, i2, i3⟩ := ih k
      refine ⟨i1, i2, fun h1 h2 h3 => i3 h1 ?_ (fun x hx => h3 x (by simp [hx]))⟩
      simp only [List.map_cons, List.nodup_cons] at h2
      exact h2.2
    cases p with
    | none => rw [rewire] at k; exact skip k
    | some p =>
      rw [rewire] at k
      split at k
      · exact skip k
      · next hne =>
        split at k
        · simp at k
        · split at k
          · split at k
            · simp at k
            · next r1 e1 k1 =>
              split at k
              · simp at k
              · next r2 e2 k2 =>
                split at k
                · simp at k
                · next m1 k3 =>
                  obtain ⟨i1, i2, i3⟩ := ih k
                  obtain ⟨a1, a2, a3, a4, a5⟩ := pair_added k1 k2
                  obtain ⟨-, s2, d2⟩ := newEdge_added k2
                  refine ⟨fun h => i1 (a5 h), fun y f hf => i2 y f (a1 y f hf), fun h1 h2 h3 => ?_⟩
                  simp only [List.map_cons, List.nodup_cons] at h2
                  obtain ⟨hn1, hn2⟩ := h3 _ (List.mem_cons_self ..) hne
                  refine i3 ?_ h2.2 ?_
                  · rw [setParent_eq k3]
                    intro y e hy
                    by_cases hyn : y = n
                    · subst hyn
                      rw [set_eq] at hy
                      cases hy
                      rw [s2]
                      exact a4 hn1 hn2
                    · rw [set_ne _ _ hyn] at hy
                      exact a1 _ _ (h1 y e hy)
                  · intro x hx hxn
                    obtain ⟨g1, g2⟩ := h3 x (by simp [hx]) hxn
                    refine ⟨g1, fun f hf => ?_⟩
                    rcases a2 _ f hf with hf | ⟨-, ⟨g3, -⟩ | ⟨-, g3⟩⟩
                    · exact g2 f hf
                    · exact absurd g3.symm hn1
                    · rw [g3]
                      intro hh
                      exact h2.1 (by rw [show n = x.1 from hh]; exact List.mem_map_of_mem hx)
          · exact skip k

theorem attach_listed {nnew : Nat} {s : Scan P K} {b : Bool} (k : attach C.toPEnv nnew s r m = .ok (r', m', b)) :
    (Paired r → Paired r') ∧ (∀ n, ∀ f ∈ r.out n, f ∈ r'.out n) ∧
    (Listed r m → (s.paths.map (·.1)).Nodup → (m nnew = none → s.near ≠ nnew ∧ NoOut r s.near nnew ∧ ∀ x ∈ s.paths, x.1 ≠ nnew ∧ NoOut r nnew x.1) → Listed r' m') := by
  unfold attach at k
  split at k
  · simp at k
  · next r1 e1 k1 =>
    split at k
    · simp at k
    · next r2 e2 k2 =>
      obtain ⟨a1, a2, a3, a4, a5⟩ := pair_added k1 k2
      obtain ⟨-, s1, d1⟩ := newEdge_added k1
      split at k
      · cases k
        exact ⟨a5, a1, fun h _ _ n e he => a1 _ _ (h n e he)⟩
      · next hm =>
        have hm : m nnew = none := not_not.1 hm
        split at k
        · simp at k
        · next m1 k3 =>
          split at k
          · simp at k
          · next r3 m2 k4 =>
            cases k
            obtain ⟨i1, i2, i3⟩ := rewire_listed _ k4
            refine ⟨fun h => i1 (a5 h), fun y f hf => i2 y f (a1 y f hf), fun h1 h2 h3 => ?_⟩
            obtain ⟨g1, g2, g3⟩ := h3 hm
            refine i3 ?_ h2 ?_
            · rw [setParent_eq k3]
              intro y e hy
              by_cases hyn : y = nnew
              · subst hyn
                rw [set_eq] at hy
                cases hy
                rw [s1]
                exact a3 g2
              · rw [set_ne _ _ hyn] at hy
                exact a1 _ _ (h1 y e hy)
            · intro x hx hxn
              obtain ⟨j1, j2⟩ := g3 x hx
              refine ⟨j1, fun f hf => ?_⟩
              rcases a2 _ f hf with hf | ⟨-, ⟨j3, -⟩ | ⟨-, j3⟩⟩
              · exact j2 f hf
              · exact absurd j3.symm g1
              · rw [j3]; exact fun hh => hxn hh.symm

omit [IsOrderedAddMonoid K] in
theorem addNode_out (h : Good C.toPEnv Valid [] r) {q : Q} {n : Nat} (k : addNode C.toEnv r q = .ok (r', n)) :
    r'.edges = r.edges ∧ (∀ x, ∀ f ∈ r'.out x, f ∈ r.out x) ∧ (∀ x, x < r.configs.length → r'.out x = r.out x) ∧ (n = r.configs.length → r'.out n = []) := by
  obtain ⟨r1, n1, h1, -, -, -, h5, -, -, h8⟩ := h.inv.addNode C.toEnv q
  rw [k] at h1
  cases h1
  refine ⟨h5, ?_⟩
  rcases h8 with ⟨rfl, hn⟩ | ⟨rfl, rfl, -⟩
  · exact ⟨fun _ _ hf => hf, fun _ _ => rfl, fun hh => by omega⟩
  · have : (pushNewNode r q).1.out = set r.out r.configs.length [] := rfl
    rw [this]
    refine ⟨?_, ?_, fun _ => set_eq _ _ _⟩
    · intro x f hf
      by_cases hx : x = r.configs.length
      · subst hx; rw [set_eq] at hf; simp at hf
      · rw [set_ne _ _ hx] at hf; exact hf
    · intro x hx
      rw [set_ne _ _ (by omega)]

omit [DecidableEq Q] in
/-- In a roadmap whose edges come with their reverse, an edge stays in its component. -/
theorem Paired.cc (hp : Paired r) (h : Inv [] r) {e : Edge P} (he : e ∈ r.edges) : r.cc e.src = r.cc e.dst := by
  obtain ⟨l1, l2⟩ := h.adj.ends e he
  exact (same_iff h l1 l2).2 ⟨ReflTransGen.single ⟨e, he, rfl, rfl⟩, ReflTransGen.single (hp e he)⟩

theorem extend_listed (hC : SContract C Valid) (h : Good C.toPEnv Valid [] r) (hp : Paired r) {a b : Nat} {ma mb m' : PMap P} (S : Split C.len r a b ma mb) {q q' : Q} {f : Bool}
    (k : extend C a q r ma = .ok (r', m', q', f)) : Paired r' ∧ (Listed r mb → Listed r' mb) ∧ (Listed r ma → Listed r' m') := by
  have hlive := h.inv.wf.cc_live a S.la
  unfold extend at k
  obtain ⟨d, near, x, h1, h2, h3⟩ := search_good (C := C.toPEnv) h.inv q hlive false
  rw [h1] at k
  simp only at k
  split at k
  · cases k; exact ⟨hp, id, id⟩
  · rw [h2] at k
    simp only at k
    split at k
    · cases k; exact ⟨hp, id, id⟩
    · next p hb =>
      split at k
      · cases k; exact ⟨hp, id, id⟩
      · next hl =>
        split at k
        · simp at k
        · next c hc =>
          split at k
          · simp at k
          · next s ks =>
            split at k
            · simp at k
            · next r1 nnew ka =>
              split at k
              · simp at k
              · next r2 m2 f2 kt =>
                cases k
                obtain ⟨p1, p2⟩ := buildPath_valid hC.base hb
                have hv := p2 (lt_of_lt_of_le hC.minLen (not_lt.1 hl))
                have hnear : ma near ≠ none := (S.ha.dom near).2 ⟨lt_of_get h2, h3⟩
                obtain ⟨dn, c', hc', hu⟩ := S.ha.tree.cost hnear
                rw [hc] at hc'
                cases hc'
                obtain ⟨s', s1, s2, s3⟩ := scan_spec hC S.ha.tree (C.fin p) (cmp := fun s => (s.near, s.path)) (fun s hs => hs.best)
                  (ball C.toPEnv r (C.fin p) (r.cc a) (C.radius r.configs.length)) ⟨near, p, c + C.len p, []⟩
                  ⟨⟨by rw [p1]; exact h2, rfl, fun _ => hv⟩, ⟨dn, c, hu, rfl⟩, by simp⟩
                  (fun n hn => (S.ha.dom n).2 (h.inv.wf.owned _ hlive n (ball_mem hn)))
                rw [ks] at s1
                cases s1
                have hsn : ma s.near ≠ none := by
                  obtain ⟨d1, c1, hu1, -⟩ := s2.cost
                  exact hu1.mem
                have hpaths := scan_nodes _ ks
                simp only [List.map_nil, List.nil_append] at hpaths
                obtain ⟨o1, o2, o3, o4⟩ := addNode_out h ka
                obtain ⟨t1, t2, t3⟩ := attach_listed kt
                have hkeep : ∀ mx : PMap P, Listed r mx → Listed r1 mx := by
                  intro mx hx n e he
                  have h1 := hx n e he
                  rw [o3 _ (h.inv.adj.ends e (h.inv.adj.outOk _ e h1).2).1]
                  exact h1
                have hp1 : Paired r1 := by
                  intro e he
                  rw [o1] at he
                  obtain ⟨g, g1, g2⟩ := hp e he
                  exact ⟨g, by rw [o1]; exact g1, g2⟩
                have hstay : ∀ e ∈ r.edges, ma e.src ≠ none ↔ ma e.dst ≠ none := by
                  intro e he
                  obtain ⟨l1, l2⟩ := h.inv.adj.ends e he
                  rw [S.ha.dom, S.ha.dom, hp.cc h.inv he]
                  simp [l1, l2]
                refine ⟨t1 hp1, fun hx n e he => t2 _ _ (hkeep mb hx n e he), fun hx => t3 (hkeep ma hx) ?_ ?_⟩
                · rw [hpaths]
                  exact List.Nodup.sublist (NN.C17_withinBall _ _ _).1 (h.inv.wf.nodup _ hlive)
                · intro hm
                  refine ⟨fun hh => hsn (by rw [hh]; exact hm), ?_, ?_⟩
                  · intro g hg hgd
                    obtain ⟨g1, g2⟩ := h.inv.adj.outOk _ g (o2 _ g hg)
                    exact (hstay g g2).1 (by rw [g1]; exact hsn) (by rw [hgd]; exact hm)
                  · intro y hy
                    have hy' : ma y.1 ≠ none := by
                      have : y.1 ∈ s.paths.map (·.1) := List.mem_map_of_mem hy
                      rw [hpaths] at this
                      exact (S.ha.dom _).2 (h.inv.wf.owned _ hlive _ (ball_mem this))
                    refine ⟨fun hh => hy' (by rw [hh]; exact hm), ?_⟩
                    intro g hg hgd
                    obtain ⟨g1, g2⟩ := h.inv.adj.outOk _ g (o2 _ g hg)
                    exact (hstay g g2).2 (by rw [hgd]; exact hy') (by rw [g1]; exact hm)

theorem connectLoop_listed (hC : SContract C Valid) (f : Nat) (h : Good C.toPEnv Valid [] r) (hp : Paired r) {a b : Nat} {ma mb m' : PMap P}
    (S : Split C.len r a b ma mb) {q : Q} {ok : Bool} (k : connectLoop C a q f r ma = .ok (r', m', ok)) :
    Paired r' ∧ (Listed r mb → Listed r' mb) ∧ (Listed r ma → Listed r' m') := by
  induction f generalizing r ma with
  | zero => rw [connectLoop] at k; simp at k
  | succ f ih =>
    rw [connectLoop, if_pos (live_two h.inv.wf S.la S.lb S.ne S.cover)] at k
    obtain ⟨r1, m1, q1, ok1, h1, h2, h3, h4, h5, h6⟩ := extend_spec hC h S q
    obtain ⟨e1, e2, e3⟩ := extend_listed hC h hp S h1
    rw [h1] at k
    cases ok1 with
    | false => simp only at k; cases k; exact ⟨e1, e2, e3⟩
    | true =>
      simp only at k
      rcases h6 with hh | ⟨-, hh⟩
      · obtain ⟨i1, i2, i3⟩ := ih h2 e1 hh k
        exact ⟨i1, fun hx => i2 (e2 hx), fun hx => i3 (e3 hx)⟩
      · cases f with
        | zero => rw [connectLoop] at k; simp at k
        | succ f =>
          have la' := lt_of_lt_of_le S.la h3.grow.length
          rw [connectLoop, if_neg (by rw [live_one h2.inv.wf la' (fun x hx => hh x a hx la')]; decide)] at k
          cases k
          exact ⟨e1, e2, e3⟩

/-! ## Steps -/

/-- Edges come with their reverse; until the parents are computed again, they are listed around the nodes. -/
structure Seen (r : Roadmap Q P) (t : Trees P) : Prop where
  paired : r.live.length = 2 → Paired r
  listed : t.map1 t.root0 = none → Listed r t.map0 ∧ Listed r t.map1

omit [DecidableEq Q] in
/-- The path up a tree is a walk along the listed edges. -/
theorem Listed.walk {len : P → K} (hl : Listed r m) (hT : Tree len r m root) {n d : Nat} {c : K} (hu : Up len m root n d c) :
    ∃ es, AStar.Walk r.out root es n ∧ AStar.total len es = c := by
  induction hu with
  | root _ => exact ⟨[], .nil _, by simp [AStar.total]⟩
  | @step n d e c h0 _ ih =>
    obtain ⟨es, h1, h2⟩ := ih
    obtain ⟨k1, k2⟩ := hT.edge _ _ h0
    refine ⟨es ++ [e], ?_, by simp only [AStar.total, List.map_append, List.sum_append] at *; rw [h2]; simp⟩
    have he : AStar.Walk r.out e.src [e] e.dst := .cons (hl _ _ h0) (.nil _)
    rw [← k2]
    exact h1.append he

/-- The costs of the parents computed again are not greater than those of a tree whose edges are listed. -/
theorem computeParentMap_better (hC : SContract C Valid) {pop : List (WNode P K) → Option (WNode P K × List (WNode P K))} (hp : PopOk pop)
    (h : Good C.toPEnv Valid [] r) (hJ : Joined r) (hr : root < r.configs.length) {f : Nat} {m m0 : PMap P} (hm : computeParentMap C.len r.out pop f root = some m)
    (hT : Tree C.len r m0 root) (hl : Listed r m0) : Better C.len m0 m root := by
  obtain ⟨F, m1, h1, h2, h3, h4⟩ := C84_computeParentMap h.inv hC.nonneg hp hr
  have := computeParentMap_mono hm (le_max_left f F)
  rw [h1 _ (le_max_right f F)] at this
  rw [← Option.some.inj this]
  intro n d c hu
  obtain ⟨es, w1, w2⟩ := hl.walk hT hu
  have hn : NodeReach r root n := ((same_iff h.inv hr (hT.dom n hu.mem)).1 (hJ root n hr (hT.dom n hu.mem))).1
  obtain ⟨c', c1, -, c3⟩ := h4 n hn
  obtain ⟨d', c'', u1, u2⟩ := h2.cost ((h3 n).2 hn)
  rw [c1] at u1
  rw [← Except.ok.inj u1] at u2
  exact ⟨d', c', u2, by rw [← w2]; exact c3 es w1⟩

/-- C83: no step increases the cost to reach a node from a root, including the step that computes the parents again. -/
theorem C83_costs (hC : SContract C Valid) {pop : List (WNode P K) → Option (WNode P K × List (WNode P K))} (hp : PopOk pop) {t t' : Trees P} (h : SInv C Valid r t)
    (hs : Seen r t) (w : Draw Q) (fc fp : Nat) (k : oneStep C pop fc fp w r t = .ok (r', t')) : Improves C.len t t' ∧ Seen r' t' := by
  have one : ∀ {r : Roadmap Q P} {x : Nat}, Good C.toPEnv Valid [] r → x < r.configs.length → Joined r → r.live.length = 1 :=
    fun hg hx hJ => live_one hg.inv.wf hx (fun y hy => hJ y _ hy hx)
  have spec := C83_step_partial hC hp h w fc
  obtain ⟨F, hF⟩ := spec
  obtain ⟨inv', ext, hroots, himp⟩ : SInv C Valid r' t' ∧ Ext r r' ∧ SameRoots t t' ∧ (¬ Pending r t → Improves C.len t t') := by
    rcases hF fp with ⟨r1, t1, a1, a2, a3, a4, a5⟩ | ⟨a1, -⟩ | ⟨a1, -⟩
    · rw [k] at a1; cases a1; exact ⟨a2, a3, a4, a5⟩
    · rw [k] at a1; simp at a1
    · rw [k] at a1; simp at a1
  have hfull : Joined r → ∀ (t1 : Trees P) (q : Q), t1.root0 = t.root0 → t1.root1 = t.root1 → Full C.len r t1.map0 t1.root0 → Full C.len r t1.map1 t1.root1 →
      improve C q r t1 = .ok (r', t') → t'.root0 = t.root0 ∧ t'.root1 = t.root1 ∧ Better C.len t1.map0 t'.map0 t.root0 ∧ Better C.len t1.map1 t'.map1 t.root1 ∧ Seen r' t' := by
    intro hJ t1 q e0 e1 f0 f1 hi
    obtain ⟨r2, t2, k1, k2, k3, k4, k5, k6, k7, k8, k9, k10⟩ := improve_spec hC h.good f0 f1 (by rw [e0]; exact h.l0) hJ q
    rw [hi] at k1
    cases k1
    refine ⟨by rw [k5, e0], by rw [k6, e1], by rw [← e0]; exact k9, by rw [← e1]; exact k10, ?_, ?_⟩
    · intro h2
      rw [one k2 (lt_of_lt_of_le h.l0 k3.grow.length) k4] at h2
      simp at h2
    · intro hh
      refine absurd hh (k8.dom _ ?_)
      rw [k5, e0]; exact lt_of_lt_of_le h.l0 k3.grow.length
  rcases h.phase with S | ⟨hJ, hm⟩ | ⟨hJ, f0, f1⟩
  · have h2 := live_two h.good.inv.wf S.la S.lb S.ne S.cover
    refine ⟨himp (fun hh => by rw [hh.1] at h2; simp at h2), ?_⟩
    have hm1 : t.map1 t.root0 = none := by
      by_contra hh
      exact S.ne ((S.hb.dom _).1 hh).2
    obtain ⟨L0, L1⟩ := hs.listed hm1
    have hpr := hs.paired h2
    unfold oneStep at k
    split at k
    · simp at k
    · next q hq =>
      rw [if_pos h2] at k
      obtain ⟨r1, m0, q1, ok, k1, k2, k3, k4, k5, k6⟩ := extend_spec hC h.good S q
      obtain ⟨e1, e2, e3⟩ := extend_listed hC h.good hpr S k1
      rw [k1] at k
      cases ok with
      | false => simp only at k; cases k; exact ⟨fun _ => e1, fun _ => ⟨e2 L1, e3 L0⟩⟩
      | true =>
        simp only at k
        split at k
        · cases k; exact ⟨fun _ => e1, fun _ => ⟨e3 L0, e2 L1⟩⟩
        · next hcc =>
          split at k
          · simp at k
          · next r2 m1 ok k7 =>
            cases k
            rcases k6 with k6 | ⟨-, k6⟩
            · obtain ⟨g1, g2, g3⟩ := connectLoop_listed hC fc k2 e1 k6.symm k7
              exact ⟨fun _ => g1, fun _ => ⟨g3 (e2 L1), g2 (e3 L0)⟩⟩
            · exact absurd (k6 _ _ (lt_of_lt_of_le h.l0 k3.grow.length) (lt_of_lt_of_le h.l1 k3.grow.length)) hcc
  · have h1 := one h.good h.l0 hJ
    obtain ⟨L0, L1⟩ := hs.listed hm
    unfold oneStep at k
    split at k
    · simp at k
    · next q hq =>
      rw [if_neg (by rw [h1]; decide), if_pos hm] at k
      split at k
      · next m0 m1 e0 e1 =>
        obtain ⟨F0, hF0⟩ := computeParentMap_full hC hp h.good hJ h.l0
        obtain ⟨F1, hF1⟩ := computeParentMap_full hC hp h.good hJ h.l1
        obtain ⟨j1, j2, j3, j4, j5⟩ := hfull hJ ⟨t.root0, t.root1, m0, m1⟩ q rfl rfl ((hF0 fp).2 m0 e0) ((hF1 fp).2 m1 e1) k
        exact ⟨Or.inl ⟨j1, j2, (computeParentMap_better hC hp h.good hJ h.l0 e0 h.tree0 L0).trans j3,
          (computeParentMap_better hC hp h.good hJ h.l1 e1 h.tree1 L1).trans j4⟩, j5⟩
      · simp at k
  · have h1 := one h.good h.l0 hJ
    unfold oneStep at k
    split at k
    · simp at k
    · next q hq =>
      rw [if_neg (by rw [h1]; decide), if_neg (f1.dom _ h.l0)] at k
      obtain ⟨j1, j2, j3, j4, j5⟩ := hfull hJ t q rfl rfl f0 f1 k
      exact ⟨Or.inl ⟨j1, j2, j3, j4⟩, j5⟩

/-! ## Resolution -/

omit [AddCommGroup K] [IsOrderedAddMonoid K] in
theorem futureEdges_ends [Zero K] {E : PEnv Q P K} {fwd : Bool} {n : Nat} (cs : List Nat) {l : List (Nat × Nat × P)} (k : futureEdges E r fwd n cs = .ok l) :
    ∀ x ∈ l, (fwd = true → x.1 = n) ∧ (fwd = false → x.2.1 = n) := by
  induction cs generalizing l with
  | nil => rw [futureEdges] at k; cases k; simp
  | cons c cs ih =>
    rw [futureEdges] at k
    split at k
    · simp at k
    · next y hy =>
      split at k
      · simp at k
      · next l' hl' =>
        cases k
        intro x hx
        rcases List.mem_append.1 hx with hx | hx
        · unfold futureEdge at hy
          split at hy
          · cases hy; simp at hx
          · split at hy
            · simp at hy
            · split at hy
              · simp at hy
              · split at hy
                · simp at hy
                · split at hy
                  · next hf =>
                    cases hy
                    simp only [Option.mem_toList, Option.map_eq_some_iff] at hx
                    obtain ⟨p, -, rfl⟩ := hx
                    exact ⟨fun _ => rfl, fun hh => by rw [hf] at hh; simp at hh⟩
                  · next hf =>
                    cases hy
                    simp only [Option.mem_toList, Option.map_eq_some_iff] at hx
                    obtain ⟨p, -, rfl⟩ := hx
                    exact ⟨fun hh => absurd hh hf, fun _ => rfl⟩
        · exact ih hl' x hx

omit [AddCommGroup K] [IsOrderedAddMonoid K] in
theorem goalEdges_ends [Zero K] {E : PEnv Q P K} (gs : List Nat) {l : List (Nat × Nat × P)} (k : goalEdges E r gs = .ok l) : ∀ x ∈ l, x.2.1 ∈ gs := by
  induction gs generalizing l with
  | nil => rw [goalEdges] at k; cases k; simp
  | cons g gs ih =>
    rw [goalEdges] at k
    split at k
    · simp at k
    · next l1 h1 =>
      split at k
      · simp at k
      · next l2 h2 =>
        cases k
        intro x hx
        rcases List.mem_append.1 hx with hx | hx
        · rw [(futureEdges_ends _ h1 x hx).2 rfl]; simp
        · exact List.mem_cons_of_mem _ (ih h2 x hx)

omit [DecidableEq Q] in
theorem addAll_edges (l : List (Nat × Nat × P)) (k : addAll l r = .ok r') : ∀ e ∈ r'.edges, e ∈ r.edges ∨ ∃ x ∈ l, e.src = x.1 ∧ e.dst = x.2.1 := by
  induction l generalizing r with
  | nil => rw [addAll] at k; cases k; exact fun e he => Or.inl he
  | cons x l ih =>
    obtain ⟨a, b, p⟩ := x
    rw [addAll] at k
    split at k
    · simp at k
    · next r1 k1 =>
      intro e he
      rcases ih k e he with he | ⟨x, hx, hx'⟩
      · rw [(addEdge_added k1).edges] at he
        rcases List.mem_append.1 he with he | he
        · exact Or.inl he
        · rw [List.mem_singleton.1 he]; exact Or.inr ⟨_, List.mem_cons_self .., rfl, rfl⟩
      · exact Or.inr ⟨x, List.mem_cons_of_mem _ hx, hx'⟩

/-- The edges inserted by the direct connection start at the init node or end at a goal node. -/
theorem tryConnect_edges {E : PEnv Q P K} {i : Nat} (hi : r.init = some i) (k : tryConnect E r = .ok r') :
    ∀ e ∈ r'.edges, e ∈ r.edges ∨ e.src = i ∨ e.dst ∈ r.goals := by
  unfold tryConnect at k
  rw [hi] at k
  simp only at k
  split at k
  · simp at k
  · next l h1 =>
    split at k
    · simp at k
    · next l' h2 =>
      intro e he
      rcases addAll_edges _ k e he with he | ⟨x, hx, hx1, hx2⟩
      · exact Or.inl he
      · rcases List.mem_append.1 hx with hx | hx
        · exact Or.inr (Or.inl (by rw [hx1]; exact (futureEdges_ends _ h1 x hx).1 rfl))
        · exact Or.inr (Or.inr (by rw [hx2]; exact goalEdges_ends _ h2 x hx))

/-- From an empty roadmap, when the direct connection fails. -/
theorem seen_start (hC : SContract C Valid) (q0 g : Q) {t : Trees P} (k : starStart C q0 [g] Roadmap.empty = .ok (r, t)) (hr : (reached r).1 = false) : Seen r t := by
  obtain ⟨r', t', h1, h2, h3, h4, h5, hcover, hm0, hm1, r1, e1, e2, e3, e4⟩ := start_state hC q0 g
  rw [k] at h1
  cases h1
  have hmap : ∀ (x n : Nat) (e : Edge P), (set (fun _ => none) x (some none) : PMap P) n ≠ some (some e) := by
    intro x n e
    by_cases hn : n = x
    · subst hn; rw [set_eq]; simp
    · rw [set_ne _ _ hn]; simp
  have hed : ∀ e ∈ r.edges, e.src = t.root0 ∨ e.dst = t.root1 := by
    intro e he
    rcases tryConnect_edges e2 e4 e he with hh | hh | hh
    · rw [e1] at hh; simp at hh
    · exact Or.inl hh
    · rw [e3, List.mem_singleton] at hh; exact Or.inr hh
  refine ⟨fun _ e he => ?_, fun _ => ⟨fun n e he => absurd he (by rw [hm0]; exact hmap _ n e), fun n e he => absurd he (by rw [hm1]; exact hmap _ n e)⟩⟩
  have hno : ¬ NodeReach r t.root0 t.root1 := by
    intro hh
    rw [(reached_iff h2.good.inv h4).2 ⟨t.root1, by rw [h5]; simp, hh⟩] at hr
    simp at hr
  obtain ⟨l1, l2⟩ := h2.good.inv.adj.ends e he
  have hsame : e.src = e.dst := by
    rcases hcover _ l1 with a1 | a1 <;> rcases hcover _ l2 with a2 | a2
    · rw [a1, a2]
    · exact absurd (ReflTransGen.single ⟨e, he, a1, a2⟩) hno
    · rcases hed e he with hh | hh
      · rw [hh, a2]
      · rw [a1, hh]
    · rw [a1, a2]
  exact ⟨e, he, hsame, hsame.symm⟩

theorem Improves.refl (len : P → K) (t : Trees P) : Improves len t t := Or.inl ⟨rfl, rfl, Better.refl _ _ _, Better.refl _ _ _⟩

theorem Improves.trans {len : P → K} {a b c : Trees P} (h : Improves len a b) (k : Improves len b c) : Improves len a c := by
  rcases h with ⟨h1, h2, h3, h4⟩ | ⟨h1, h2, h3, h4⟩ <;> rcases k with ⟨k1, k2, k3, k4⟩ | ⟨k1, k2, k3, k4⟩
  · rw [h1] at k1 k3; rw [h2] at k2 k4
    exact Or.inl ⟨k1, k2, h3.trans k3, h4.trans k4⟩
  · rw [h1] at k2 k4; rw [h2] at k1 k3
    exact Or.inr ⟨k1, k2, h4.trans k3, h3.trans k4⟩
  · rw [h1] at k1 k3; rw [h2] at k2 k4
    exact Or.inr ⟨k1, k2, h3.trans k3, h4.trans k4⟩
  · rw [h1] at k2 k4; rw [h2] at k1 k3
    exact Or.inl ⟨k1, k2, h4.trans k3, h3.trans k4⟩

/-- C83: during a resolution from an empty roadmap with one goal, from any state to any later state, no cost to reach a node from a root increases; the trees are always trees of the
roadmap.  (When the direct connection succeeds, there is no step.) -/
theorem C83_run (hC : SContract C Valid) {pop : List (WNode P K) → Option (WNode P K × List (WNode P K))} (hp : PopOk pop) (heur : Roadmap Q P → Nat → K)
    (fc fp : Nat) (q0 g : Q) (draws : Nat → Draw Q) (x : Trees P × Nat) (s0 : (Trees P × Nat) × Roadmap Q P)
    (hs : (birrtstar C heur pop fc fp q0 [g] draws).start (x, Roadmap.empty) = .ok s0) (hr : (reached s0.2).1 = false) (n k : Nat) (u v : (Trees P × Nat) × Roadmap Q P)
    (hu : After (birrtstar C heur pop fc fp q0 [g] draws) s0 n u) (hv : After (birrtstar C heur pop fc fp q0 [g] draws) u k v) :
    SInv C Valid u.2 u.1.1 ∧ Ext u.2 v.2 ∧ Improves C.len u.1.1 v.1.1 := by
  obtain ⟨r, t, h1, h2, h3, -⟩ := C83_start hC q0 g
  simp only [birrtstar, planCalls, h1, Except.ok.injEq] at hs
  subst hs
  have step : ∀ s s' : (Trees P × Nat) × Roadmap Q P, SInv C Valid s.2 s.1.1 ∧ Seen s.2 s.1.1 → (birrtstar C heur pop fc fp q0 [g] draws).step s = .ok s' →
      (SInv C Valid s'.2 s'.1.1 ∧ Seen s'.2 s'.1.1) ∧ Ext s.2 s'.2 ∧ Improves C.len s.1.1 s'.1.1 := by
    rintro s s' ⟨k1, k2⟩ hss
    simp only [birrtstar, planCalls] at hss
    obtain ⟨F, hF⟩ := C83_step_partial hC hp k1 (draws s.1.2) fc
    rcases hF fp with ⟨r', t', a1, a2, a3, -⟩ | ⟨a1, -⟩ | ⟨a1, -⟩
    · obtain ⟨b1, b2⟩ := C83_costs hC hp k1 k2 _ _ _ a1
      simp only [a1] at hss
      rw [← Except.ok.inj hss]
      exact ⟨⟨a2, b2⟩, a3, b1⟩
    · simp only [a1] at hss; simp at hss
    · simp only [a1] at hss; simp at hss
  have hu' := after_inv _ (fun s => SInv C Valid s.2 s.1.1 ∧ Seen s.2 s.1.1) _ ⟨h2, seen_start hC q0 g h1 hr⟩ (fun s s' a b => (step s s' a b).1) n u hu
  have hv' := after_inv _ (fun s => (SInv C Valid s.2 s.1.1 ∧ Seen s.2 s.1.1) ∧ Ext u.2 s.2 ∧ Improves C.len u.1.1 s.1.1) u ⟨hu', Ext.refl _, Improves.refl _ _⟩
    (fun s s' a b => by
      obtain ⟨c1, c2, c3⟩ := step s s' a.1 b
      exact ⟨c1, a.2.1.trans c2, a.2.2.trans c3⟩) k v hv
  exact ⟨hu'.1, hv'.2⟩

/-! ## End of the loop that connects the trees -/

/-- The path goes straight toward `b`: what remains from its end is not greater than the distance from its beginning minus its length. -/
def Toward (C : PEnv Q P K) (b : Q) (p : P) : Prop := C.dist (C.fin p) b + C.len p ≤ C.dist (C.ini p) b

/-- Shortest paths without constraints: distances are not negative, the steering method goes straight toward its second argument, and so do the initial parts of a path that goes straight
(a consequence of the triangle inequality when no length is smaller than the distance between the ends). -/
structure Straight (C : SEnv Q P K) : Prop where
  free : ∀ x q, C.adjust x q = q
  noProj : C.projector = none
  nonneg : ∀ a b, 0 ≤ C.dist a b
  steer : ∀ a b p, C.steer a b = some p → Toward C.toPEnv b p
  extract : ∀ b p l, 0 < l → l < C.len p → Toward C.toPEnv b p → Toward C.toPEnv b (C.extract p (C.t0 p) (C.t0 p + l))
  valid : ∀ b p, Toward C.toPEnv b p → Toward C.toPEnv b (C.validate false p).2

theorem buildPath_toward (hS : Straight C) {a b : Q} {p : P} (k : (buildPath C.toPEnv a b (some C.maxLen) true).2 = some p) : Toward C.toPEnv b p := by
  unfold buildPath at k
  split at k
  · simp at k
  · next p0 h0 =>
    simp only [project, hS.noProj, if_true, Option.some.injEq] at k
    rw [← k]
    refine hS.valid _ _ ?_
    unfold cut
    split
    · exact hS.steer _ _ _ h0
    · split
      · next hl => exact hS.extract _ _ _ hl.1 hl.2 (hS.steer _ _ _ h0)
      · exact hS.steer _ _ _ h0

/-- A successful extension gets closer by the minimal length. -/
theorem extend_closer (hC : SContract C Valid) (hS : Straight C) (h : Good C.toPEnv Valid [] r) {a b : Nat} {ma mb m' : PMap P} (S : Split C.len r a b ma mb) {q q' : Q}
    (k : extend C a q r ma = .ok (r', m', q', true)) {n : Nat} {y : Q} (hn : r.configs[n]? = some y) (hcc : r.cc n = r.cc a) :
    ∃ n', r'.configs[n']? = some q' ∧ m' n' ≠ none ∧ C.dist q' q + C.minLen ≤ C.dist y q := by
  have hlive := h.inv.wf.cc_live a S.la
  unfold extend at k
  obtain ⟨d, near, h1, hfc⟩ := search_spec C.toEnv h.inv.wf q hlive false
  obtain ⟨x, h2, hdx⟩ := hfc.config
  have h3 : r.cc near = r.cc a := (h.inv.wf.owned _ hlive _ hfc.mem).2
  have hle : d ≤ C.dist y q := hfc.le n (by rw [← hcc]; exact h.inv.wf.mem n (lt_of_get hn)) y hn
  have hdx : d = C.dist x q := hdx
  rw [h1] at k
  simp only at k
  split at k
  · simp at k
  · rw [h2] at k
    simp only at k
    split at k
    · simp at k
    · next p hb =>
      split at k
      · simp at k
      · next hl =>
        split at k
        · simp at k
        · next c hc =>
          split at k
          · simp at k
          · next s ks =>
            split at k
            · simp at k
            · next r1 nnew ka =>
              split at k
              · simp at k
              · next r2 m2 f2 kt =>
                cases k
                obtain ⟨p1, p2⟩ := buildPath_valid hC.base hb
                have hv := p2 (lt_of_lt_of_le hC.minLen (not_lt.1 hl))
                have hnear : ma near ≠ none := (S.ha.dom near).2 ⟨lt_of_get h2, h3⟩
                obtain ⟨dn, c', hc', hu⟩ := S.ha.tree.cost hnear
                rw [hc] at hc'
                cases hc'
                obtain ⟨s', s1, s2, s3⟩ := scan_spec hC S.ha.tree (C.fin p) (cmp := fun s => (s.near, s.path)) (fun s hs => hs.best)
                  (ball C.toPEnv r (C.fin p) (r.cc a) (C.radius r.configs.length)) ⟨near, p, c + C.len p, []⟩
                  ⟨⟨by rw [p1]; exact h2, rfl, fun _ => hv⟩, ⟨dn, c, hu, rfl⟩, by simp⟩
                  (fun n hn => (S.ha.dom n).2 (h.inv.wf.owned _ hlive n (ball_mem hn)))
                rw [ks] at s1
                cases s1
                obtain ⟨r1', nnew', a1, a2, a3, a4, a5, a6, a7⟩ := addNode_good h (C.fin p)
                rw [ka] at a1
                cases a1
                have s2' : ScanOk C Valid r1.configs (C.fin p) ma a s := by
                  refine ⟨⟨a3.grow.get s2.best.ini, s2.best.fin, s2.best.valid⟩, s2.cost, ?_⟩
                  intro n b p' hh
                  obtain ⟨w1, w2⟩ := s2.paths n b p' hh
                  exact ⟨⟨a3.grow.get w1.ini, w1.fin, w1.valid⟩, w2⟩
                obtain ⟨r2', m'', f, b1, b2, b3, b4, b5, b6, -⟩ := attach_spec hC a2 (S.ha.tree.grow a3.grow) a4 s2'
                rw [kt] at b1
                cases b1
                refine ⟨nnew, by rw [b4]; exact a4, (b6 nnew).2 (Or.inr rfl), ?_⟩
                have ht := buildPath_toward hS hb
                unfold Toward at ht
                rw [hS.free, p1] at ht
                calc C.dist (C.fin p) q + C.minLen ≤ C.dist (C.fin p) q + C.len p := by gcongr; exact not_lt.1 hl
                  _ ≤ C.dist x q := ht
                  _ = d := hdx.symm
                  _ ≤ _ := hle

/-- C83: without constraints and with a steering method that builds shortest paths, the loop that connects the trees ends: it does not extend the tree more than `N` times if a node of the
tree is at a distance not greater than `N` times the minimal length. -/
theorem C83_connect (hC : SContract C Valid) (hS : Straight C) (N f : Nat) (hf : N + 2 ≤ f) (h : Good C.toPEnv Valid [] r) {a b : Nat} {ma mb : PMap P} (S : Split C.len r a b ma mb)
    (q : Q) {n : Nat} {y : Q} (hn : r.configs[n]? = some y) (hcc : r.cc n = r.cc a) (hN : C.dist y q ≤ N • C.minLen) : connectLoop C a q f r ma ≠ .error .fuel := by
  induction N generalizing r ma f n y with
  | zero =>
    obtain ⟨f, rfl⟩ : ∃ f', f = f' + 1 := ⟨f - 1, by omega⟩
    rw [connectLoop, if_pos (live_two h.inv.wf S.la S.lb S.ne S.cover)]
    obtain ⟨r1, m1, q1, ok, h1, h2, h3, h4, h5, h6⟩ := extend_spec hC h S q
    rw [h1]
    cases ok with
    | false => simp
    | true =>
      obtain ⟨n', -, -, k⟩ := extend_closer hC hS h S h1 hn hcc
      rw [zero_smul] at hN
      have := lt_of_lt_of_le (add_pos_of_nonneg_of_pos (hS.nonneg q1 q) hC.minLen) (le_trans k hN)
      exact absurd this (lt_irrefl _)
  | succ N ih =>
    obtain ⟨f, rfl⟩ : ∃ f', f = f' + 1 := ⟨f - 1, by omega⟩
    rw [connectLoop, if_pos (live_two h.inv.wf S.la S.lb S.ne S.cover)]
    obtain ⟨r1, m1, q1, ok, h1, h2, h3, h4, h5, h6⟩ := extend_spec hC h S q
    rw [h1]
    cases ok with
    | false => simp
    | true =>
      simp only
      obtain ⟨n', k1, k2, k3⟩ := extend_closer hC hS h S h1 hn hcc
      rcases h6 with hh | ⟨-, hh⟩
      · refine ih f (by omega) h2 hh k1 ((hh.ha.dom n').1 k2).2 ?_
        have := le_trans k3 hN
        rw [succ_nsmul] at this
        exact le_of_add_le_add_right this
      · obtain ⟨f, rfl⟩ : ∃ f', f = f' + 1 := ⟨f - 1, by omega⟩
        have la' := lt_of_lt_of_le S.la h3.grow.length
        rw [connectLoop, if_neg (by rw [live_one h2.inv.wf la' (fun x hx => hh x a hx la')]; decide)]
        simp

/-- When a step on two trees does not end, it is in the loop that connects them; this loop starts from a state that does not depend on the number of iterations allowed. -/
theorem oneStep_fuel (hC : SContract C Valid) {t : Trees P} (h : SInv C Valid r t) (S : Split C.len r t.root0 t.root1 t.map0 t.map1) (w : Draw Q) :
    (∀ (pop : List (WNode P K) → Option (WNode P K × List (WNode P K))) fc fp, oneStep C pop fc fp w r t ≠ .error .fuel) ∨
    ∃ r1 m0 q1, Good C.toPEnv Valid [] r1 ∧ Split C.len r1 t.root1 t.root0 t.map1 m0 ∧
      ∀ (pop : List (WNode P K) → Option (WNode P K × List (WNode P K))) fc fp, oneStep C pop fc fp w r t = .error .fuel → connectLoop C t.root1 q1 fc r1 t.map1 = .error .fuel := by
  have h2 := live_two h.good.inv.wf S.la S.lb S.ne S.cover
  obtain ⟨q, hq⟩ := sample_spec (C := C) h.good h.tree0 w (fun hh => by rw [h2] at hh; simp at hh)
  obtain ⟨r1, m0, q1, ok, k1, k2, k3, k4, k5, k6⟩ := extend_spec hC h.good S q
  cases ok with
  | false =>
    left
    intro pop fc fp
    unfold oneStep
    simp only [hq, if_pos h2, k1]
    simp
  | true =>
    by_cases hcc : r1.cc t.root0 = r1.cc t.root1
    · left
      intro pop fc fp
      unfold oneStep
      simp only [hq, if_pos h2, k1, if_pos hcc]
      simp
    · right
      rcases k6 with k6 | ⟨-, k6⟩
      · refine ⟨r1, m0, q1, k2, k6.symm, ?_⟩
        intro pop fc fp hh
        unfold oneStep at hh
        simp only [hq, if_pos h2, k1, if_neg hcc] at hh
        split at hh
        · next e he => cases hh; exact he
        · simp at hh
      · exact absurd (k6 _ _ (lt_of_lt_of_le h.l0 k3.grow.length) (lt_of_lt_of_le h.l1 k3.grow.length)) hcc

/-- C83: without constraints and with a steering method that builds shortest paths, every step from a state of the invariant ends, normally or, just after the trees have met, by the use of
`end()` in the sampling. -/
theorem C83_ends_partial [Archimedean K] (hC : SContract C Valid) (hS : Straight C) {pop : List (WNode P K) → Option (WNode P K × List (WNode P K))} (hp : PopOk pop) {t : Trees P}
    (h : SInv C Valid r t) (w : Draw Q) : ∃ Fc, ∀ fc, Fc ≤ fc → ∃ Fp, ∀ fp, Fp ≤ fp →
    (∃ r' t', oneStep C pop fc fp w r t = .ok (r', t') ∧ SInv C Valid r' t' ∧ Ext r r' ∧ SameRoots t t' ∧ (¬ Pending r t → Improves C.len t t') ∧ (Seen r t → Improves C.len t t' ∧ Seen r' t')) ∨
    (oneStep C pop fc fp w r t = .error .endIterator ∧ Pending r t ∧ w.informed = true ∧ t.map0 t.root1 = none) := by
  have key : ∃ Fc, ∀ fc, Fc ≤ fc → ∀ fp, r.live.length = 2 → oneStep C pop fc fp w r t ≠ .error .fuel := by
    have no : Joined r → r.live.length ≠ 2 := fun hJ => by
      rw [live_one h.good.inv.wf h.l0 (fun x hx => hJ x _ hx h.l0)]; decide
    rcases h.phase with S | ⟨hJ, -⟩ | ⟨hJ, -⟩
    · rcases oneStep_fuel hC h S w with hh | ⟨r1, m0, q1, g1, g2, g3⟩
      · exact ⟨0, fun fc _ fp _ => hh pop fc fp⟩
      · obtain ⟨N, hN⟩ := Archimedean.arch (C.dist (r1.configs[t.root1]'g2.la) q1) hC.minLen
        refine ⟨N + 2, fun fc hfc fp _ hh => ?_⟩
        exact C83_connect hC hS N fc hfc g1 g2 q1 (List.getElem?_eq_getElem g2.la) rfl hN (g3 pop fc fp hh)
    · exact ⟨0, fun _ _ _ h2 => absurd h2 (no hJ)⟩
    · exact ⟨0, fun _ _ _ h2 => absurd h2 (no hJ)⟩
  obtain ⟨Fc, hFc⟩ := key
  refine ⟨Fc, fun fc hfc => ?_⟩
  obtain ⟨F, hF⟩ := C83_step_partial hC hp h w fc
  refine ⟨F, fun fp hfp => ?_⟩
  rcases hF fp with ⟨r', t', a1, a2, a3, a4, a5⟩ | ⟨a1, ⟨-, a2⟩ | a2⟩ | a1
  · exact Or.inl ⟨r', t', a1, a2, a3, a4, a5, fun hs => C83_costs hC hp h hs w fc fp a1⟩
  · omega
  · exact absurd a1 (hFc fc hfc fp a2)
  · exact Or.inr a1

/-! ## A whole resolution -/

theorem connectLoop_mono {a : Nat} {q : Q} (f g : Nat) (hfg : f ≤ g) (k : connectLoop C a q f r m ≠ .error .fuel) : connectLoop C a q g r m = connectLoop C a q f r m := by
  induction f generalizing r m g with
  | zero => exact absurd (by rw [connectLoop]) k
  | succ f ih =>
    obtain ⟨g, rfl⟩ : ∃ g', g = g' + 1 := ⟨g - 1, by omega⟩
    rw [connectLoop] at k
    rw [connectLoop, connectLoop]
    split
    · next h2 =>
      rw [if_pos h2] at k
      split
      · rfl
      · rfl
      · next he =>
        rw [he] at k
        exact ih g (by omega) k
    · rfl

theorem oneStep_mono {pop : List (WNode P K) → Option (WNode P K × List (WNode P K))} {w : Draw Q} {t : Trees P} (h2 : r.live.length = 2) {fc fc' fp fp' : Nat} (hf : fc ≤ fc')
    (k : oneStep C pop fc fp w r t ≠ .error .fuel) : oneStep C pop fc' fp' w r t = oneStep C pop fc fp w r t := by
  unfold oneStep at k ⊢
  split
  · rfl
  · next q hq =>
    rw [hq] at k
    simp only [if_pos h2] at k ⊢
    split
    · rfl
    · rfl
    · next r1 m0 q1 he =>
      rw [he] at k
      simp only at k
      split
      · rfl
      · next hcc =>
        rw [if_neg hcc] at k
        rw [connectLoop_mono fc fc' hf]
        intro hh
        rw [hh] at k
        exact k rfl

/-- A step on one component. -/
theorem oneStep_joined (hC : SContract C Valid) {pop : List (WNode P K) → Option (WNode P K × List (WNode P K))} (hp : PopOk pop) {t : Trees P} (h : SInv C Valid r t) (hJ : Joined r)
    (w : Draw Q) :
    (∃ F, ∀ fc fp, F ≤ fp → oneStep C pop fc fp w r t ≠ .error .fuel) ∧
    (t.map1 t.root0 ≠ none → ∀ fc fp, oneStep C pop fc fp w r t ≠ .error .fuel) ∧
    (∀ fc fp r' t', oneStep C pop fc fp w r t = .ok (r', t') → Joined r' ∧ t'.map1 t'.root0 ≠ none) ∧
    (t.map1 t.root0 = none → ∀ fc r' t', oneStep C pop fc 0 w r t ≠ .ok (r', t')) := by
  have h1 : r.live.length = 1 := live_one h.good.inv.wf h.l0 (fun x hx => hJ x _ hx h.l0)
  have hfull : ∀ (t1 : Trees P) (q : Q), t1.root0 = t.root0 → Full C.len r t1.map0 t1.root0 → Full C.len r t1.map1 t1.root1 →
      ∃ r' t', improve C q r t1 = .ok (r', t') ∧ Joined r' ∧ t'.map1 t'.root0 ≠ none := by
    intro t1 q e0 f0 f1
    obtain ⟨r2, t2, k1, k2, k3, k4, k5, k6, k7, k8, k9, k10⟩ := improve_spec hC h.good f0 f1 (by rw [e0]; exact h.l0) hJ q
    refine ⟨r2, t2, k1, k4, k8.dom _ ?_⟩
    rw [k5, e0]; exact lt_of_lt_of_le h.l0 k3.grow.length
  obtain ⟨F0, hF0⟩ := computeParentMap_full hC hp h.good hJ h.l0
  obtain ⟨F1, hF1⟩ := computeParentMap_full hC hp h.good hJ h.l1
  cases hq : sample C w r t with
  | error e =>
    have hne : e ≠ .fuel := by
      rintro rfl
      by_cases hs : t.map0 t.root1 = none
      · by_cases hw : w.informed = true
        · rw [sample_end (C := C) w h1 hw hs] at hq; simp at hq
        · obtain ⟨q, hq'⟩ := sample_spec (C := C) h.good h.tree0 w (fun _ hh => absurd hh hw)
          rw [hq] at hq'; simp at hq'
      · obtain ⟨q, hq'⟩ := sample_spec (C := C) h.good h.tree0 w (fun _ _ => hs)
        rw [hq] at hq'; simp at hq'
    have hval : ∀ fc fp, oneStep C pop fc fp w r t = .error e := fun fc fp => by unfold oneStep; simp only [hq]
    refine ⟨⟨0, fun fc fp _ => ?_⟩, fun _ fc fp => ?_, fun fc fp r' t' hh => ?_, fun _ fc r' t' => ?_⟩
    · rw [hval]; simpa using hne
    · rw [hval]; simpa using hne
    · rw [hval] at hh; simp at hh
    · rw [hval]; simp
  | ok q =>
    by_cases hm : t.map1 t.root0 = none
    · have hval : ∀ fc fp, oneStep C pop fc fp w r t = (match computeParentMap C.len r.out pop fp t.root0, computeParentMap C.len r.out pop fp t.root1 with
          | some m0, some m1 => improve C q r { t with map0 := m0, map1 := m1 }
          | _, _ => .error .fuel) := fun fc fp => by
        unfold oneStep
        simp only [hq]
        rw [if_neg (by rw [h1]; decide), if_pos hm]
        cases computeParentMap C.len r.out pop fp t.root0 <;> cases computeParentMap C.len r.out pop fp t.root1 <;> rfl
      have hsome : ∀ fc fp m0 m1, computeParentMap C.len r.out pop fp t.root0 = some m0 → computeParentMap C.len r.out pop fp t.root1 = some m1 →
          ∃ r' t', oneStep C pop fc fp w r t = .ok (r', t') ∧ Joined r' ∧ t'.map1 t'.root0 ≠ none := by
        intro fc fp m0 m1 e0 e1
        rw [hval, e0, e1]
        exact hfull ⟨t.root0, t.root1, m0, m1⟩ q rfl ((hF0 fp).2 m0 e0) ((hF1 fp).2 m1 e1)
      refine ⟨⟨max F0 F1, fun fc fp hfp => ?_⟩, fun hh => absurd hm hh, fun fc fp r' t' hh => ?_, fun _ fc r' t' => ?_⟩
      · obtain ⟨m0, e0⟩ := Option.ne_none_iff_exists'.1 ((hF0 fp).1 (le_trans (le_max_left _ _) hfp))
        obtain ⟨m1, e1⟩ := Option.ne_none_iff_exists'.1 ((hF1 fp).1 (le_trans (le_max_right _ _) hfp))
        obtain ⟨r', t', k, -⟩ := hsome fc fp m0 m1 e0 e1
        rw [k]; simp
      · cases e0 : computeParentMap C.len r.out pop fp t.root0 with
        | none => rw [hval, e0] at hh; simp at hh
        | some m0 =>
          cases e1 : computeParentMap C.len r.out pop fp t.root1 with
          | none => rw [hval, e0, e1] at hh; simp at hh
          | some m1 =>
            obtain ⟨r2, t2, k, k1⟩ := hsome fc fp m0 m1 e0 e1
            rw [hh] at k
            cases k
            exact k1
      · rw [hval]
        have : computeParentMap C.len r.out pop 0 t.root0 = none := by simp [computeParentMap, pmLoop]
        rw [this]; simp
    · have hF : Full C.len r t.map0 t.root0 ∧ Full C.len r t.map1 t.root1 := by
        rcases h.phase with S | ⟨-, hm'⟩ | ⟨-, f0, f1⟩
        · exact absurd (hJ _ _ S.la S.lb) S.ne
        · exact absurd hm' hm
        · exact ⟨f0, f1⟩
      obtain ⟨r2, t2, k1, k2⟩ := hfull t q rfl hF.1 hF.2
      have hval : ∀ fc fp, oneStep C pop fc fp w r t = .ok (r2, t2) := fun fc fp => by
        unfold oneStep
        simp only [hq]
        rw [if_neg (by rw [h1]; decide), if_neg hm, k1]
      refine ⟨⟨0, fun fc fp _ => ?_⟩, fun _ fc fp => ?_, fun fc fp r' t' hh => ?_, fun hh => absurd hh hm⟩
      · rw [hval]; simp
      · rw [hval]; simp
      · rw [hval] at hh; cases hh; exact k2

/-- C66 for BiRRT* without constraints, with a steering method that builds shortest paths and bounded distances: from an empty roadmap and for any random draws, with enough iterations allowed to its two inner
loops, the resolution fails only when a step that follows the connection of the trees draws its configuration near the best path. -/
theorem C66_birrtstar_straight_partial (hC : SContract C Valid) (hS : Straight C) {N : Nat} (hN : ∀ a b, C.dist a b ≤ N • C.minLen)
    {pop : List (WNode P K) → Option (WNode P K × List (WNode P K))} (hp : PopOk pop) (heur : Roadmap Q P → Nat → K)
    (q0 g : Q) (draws : Nat → Draw Q) (hq : ∀ q, C.steer q q ≠ none) (x : Trees P × Nat) :
    ∃ Fp, ∀ fc fp, N + 2 ≤ fc → Fp ≤ fp → ∀ (st : Settings K) (late intr : Nat → Bool) (fuel : Nat) (e : PlanErr),
      solve (birrtstar C heur pop fc fp q0 [g] draws) st late intr fuel (x, Roadmap.empty) = .error e → e = .road .nullPointer ∧ ∃ k, (draws k).informed = true := by
  obtain ⟨r, t, h1, h2, h3, -⟩ := C83_start hC q0 g
  -- the run with the smallest numbers of iterations, which stops when the trees meet
  let s0 : (Trees P × Nat) × Roadmap Q P := ((t, x.2), r)
  let run := birrtstar C heur pop (N + 2) 0 q0 [g] draws
  have hsteps : ∀ (fc fp : Nat) (u u' : (Trees P × Nat) × Roadmap Q P), (birrtstar C heur pop fc fp q0 [g] draws).step u = .ok u' ↔
      ∃ r' t', oneStep C pop fc fp (draws u.1.2) u.2 u.1.1 = .ok (r', t') ∧ u' = ((t', u.1.2 + 1), r') := by
    intro fc fp u u'
    simp only [birrtstar, planCalls]
    cases ho : oneStep C pop fc fp (draws u.1.2) u.2 u.1.1 with
    | error e => simp
    | ok y =>
      obtain ⟨r', t'⟩ := y
      simp only [Except.ok.injEq, Prod.mk.injEq]
      constructor
      · rintro rfl; exact ⟨r', t', ⟨rfl, rfl⟩, rfl⟩
      · rintro ⟨r2, t2, ⟨rfl, rfl⟩, rfl⟩; rfl
  have inv : ∀ fc fp n u, After (birrtstar C heur pop fc fp q0 [g] draws) s0 n u → SInv C Valid u.2 u.1.1 ∧ Tagged q0 [g] u.2 := by
    intro fc fp n u hu
    refine after_inv _ (fun s => SInv C Valid s.2 s.1.1 ∧ Tagged q0 [g] s.2) s0 ⟨h2, h3⟩ ?_ n u hu
    rintro s s' ⟨k1, k2⟩ hs
    obtain ⟨r', t', a, rfl⟩ := (hsteps fc fp s s').1 hs
    obtain ⟨F, hF⟩ := C83_step_partial hC hp k1 (draws s.1.2) fc
    rcases hF fp with ⟨r2, t2, a1, a2, a3, -⟩ | ⟨a1, -⟩ | ⟨a1, -⟩
    · rw [a] at a1; cases a1; exact ⟨a2, k2.mono a3⟩
    · rw [a] at a1; simp at a1
    · rw [a] at a1; simp at a1
  -- the trees meet at most once in this run
  have hFp : ∃ Fp, ∀ n u, After run s0 n u → Joined u.2 → ∀ fc fp, Fp ≤ fp → oneStep C pop fc fp (draws u.1.2) u.2 u.1.1 ≠ .error .fuel := by
    by_cases hex : ∃ n u, After run s0 n u ∧ Joined u.2 ∧ u.1.1.map1 u.1.1.root0 = none
    · obtain ⟨n, u, hu, hJ, hm⟩ := hex
      obtain ⟨⟨F, hF⟩, -, -, hlast⟩ := oneStep_joined hC hp (inv _ _ n u hu).1 hJ (draws u.1.2)
      refine ⟨F, fun n' u' hu' hJ' fc fp hfp => ?_⟩
      obtain ⟨-, hno, -, hlast'⟩ := oneStep_joined hC hp (inv _ _ n' u' hu').1 hJ' (draws u'.1.2)
      by_cases hm' : u'.1.1.map1 u'.1.1.root0 = none
      · have stop : ∀ (a b : Nat) (y z : (Trees P × Nat) × Roadmap Q P), After run s0 a y → (∀ r' t', oneStep C pop (N + 2) 0 (draws y.1.2) y.2 y.1.1 ≠ .ok (r', t')) →
            After run s0 b z → b ≤ a := by
          intro a b y z hy hn hz
          by_contra hlt
          have : ∀ c z, After run s0 (a + 1 + c) z → False := by
            intro c
            induction c with
            | zero =>
              rintro z ⟨y', hy', hs⟩
              rw [after_unique run s0 a y' y hy' hy] at hs
              obtain ⟨r', t', k, -⟩ := (hsteps _ _ y z).1 hs
              exact hn r' t' k
            | succ c ih =>
              rintro z ⟨y', hy', -⟩
              exact ih y' hy'
          exact this (b - (a + 1)) z (by rw [show a + 1 + (b - (a + 1)) = b by omega]; exact hz)
        have hnn : n = n' := le_antisymm (stop n' n u' u hu' (hlast' hm' _) hu) (stop n n' u u' hu (hlast hm _) hu')
        subst hnn
        rw [after_unique run s0 n u' u hu' hu]
        exact hF fc fp hfp
      · exact hno hm' fc fp
    · refine ⟨0, fun n u hu hJ fc fp _ => ?_⟩
      obtain ⟨-, hno, -⟩ := oneStep_joined hC hp (inv _ _ n u hu).1 hJ (draws u.1.2)
      exact hno (fun hm => hex ⟨n, u, hu, hJ, hm⟩) fc fp
  obtain ⟨Fp, hFp⟩ := hFp
  -- two components: the loop ends
  have hsplit : ∀ u : (Trees P × Nat) × Roadmap Q P, SInv C Valid u.2 u.1.1 → ¬ Joined u.2 → u.2.live.length = 2 ∧
      ∀ fc fp, N + 2 ≤ fc → oneStep C pop fc fp (draws u.1.2) u.2 u.1.1 ≠ .error .fuel := by
    intro u hu hJ
    rcases hu.phase with S | ⟨hJ', -⟩ | ⟨hJ', -⟩
    · refine ⟨live_two hu.good.inv.wf S.la S.lb S.ne S.cover, fun fc fp hfc hh => ?_⟩
      rcases oneStep_fuel hC hu S (draws u.1.2) with hn | ⟨r1, m0, q1, g1, g2, g3⟩
      · exact hn pop fc fp hh
      · exact C83_connect hC hS N fc hfc g1 g2 q1 (List.getElem?_eq_getElem g2.la) rfl (hN _ _) (g3 pop fc fp hh)
    · exact absurd hJ' hJ
    · exact absurd hJ' hJ
  refine ⟨Fp, fun fc fp hfc hfp st late intr fuel e hl => ?_⟩
  have main : ∀ n u, After (birrtstar C heur pop fc fp q0 [g] draws) s0 n u → (∃ n, After run s0 n u) ∨ (Joined u.2 ∧ u.1.1.map1 u.1.1.root0 ≠ none) := by
    intro n u hu
    induction n generalizing u with
    | zero => exact Or.inl ⟨0, hu⟩
    | succ n ih =>
      obtain ⟨y, hy, hs⟩ := hu
      obtain ⟨r', t', a, rfl⟩ := (hsteps fc fp y u).1 hs
      have hinv := (inv _ _ n y hy).1
      by_cases hJ : Joined y.2
      · exact Or.inr ((oneStep_joined hC hp hinv hJ (draws y.1.2)).2.2.1 fc fp r' t' a)
      · obtain ⟨l2, hno⟩ := hsplit y hinv hJ
        rcases ih y hy with ⟨n', hn'⟩ | ⟨hJ', -⟩
        · refine Or.inl ⟨n' + 1, y, hn', (hsteps _ _ y _).2 ⟨r', t', ?_, rfl⟩⟩
          rw [← oneStep_mono l2 hfc (hno _ 0 le_rfl) (fp' := fp), a]
        · exact absurd hJ' hJ
  have nofuel : ∀ n u, After (birrtstar C heur pop fc fp q0 [g] draws) s0 n u → oneStep C pop fc fp (draws u.1.2) u.2 u.1.1 ≠ .error .fuel := by
    intro n u hu
    have hinv := (inv _ _ n u hu).1
    by_cases hJ : Joined u.2
    · rcases main n u hu with ⟨n', hn'⟩ | ⟨-, hm⟩
      · exact hFp n' u hn' hJ fc fp hfp
      · exact (oneStep_joined hC hp hinv hJ (draws u.1.2)).2.1 hm fc fp
    · exact (hsplit u hinv hJ).2 fc fp hfc
  have hm := C39_outcome (birrtstar C heur pop fc fp q0 [g] draws) (fun _ => rfl) st late intr fuel (x, Roadmap.empty) s0 (by simp only [birrtstar, planCalls, h1]; rfl)
  rw [hl] at hm
  obtain ⟨n, u, k1, k2⟩ := hm
  obtain ⟨i1, i2⟩ := inv fc fp n u k1
  rcases k2 with k2 | ⟨k2, k3⟩
  · obtain ⟨F, hF⟩ := C83_step_partial hC hp i1 (draws u.1.2) fc
    simp only [birrtstar, planCalls] at k2
    rcases hF fp with ⟨r', t', a1, -⟩ | ⟨a1, -⟩ | ⟨a1, -, a2, -⟩
    · simp only [a1] at k2; simp at k2
    · exact absurd a1 (nofuel n u k1)
    · simp only [a1, Except.error.injEq] at k2
      exact ⟨k2.symm, _, a2⟩
  · obtain ⟨l, hl⟩ := computePath_some hq i1.good i2 heur k2
    have k3' : computePath C.toPEnv heur u.2 = .error e := k3
    rw [hl] at k3'
    simp at k3'

/-! ## Examples -/
namespace LineStar

/-- On the line the steering method goes straight. -/
theorem straight : Straight env := by
  refine ⟨fun _ _ => rfl, rfl, ?_, ?_, ?_, ?_⟩
  · intro a b; simp only [env, Line.env]; omega
  · intro a b p h
    simp only [env, Line.env] at h
    split at h
    · simp only [Option.some.injEq] at h; subst h
      simp only [Toward, env, Line.env, Line.dur]; omega
    · simp at h
  · rintro b ⟨x, y, t⟩ l h1 h2 h
    simp only [Toward, env, Line.env, Line.dur, Line.pos] at *
    by_cases hxy : x ≤ y
    · simp only [if_pos hxy]; omega
    · simp only [if_neg hxy]; omega
  · rintro b ⟨x, y, t⟩ h
    simp only [Toward, env, Line.env, Line.dur] at *
    by_cases h1 : x < 10 ∧ y < 10
    · simp only [if_pos h1]; omega
    · by_cases h2 : x < 10
      · simp only [if_neg h1, if_true, if_pos h2]; omega
      · simp only [if_neg h1, if_true, if_neg h2]; omega

/-- C83: a resolution from 0 to 8, whose direct connection fails. -/
example : (match (birrtstar env (fun _ _ => 0) popMax 10 100 0 [8] (shots (fun _ => 3))).start ((noTrees, 0), Roadmap.empty) with
    | .ok s => some (reached s.2).1
    | _ => none) = some false := by decide +kernel

/-- C83: every step of a resolution on the line ends. -/
example (q0 g : Int) (w : Draw Int) : ∃ r t, starStart env q0 [g] Roadmap.empty = .ok (r, t) ∧ ∃ Fc, ∀ fc, Fc ≤ fc → ∃ Fp, ∀ fp, Fp ≤ fp →
    oneStep env popMax fc fp w r t ≠ .error .fuel := by
  obtain ⟨r, t, h1, h2, -⟩ := C83_start contract q0 g
  obtain ⟨Fc, h⟩ := C83_ends_partial contract straight popMax_ok h2 w
  refine ⟨r, t, h1, Fc, fun fc hc => ?_⟩
  obtain ⟨Fp, h⟩ := h fc hc
  refine ⟨Fp, fun fp hfp => ?_⟩
  rcases h fp hfp with ⟨r', t', k, -⟩ | ⟨k, -⟩ <;> rw [k] <;> simp

end LineStar

/-! A segment of 13 points with an obstacle from 10 on. -/
namespace SegStar

def mv (a b : Fin 13) (t : Int) : Fin 13 :=
  if a ≤ b then ⟨min b.1 (a.1 + t.toNat), by omega⟩ else ⟨max b.1 (a.1 - t.toNat), by omega⟩

def gap (a b : Fin 13) : Int := max ((a.1 : Int) - b.1) ((b.1 : Int) - a.1)

def base : PEnv (Fin 13) (Fin 13 × Fin 13) Int where
  dist := gap
  rev p := (p.2, p.1)
  zeroLength p := decide (p.1 = p.2)
  ini p := p.1
  fin p := p.2
  t0 _ := 0
  t1 p := gap p.1 p.2
  len p := gap p.1 p.2
  extract p _ t := (p.1, mv p.1 p.2 t)
  steer a b := some (a, b)
  projector := none
  validate rev p := if p.1.1 < 10 ∧ p.2.1 < 10 then (true, p) else
    if rev then (false, if p.2.1 < 10 then (9, p.2) else (p.2, p.2)) else (false, if p.1.1 < 10 then (p.1, 9) else (p.1, p.1))
  onKernel _ b := some b

def env : SEnv (Fin 13) (Fin 13 × Fin 13) Int where
  toPEnv := base
  adjust _ q := q
  radius _ := 3
  maxLen := 3
  minLen := 1
  eps := 0
  between _ _ y _ := y

def Free (p : Fin 13 × Fin 13) : Prop := p.1.1 < 10 ∧ p.2.1 < 10

theorem contract : SContract env Free := by
  refine ⟨⟨?_, ?_, ?_, ?_, ?_, ?_, ?_, ?_, ?_, ?_, ?_, ?_⟩, ?_, ?_, by decide⟩
  · intro a b p h; simp only [env, base, Option.some.injEq] at h; subst h; exact ⟨rfl, rfl⟩
  · intro p t; rfl
  · rintro ⟨⟨a, ha⟩, ⟨b, hb⟩⟩ t h
    simp only [env, base, Free, mv, Fin.mk_le_mk] at *
    split <;> simp only <;> omega
  · intro f p b p' h; simp [env, base] at h
  · intro f p h; simp [env, base] at h
  · decide +kernel
  · unfold Free; decide +kernel
  · unfold Free; decide +kernel
  · decide +kernel
  · intro p; rfl
  · intro p; rfl
  · unfold Free; intro p h; exact ⟨h.2, h.1⟩
  · decide +kernel
  · decide +kernel

theorem straight : Straight env := by
  refine ⟨fun _ _ => rfl, rfl, by decide +kernel, ?_, ?_, ?_⟩
  · intro a b p h
    simp only [env, base, Option.some.injEq] at h
    subst h
    simp only [Toward, env, base, gap]; omega
  · rintro ⟨c, hc⟩ ⟨⟨a, ha⟩, ⟨b, hb⟩⟩ l h1 h2 h
    simp only [Toward, env, base, gap, mv, Fin.mk_le_mk] at *
    split <;> simp only <;> omega
  · rintro b p h
    revert h; revert p b
    unfold Toward
    decide +kernel

/-- C66: the theorem applies to every sequence of draws. -/
example (draws : Nat → Draw (Fin 13)) (q0 g : Fin 13) (x : Trees (Fin 13 × Fin 13) × Nat) :
    ∃ Fp, ∀ fc fp, 12 + 2 ≤ fc → Fp ≤ fp → ∀ (st : Settings Int) (late intr : Nat → Bool) (fuel : Nat) (e : PlanErr),
      solve (birrtstar env (fun _ _ => 0) popMax fc fp q0 [g] draws) st late intr fuel (x, Roadmap.empty) = .error e → e = .road .nullPointer ∧ ∃ k, (draws k).informed = true :=
  C66_birrtstar_straight_partial contract straight (N := 12) (by decide +kernel) popMax_ok _ q0 g draws (by intro q; simp [env, base]) x

end SegStar

end Verif.Planner.Star
