import Verif.Planner.Line
set_option linter.unusedSectionVars false

/-!
# `SimpleShortcut` (C42)

The roadmap built by the optimizer is the one of `Verif.Roadmap`, the solution is the A* search of `Verif.AStar`.  Steering method, path
projector and path validation are parameters (`Planner.PEnv`).
-/
namespace Verif.Optim.Simple
open Verif.Roadmap Verif.Planner
variable {Q P K : Type} [DecidableEq Q] [AddCommGroup K] [LinearOrder K] [IsOrderedAddMonoid K]

/-- `PathOptimizer::steer`: path-optimizer.cc:48-57. -/
def optSteer (C : PEnv Q P K) (a b : Q) : Option P :=
  match C.steer a b with
  | none => none
  | some dp => match C.projector with
    | none => some dp
    | some f => match f dp with
      | (true, pp) => pp
      | (false, _) => none

/-- Loop that inserts the pieces of the path: simple-shortcut.cc:61-66.  Returns the roadmap and the vector `nodes` without its first
element. -/
def insertPieces (C : PEnv Q P K) : List P → Nat → Roadmap Q P → Except Err (Roadmap Q P × List Nat)
  | [], _, r => .ok (r, [])
  | p :: ps, node, r => match addNodeAndEdgeTo C.toEnv r node (C.fin p) p with
    | .error e => .error e
    | .ok (r1, n) => match insertPieces C ps n r1 with
      | .error e => .error e
      | .ok (r2, ns) => .ok (r2, n :: ns)

/-- Body of the double loop: simple-shortcut.cc:71-78. -/
def tryPair (C : PEnv Q P K) (r : Roadmap Q P) (a b : Nat) : Except Err (Roadmap Q P) :=
  match r.configs[a]?, r.configs[b]? with
  | some x, some y => match optSteer C x y with
    | none => .ok r
    | some p => if (C.validate false p).1 = true then addEdge r a b p else .ok r
  | _, _ => .error .badNode

/-- Inner loop, on the nodes of rank at least `i + 2`: simple-shortcut.cc:70-79. -/
def innerLoop (C : PEnv Q P K) (a : Nat) : List Nat → Roadmap Q P → Except Err (Roadmap Q P)
  | [], r => .ok r
  | b :: bs, r => match tryPair C r a b with
    | .error e => .error e
    | .ok r1 => innerLoop C a bs r1

/-- Outer loop, on the nodes but the last (for the last one and the one before, the inner loop is empty): simple-shortcut.cc:69-80.  The
list is the nodes from rank `i` on. -/
def outerLoop (C : PEnv Q P K) : List Nat → Roadmap Q P → Except Err (Roadmap Q P)
  | [], r => .ok r
  | a :: ns, r => match innerLoop C a ns.tail r with
    | .error e => .error e
    | .ok r1 => outerLoop C ns r1

/-- `SimpleShortcut::optimize`: simple-shortcut.cc:51-84, on the path vector of pieces `ps` that starts at `q0` (`path->initial()`).  Returns
the pieces of the result. -/
def simpleShortcut (C : PEnv Q P K) (heur : Roadmap Q P → Nat → K) (q0 : Q) (ps : List P) : Except PlanErr (List P) :=
  match setInit C.toEnv (empty : Roadmap Q P) q0 with
  | .error e => .error (.road e)
  | .ok (r0, i) => match insertPieces C ps i r0 with
    | .error e => .error (.road e)
    | .ok (r1, ns) => match r1.configs[(i :: ns).getLast (by simp)]? with
      | none => .error (.road .badNode)
      | some q => match addGoalNode C.toEnv r1 q with
        | .error e => .error (.road e)
        | .ok (r2, _) => match outerLoop C (i :: ns) r2 with
          | .error e => .error (.road e)
          | .ok r3 => computePath C heur r3

/-! ## Specification -/

/-- A piece allowed in the result: a piece of the input, or a path of the steering method (with path projection) accepted by path
validation. -/
def Piece (C : PEnv Q P K) (ps : List P) (p : P) : Prop :=
  p ∈ ps ∨ ∃ a b, optSteer C a b = some p ∧ (C.validate false p).1 = true

/-- Every node can be reached from the init node. -/
def AllReach (i : Nat) (r : Roadmap Q P) : Prop := ∀ n, n < r.configs.length → NodeReach r i n

variable {C : PEnv Q P K} {Valid : P → Prop}

theorem hasEdge_mono {r r' : Roadmap Q P} (g : Grow r r') {a b : Nat} (h : HasEdge r a b) : HasEdge r' a b := by
  obtain ⟨e, he, h1⟩ := h
  exact ⟨e, g.edges.subset he, h1⟩

theorem nodeReach_mono {r r' : Roadmap Q P} (g : Grow r r') {a b : Nat} (h : NodeReach r a b) : NodeReach r' a b :=
  Relation.ReflTransGen.mono (fun _ _ => hasEdge_mono g) _ _ h

/-- All nodes belong to the same component and have distinct configurations. -/
structure Single (V : List (Nat × Nat)) (i : Nat) (r : Roadmap Q P) : Prop where
  back : ∀ n, n < r.configs.length → Relation.ReflTransGen (Link r V) n i
  nodup : r.configs.Nodup

theorem link_mono {V V' : List (Nat × Nat)} {r r' : Roadmap Q P} (g : Grow r r') (hV : V ⊆ V') {a b : Nat}
    (h : Relation.ReflTransGen (Link r V) a b) : Relation.ReflTransGen (Link r' V') a b :=
  Relation.ReflTransGen.mono (fun _ _ h => h.imp (hasEdge_mono g) (fun h => hV h)) _ _ h

theorem Single.cc {V : List (Nat × Nat)} {i : Nat} {r : Roadmap Q P} (h : Single V i r) (hi : Inv V r) (hr : AllReach i r) {a b : Nat}
    (ha : a < r.configs.length) (hb : b < r.configs.length) : r.cc a = r.cc b := by
  have fwd : ∀ n, n < r.configs.length → Relation.ReflTransGen (Link r V) i n := fun n hn =>
    Relation.ReflTransGen.mono (fun _ _ h => Or.inl h) _ _ (hr n hn)
  have key : ∀ x y, x < r.configs.length → y < r.configs.length → CReach r (r.cc x) (r.cc y) := fun x y hx hy =>
    hi.sem.reach_complete ((h.back x hx).trans (fwd y hy))
  exact hi.sem.acyclic _ (hi.wf.cc_live a ha) _ (key a b ha hb) (key b a hb ha)

/-- Consecutive nodes are linked by an edge that carries the piece. -/
def Links (r : Roadmap Q P) : List Nat → List P → Prop
  | [_], [] => True
  | n :: m :: ns, p :: ps => (∃ e ∈ r.edges, e.src = n ∧ e.dst = m ∧ e.path = p) ∧ Links r (m :: ns) ps
  | _, _ => False

theorem Links.mono {r r' : Roadmap Q P} (g : Grow r r') : ∀ {ns : List Nat} {ps : List P}, Links r ns ps → Links r' ns ps
  | [], _, h => h.elim
  | [_], [], _ => trivial
  | [_], _ :: _, h => h.elim
  | _ :: _ :: _, [], h => h.elim
  | _ :: _ :: _, _ :: _, ⟨⟨e, he, h1⟩, h2⟩ => ⟨⟨e, g.edges.subset he, h1⟩, Links.mono g h2⟩

theorem Links.split {r : Roadmap Q P} (as l : List P) {n : Nat} {ns : List Nat} (h : Links r (n :: ns) (as ++ l)) :
    ∃ pre m rest es, n :: ns = pre ++ m :: rest ∧ pre.length = as.length ∧ AStar.Chain r n es m ∧ es.map (·.path) = as ∧
      Links r (m :: rest) l := by
  induction as generalizing n ns with
  | nil => exact ⟨[], n, ns, [], rfl, rfl, rfl, rfl, h⟩
  | cons p as ih =>
    cases ns with
    | nil => exact h.elim
    | cons m ns =>
      obtain ⟨⟨e, he, h1, h2, h3⟩, h4⟩ := h
      obtain ⟨pre, m', rest, es, k1, k2, k3, k4, k5⟩ := ih h4
      exact ⟨n :: pre, m', rest, e :: es, by rw [k1]; rfl, by simp [k2], ⟨he, h1, by rw [h2]; exact k3⟩, by simp [h3, k4], k5⟩

theorem Links.last {r : Roadmap Q P} {n : Nat} {ns : List Nat} (h : Links r (n :: ns) []) : ns = [] := by
  cases ns with
  | nil => rfl
  | cons m ns => exact h.elim

theorem addNodeAndEdgeTo_single (hE : Separates C.toEnv) {V : List (Nat × Nat)} {r r' : Roadmap Q P} (h : Inv V r) {a i n : Nat}
    (ha : a < r.configs.length) (q : Q) (p : P) (hr : AllReach i r) (hs : Single V i r)
    (hok : addNodeAndEdgeTo C.toEnv r a q p = .ok (r', n)) : Single (oneWay r n (n, a) V) i r' := by
  obtain ⟨r1', n', l1, -, l3, -⟩ := h.addNodeAndEdgeTo C.toEnv q ha p
  rw [hok] at l1
  cases l1
  have hold : V ⊆ oneWay r n (n, a) V := by
    unfold oneWay; split
    · exact fun _ h => h
    · exact fun _ h => List.mem_cons_of_mem _ h
  rcases l3.configs with ⟨l4, l5⟩ | ⟨l4, l5⟩
  · exact ⟨fun m hm => link_mono l3.grow hold (hs.back m (by rw [← l5]; exact hm)), by rw [l5]; exact hs.nodup⟩
  · have hq : q ∉ r.configs := by
      intro hq
      obtain ⟨x, hx, hxq⟩ := List.getElem_of_mem hq
      obtain ⟨m, n1, h1, pre, post, c, g1, g2, g3, g4, g5⟩ := search_spec C.toEnv h.wf q (h.wf.cc_live a ha) false
      have hxc : x ∈ (r.comp (r.cc a)).nodes := by
        have := h.wf.mem x hx
        rw [hs.cc h hr hx ha] at this
        exact this
      have hle : m ≤ C.toEnv.dist q q := by
        have hxq' : r.configs[x]? = some q := by rw [List.getElem?_eq_getElem hx, hxq]
        rw [g1] at hxc
        rcases List.mem_append.1 hxc with hxc | hxc
        · exact le_of_lt (g4 x hxc q hxq')
        · rcases List.mem_cons.1 hxc with rfl | hxc
          · rw [g2] at hxq'
            rw [g3, Option.some.inj hxq']; exact le_refl _
          · exact g5 x hxc q hxq'
      have hc : c = q := hE c q (by rw [g3] at hle; exact hle)
      subst hc
      have hin : addNodeIn C.toEnv r c (r.cc a) = .ok (r, n1) := by
        unfold addNodeIn
        rw [if_pos (by omega), h1]
        dsimp only
        rw [if_pos g2]
      unfold addNodeAndEdgeTo at hok
      rw [if_neg (by omega), hin] at hok
      change (do let r2 ← addEdge r a n1 p; return (r2, n1)) = _ at hok
      obtain ⟨r2, m1, m2, m3⟩ := h.addEdge p ha (lt_of_get g2)
      rw [m1] at hok
      have hh : (r2, n1) = (r', n) := Except.ok.inj hok
      cases hh
      have := m3.configs
      rw [l5] at this
      simp at this
    refine ⟨?_, ?_⟩
    · intro m hm
      by_cases hm' : m < r.configs.length
      · exact link_mono l3.grow hold (hs.back m hm')
      · have : m = n := by rw [l5] at hm; simp at hm; omega
        subst this
        refine Relation.ReflTransGen.head (b := a) (Or.inr ?_) (link_mono l3.grow hold (hs.back a ha))
        unfold oneWay
        rw [if_neg hm']; simp
    · rw [l5, List.nodup_append]
      refine ⟨hs.nodup, by simp, fun x hx y hy hxy => ?_⟩
      rw [List.mem_singleton.1 hy] at hxy
      exact hq (hxy ▸ hx)

theorem insertPieces_spec (hE : Separates C.toEnv) (ps : List P) {V : List (Nat × Nat)} {r : Roadmap Q P} (h : Good C Valid V r)
    {node i : Nat} {a b : Q} (hn : r.configs[node]? = some a) (hc : Connects C Valid a ps b) (hr : AllReach i r) (hsg : Single V i r) :
    ∃ r' ns V', insertPieces C ps node r = .ok (r', ns) ∧ Good C Valid V' r' ∧ Ext r r' ∧ AllReach i r' ∧ Single V' i r' ∧
      (∀ n ∈ ns, n < r'.configs.length) ∧ r'.configs[(node :: ns).getLast (by simp)]? = some b ∧ Links r' (node :: ns) ps := by
  induction ps generalizing V r node a with
  | nil =>
    obtain rfl : a = b := hc
    exact ⟨r, [], V, rfl, h, Ext.refl r, hr, hsg, by simp, hn, trivial⟩
  | cons p ps ih =>
    obtain ⟨h1, rfl, h3⟩ := hc
    obtain ⟨r1, n, k1, k2, k3, k4⟩ := h.addNodeAndEdgeTo h1 hn
    have hed := addNodeAndEdgeTo_edges h.inv (lt_of_get hn) (C.fin p) p k1
    have hr1 : AllReach i r1 := by
      intro m hm
      obtain ⟨r1', n', l1, -, l3, -⟩ := h.inv.addNodeAndEdgeTo C.toEnv (C.fin p) (lt_of_get hn) p
      rw [k1] at l1
      cases l1
      have hold : ∀ m, m < r.configs.length → NodeReach r1 i m := fun m hm => nodeReach_mono k3.grow (hr m hm)
      rcases l3.configs with ⟨_, l4⟩ | ⟨l4, l5⟩
      · exact hold m (by rw [← l4]; exact hm)
      · by_cases hm' : m < r.configs.length
        · exact hold m hm'
        · have : m = n := by rw [l5] at hm; simp at hm; omega
          subst this
          refine (hold node (lt_of_get hn)).tail ⟨⟨r.edges.length, node, m, p⟩, ?_, rfl, rfl⟩
          rw [hed]; simp
    have hsg1 := addNodeAndEdgeTo_single hE h.inv (lt_of_get hn) (C.fin p) p hr hsg k1
    obtain ⟨r2, ns, V2, m1, m2, m3, m4, m4', m5, m6, m7⟩ := ih k2 k4 h3 hr1 hsg1
    refine ⟨r2, n :: ns, V2, by simp only [insertPieces, k1, m1], m2, k3.trans m3, m4, m4', ?_, ?_, ?_, m7⟩
    · intro x hx
      rcases List.mem_cons.1 hx with rfl | hx
      · exact lt_of_get (m3.grow.get k4)
      · exact m5 x hx
    · rw [List.getLast_cons (by simp)]; exact m6
    · exact ⟨⟨r.edges.length, node, n, p⟩, m3.grow.edges.subset (by rw [hed]; simp), rfl, rfl, rfl⟩

/-- The accepted steering path between the nodes is in the roadmap. -/
def Tried (C : PEnv Q P K) (r : Roadmap Q P) (a b : Nat) : Prop :=
  ∀ x y p, r.configs[a]? = some x → r.configs[b]? = some y → optSteer C x y = some p → (C.validate false p).1 = true →
    ∃ e ∈ r.edges, e.src = a ∧ e.dst = b ∧ e.path = p

theorem Tried.mono {r r' : Roadmap Q P} {a b : Nat} (h : Tried C r a b) (g : Grow r r') (hc : r'.configs = r.configs) : Tried C r' a b := by
  intro x y p h1 h2 h3 h4
  rw [hc] at h1 h2
  obtain ⟨e, he, k⟩ := h x y p h1 h2 h3 h4
  exact ⟨e, g.edges.subset he, k⟩

theorem tryPair_spec (hs : ∀ a b p, optSteer C a b = some p → C.ini p = a ∧ C.fin p = b)
    (hv : ∀ a b p, optSteer C a b = some p → (C.validate false p).1 = true → Valid p)
    {V : List (Nat × Nat)} {r : Roadmap Q P} (h : Good C Valid V r) {a b : Nat} (ha : a < r.configs.length) (hb : b < r.configs.length) :
    ∃ r', tryPair C r a b = .ok r' ∧ Good C Valid V r' ∧ Ext r r' ∧ r'.configs = r.configs ∧ Tried C r' a b := by
  unfold tryPair
  rw [List.getElem?_eq_getElem ha, List.getElem?_eq_getElem hb]
  dsimp only
  have hget : ∀ x y, r.configs[a]? = some x → r.configs[b]? = some y → r.configs[a] = x ∧ r.configs[b] = y := by
    intro x y h1 h2
    rw [List.getElem?_eq_getElem ha] at h1
    rw [List.getElem?_eq_getElem hb] at h2
    exact ⟨Option.some.inj h1, Option.some.inj h2⟩
  cases ho : optSteer C r.configs[a] r.configs[b] with
  | none =>
    refine ⟨r, rfl, h, Ext.refl r, rfl, ?_⟩
    intro x y p h1 h2 h3
    obtain ⟨rfl, rfl⟩ := hget x y h1 h2
    rw [ho] at h3; simp at h3
  | some p =>
    dsimp only
    by_cases hp : (C.validate false p).1 = true
    · rw [if_pos hp]
      obtain ⟨k1, k2⟩ := hs _ _ _ ho
      obtain ⟨r', m1, m2, m3, m4, m5⟩ := h.addEdge (hv _ _ _ ho hp) (a := a) (b := b)
        (by rw [List.getElem?_eq_getElem ha, k1]) (by rw [List.getElem?_eq_getElem hb, k2])
      refine ⟨r', m1, m2, m3, m4, ?_⟩
      intro x y p' h1 h2 h3 _
      rw [m4] at h1 h2
      obtain ⟨rfl, rfl⟩ := hget x y h1 h2
      rw [ho] at h3
      have := Option.some.inj h3
      subst this
      exact ⟨⟨r.edges.length, a, b, p⟩, by rw [m5.edges]; simp, rfl, rfl, rfl⟩
    · rw [if_neg hp]
      refine ⟨r, rfl, h, Ext.refl r, rfl, ?_⟩
      intro x y p' h1 h2 h3 h4
      obtain ⟨rfl, rfl⟩ := hget x y h1 h2
      rw [ho] at h3
      have := Option.some.inj h3
      subst this
      exact absurd h4 hp

theorem innerLoop_spec (hs : ∀ a b p, optSteer C a b = some p → C.ini p = a ∧ C.fin p = b)
    (hv : ∀ a b p, optSteer C a b = some p → (C.validate false p).1 = true → Valid p)
    {V : List (Nat × Nat)} {a : Nat} (bs : List Nat) {r : Roadmap Q P} (h : Good C Valid V r) (ha : a < r.configs.length)
    (hb : ∀ b ∈ bs, b < r.configs.length) :
    ∃ r', innerLoop C a bs r = .ok r' ∧ Good C Valid V r' ∧ Ext r r' ∧ r'.configs = r.configs ∧ ∀ b ∈ bs, Tried C r' a b := by
  induction bs generalizing r with
  | nil => exact ⟨r, rfl, h, Ext.refl r, rfl, by simp⟩
  | cons b bs ih =>
    obtain ⟨r1, k1, k2, k3, k4, k5⟩ := tryPair_spec hs hv h ha (hb b (by simp))
    obtain ⟨r2, m1, m2, m3, m4, m5⟩ := ih k2 (by rw [k4]; exact ha) (fun x hx => by rw [k4]; exact hb x (by simp [hx]))
    refine ⟨r2, by simp only [innerLoop, k1, m1], m2, k3.trans m3, by rw [m4, k4], ?_⟩
    intro x hx
    rcases List.mem_cons.1 hx with rfl | hx
    · exact k5.mono m3.grow m4
    · exact m5 x hx

theorem outerLoop_spec (hs : ∀ a b p, optSteer C a b = some p → C.ini p = a ∧ C.fin p = b)
    (hv : ∀ a b p, optSteer C a b = some p → (C.validate false p).1 = true → Valid p)
    {V : List (Nat × Nat)} (ns : List Nat) {r : Roadmap Q P} (h : Good C Valid V r) (hn : ∀ b ∈ ns, b < r.configs.length) :
    ∃ r', outerLoop C ns r = .ok r' ∧ Good C Valid V r' ∧ Ext r r' ∧ r'.configs = r.configs ∧
      ∀ pre a x mid b post, ns = pre ++ a :: x :: (mid ++ b :: post) → Tried C r' a b := by
  induction ns generalizing r with
  | nil => exact ⟨r, rfl, h, Ext.refl r, rfl, by intro pre a x mid b post h; simp at h⟩
  | cons a ns ih =>
    obtain ⟨r1, k1, k2, k3, k4, k5⟩ := innerLoop_spec hs hv ns.tail h (hn a (by simp))
      (fun b hb => hn b (by simp [List.mem_of_mem_tail hb]))
    obtain ⟨r2, m1, m2, m3, m4, m5⟩ := ih k2 (fun x hx => by rw [k4]; exact hn x (by simp [hx]))
    refine ⟨r2, by simp only [outerLoop, k1, m1], m2, k3.trans m3, by rw [m4, k4], ?_⟩
    intro pre a' x mid b post heq
    cases pre with
    | nil =>
      simp only [List.nil_append, List.cons.injEq] at heq
      obtain ⟨rfl, rfl⟩ := heq
      exact (k5 b (by simp)).mono m3.grow m4
    | cons y pre =>
      simp only [List.cons_append, List.cons.injEq] at heq
      exact m5 pre a' x mid b post heq.2

theorem connects_imp {V1 V2 : P → Prop} {a b : Q} {l : List P} (h : Connects C V1 a l b) (hi : ∀ p ∈ l, V1 p → V2 p) :
    Connects C V2 a l b := by
  induction l generalizing a with
  | nil => exact h
  | cons p l ih => exact ⟨hi p (by simp) h.1, h.2.1, ih h.2.2 (fun x hx => hi x (by simp [hx]))⟩

/-- The roadmap on which the solution is searched. -/
structure Built (C : PEnv Q P K) (ps : List P) (q0 q1 : Q) (V : List (Nat × Nat)) (g : Nat) (ns : List Nat) (r : Roadmap Q P) : Prop where
  good : Good C (Piece C ps) V r
  init : r.init = some 0
  goals : r.goals = [g]
  start : r.configs[0]? = some q0
  goal : r.configs[g]? = some q1
  tagged : Tagged q0 [q1] r
  reach : NodeReach r 0 g
  links : Links r (0 :: ns) ps
  last : (0 :: ns).getLast (by simp) = g
  tried : ∀ pre a x mid b post, 0 :: ns = pre ++ a :: x :: (mid ++ b :: post) → Tried C r a b

theorem built_spec (hE : Separates C.toEnv) (hs : ∀ a b p, optSteer C a b = some p → C.ini p = a ∧ C.fin p = b)
    (heur : Roadmap Q P → Nat → K) {q0 q1 : Q} {ps : List P} (hps : Connects C (fun _ => True) q0 ps q1) :
    ∃ r V g ns, simpleShortcut C heur q0 ps = computePath C heur r ∧ Built C ps q0 q1 V g ns r := by
  have hps' : Connects C (Piece C ps) q0 ps q1 := connects_imp hps (fun p hp _ => Or.inl hp)
  have hv : ∀ a b p, optSteer C a b = some p → (C.validate false p).1 = true → Piece C ps p := fun a b p h1 h2 => Or.inr ⟨a, b, h1, h2⟩
  have g0 : Good C (Piece C ps) [] (empty : Roadmap Q P) := ⟨Inv.empty, by intro e he; simp [empty] at he⟩
  obtain ⟨r0, i, h1, h2, h3, h4, h5, h6, h7, h8⟩ := g0.inv.addNode C.toEnv q0
  obtain ⟨r0', i', h1', g1, e1, -⟩ := g0.addNode q0
  rw [h1] at h1'
  cases h1'
  have hcfg : r0.configs = [q0] ∧ i = 0 := by
    rcases h8 with ⟨h8, h9⟩ | ⟨_, h9, h10, _⟩
    · simp [empty] at h9
    · exact ⟨by rw [h10]; rfl, by rw [h9]; rfl⟩
  obtain ⟨hcfg, rfl⟩ := hcfg
  have g2 : Good C (Piece C ps) [] { r0 with init := some 0 } := g1.setInit (lt_of_get h3)
  have hset : setInit C.toEnv (empty : Roadmap Q P) q0 = .ok ({ r0 with init := some 0 }, 0) := by
    simp only [setInit, h1]; rfl
  have hall : AllReach 0 { r0 with init := some 0 } := by
    intro n hn
    have : n = 0 := by
      have : n < r0.configs.length := hn
      rw [hcfg] at this; simp at this; exact this
    subst this
    exact Relation.ReflTransGen.refl
  have hsg : Single [] 0 { r0 with init := some 0 } := by
    refine ⟨?_, by rw [show ({ r0 with init := some 0 } : Roadmap Q P).configs = [q0] from hcfg]; simp⟩
    intro n hn
    have : n = 0 := by
      have : n < r0.configs.length := hn
      rw [hcfg] at this; simp at this; exact this
    subst this
    exact Relation.ReflTransGen.refl
  obtain ⟨r1, ns, V1, k1, k2, k3, k4, k4', k5, k6, k7⟩ := insertPieces_spec hE ps g2 (node := 0) (i := 0) (a := q0) (b := q1) h3 hps' hall hsg
  -- the goal node
  obtain ⟨r2, g, m1, m2, m3, m4, m5, m6, m7, m8⟩ := k2.inv.addNode C.toEnv q1
  have hr2 : r2 = r1 := by
    rcases m8 with ⟨m8, _⟩ | ⟨_, _, _, m8 | ⟨k, m, hk, hm⟩⟩
    · exact m8
    · have := lt_of_get k6
      rw [m8] at this; simp at this
    · exfalso
      have hq : q1 ∈ r1.configs := List.mem_of_getElem? k6
      have hne : r1.configs ≠ [] := List.ne_nil_of_mem hq
      obtain ⟨k', m', hk', ⟨c, hc1, hc2⟩, hmin⟩ := nearestNode_spec C.toEnv k2.inv.wf q1 false hne
      rw [hk] at hk'; cases hk'
      have := hmin q1 hq
      rw [hc2] at this
      exact hm (by rw [hc1, hE c q1 this])
  subst hr2
  have hgoal : r2.goals = [] := by
    rw [k3.goals]
    show r0.goals = []
    rw [h7]; rfl
  have g3 : Good C (Piece C ps) V1 { r2 with goals := r2.goals ++ [g] } := by
    refine k2.setGoals ?_
    intro x hx
    rw [hgoal] at hx
    rw [List.mem_singleton.1 hx]; exact lt_of_get m3
  have hadd : addGoalNode C.toEnv r2 q1 = .ok ({ r2 with goals := r2.goals ++ [g] }, g) := by
    simp only [addGoalNode, m1]; rfl
  have hi2 : r2.init = some 0 := by rw [k3.init]
  obtain ⟨r3, n1, n2, n3, n4, n5⟩ := outerLoop_spec hs hv (0 :: ns) g3 (by
    intro b hb
    rcases List.mem_cons.1 hb with rfl | hb
    · exact k2.inv.init 0 hi2
    · exact k5 b hb)
  have hfin : simpleShortcut C heur q0 ps = computePath C heur r3 := by
    unfold simpleShortcut
    rw [hset]; dsimp only
    rw [k1]; dsimp only
    rw [k6]; dsimp only
    rw [hadd]; dsimp only
    rw [n1]
  have hi3 : r3.init = some 0 := by rw [n3.init]; exact hi2
  have hg3 : r3.goals = [g] := by rw [n3.goals]; simp [hgoal]
  have h0 : r3.configs[0]? = some q0 := by
    rw [n4]
    exact k3.grow.get (r := { r0 with init := some 0 }) h3
  have hgq : r3.configs[g]? = some q1 := by rw [n4]; exact m3
  have hlast : (0 :: ns).getLast (by simp) = g := by
    have h1 := k6
    have h2 := m3
    rw [← h2] at h1
    have hl := lt_of_get k6
    have hl' := lt_of_get m3
    rw [List.getElem?_eq_getElem hl, List.getElem?_eq_getElem hl'] at h1
    exact (List.Nodup.getElem_inj_iff k4'.nodup).1 (Option.some.inj h1)
  have ht : Tagged q0 [q1] r3 := by
    refine ⟨⟨0, hi3, h0⟩, ?_, ?_⟩
    · intro x hx
      rw [hg3] at hx
      rw [List.mem_singleton.1 hx]; exact ⟨q1, by simp, hgq⟩
    · intro x hx
      rw [List.mem_singleton.1 hx]; exact ⟨g, by simp [hg3], hgq⟩
  have hreach : NodeReach r3 0 g := by
    have hg : g < r2.configs.length := lt_of_get m3
    have : NodeReach r2 0 g := k4 g hg
    exact nodeReach_mono (r := r2) ⟨n3.grow.configs, n3.grow.edges⟩ this
  exact ⟨r3, V1, g, ns, hfin, n2, hi3, hg3, h0, hgq, ht, hreach, Links.mono (r := r2) ⟨n3.grow.configs, n3.grow.edges⟩ k7, hlast, n5⟩

/-- C42 (SimpleShortcut): for any continuous input from `q0` to `q1`, a distance that separates configurations and a steering method that
joins its arguments, `optimize` raises no error (if the ends are distinct, or the steering method joins `q0` to itself) and returns a
non-empty continuous sequence from `q0` to `q1` made of pieces of the input and of accepted steering paths; when the ends are the same
configuration it is the path of the steering method from this configuration to itself. -/
theorem C42_simple (hE : Separates C.toEnv) (hs : ∀ a b p, optSteer C a b = some p → C.ini p = a ∧ C.fin p = b)
    (heur : Roadmap Q P → Nat → K) {q0 q1 : Q} {ps : List P} (hps : Connects C (fun _ => True) q0 ps q1)
    (hq : q0 ≠ q1 ∨ C.steer q0 q0 ≠ none) :
    ∃ l, simpleShortcut C heur q0 ps = .ok l ∧ l ≠ [] ∧
      (Connects C (Piece C ps) q0 l q1 ∨ (q0 = q1 ∧ ∃ p, C.steer q0 q0 = some p ∧ l = [p])) := by
  obtain ⟨r3, V, g, ns, hfin, hb⟩ := built_spec hE hs heur hps
  have hgq := hb.goal
  have hok : ∃ l, computePath C heur r3 = .ok l := by
    unfold computePath
    rw [hb.init]; dsimp only
    rcases AStar.solution_spec hb.good.inv hb.init C.len (heur r3) (r3.configs.length + 1) (le_refl _) with ⟨g', es, p1, p2, p3, -⟩ | ⟨p1, p2⟩
    · rw [p1]; dsimp only
      by_cases he : es = []
      · rw [if_pos he, hb.start]; dsimp only
        subst he
        have hig : 0 = g' := p3.chain hb.good.inv.adj
        rw [hb.goals] at p2
        rw [← hig] at p2
        rw [← List.mem_singleton.1 p2, hb.start] at hgq
        have hqq := Option.some.inj hgq
        cases hst : C.steer q0 q0 with
        | none => exact absurd hst (hq.resolve_left (by simp [hqq]))
        | some p => exact ⟨_, rfl⟩
      · rw [if_neg he]; exact ⟨_, rfl⟩
    · exact absurd hb.reach (p2 g (by simp [hb.goals]))
  obtain ⟨l, hl⟩ := hok
  refine ⟨l, by rw [hfin, hl], ?_⟩
  rcases computePath_spec hb.good hb.tagged heur hl with ⟨x, hx, q1', q2⟩ | ⟨hx, p, q1', rfl⟩
  · rw [List.mem_singleton.1 hx] at q2
    exact ⟨q1', Or.inl q2⟩
  · exact ⟨by simp, Or.inr ⟨List.mem_singleton.1 hx, p, q1', rfl⟩⟩

/-- C70: assume that the length of a path (of the input, or given by the steering method) is the distance between its ends, for a distance
that separates configurations and satisfies the triangle inequality.  The result of SimpleShortcut is not longer than the input, and not
longer than the input where any sequence `bs` of at least two consecutive pieces is replaced by an accepted steering path between its ends. -/
theorem C70_simple_shorter (hE : Separates C.toEnv) (hs : ∀ a b p, optSteer C a b = some p → C.ini p = a ∧ C.fin p = b)
    (inf : K) (hinf : ∀ a b, C.dist a b < inf) (hpos : ∀ a b, 0 ≤ C.dist a b)
    (hzero : ∀ a, C.dist a a = 0) (htri : ∀ a b c, C.dist a c ≤ C.dist a b + C.dist b c)
    {q0 q1 : Q} {ps : List P} (hps : Connects C (fun _ => True) q0 ps q1)
    (hlen : ∀ p, Piece C ps p → C.len p = C.dist (C.ini p) (C.fin p)) (hst : ∀ p, C.steer q0 q0 = some p → C.len p = 0)
    {l : List P} (hl : simpleShortcut C (fun r => AStar.heuristic C.dist inf r) q0 ps = .ok l) :
    (l.map C.len).sum ≤ (ps.map C.len).sum ∧
    ∀ as b1 b2 bs cs p x y, ps = as ++ (b1 :: b2 :: bs) ++ cs → Connects C (fun _ => True) q0 as x →
      Connects C (fun _ => True) x (b1 :: b2 :: bs) y → optSteer C x y = some p → (C.validate false p).1 = true →
      (l.map C.len).sum ≤ (as.map C.len).sum + C.len p + (cs.map C.len).sum := by
  obtain ⟨r, V, g, ns, hfin, hb⟩ := built_spec hE hs (fun r => AStar.heuristic C.dist inf r) hps
  rw [hfin] at hl
  have hedge : ∀ e ∈ r.edges, ∀ a b, r.configs[e.src]? = some a → r.configs[e.dst]? = some b → C.len e.path = C.dist a b := by
    intro e he a b h1 h2
    obtain ⟨k1, k2, k3⟩ := hb.good.edges e he
    rw [k2] at h1; rw [k3] at h2
    rw [hlen _ k1, Option.some.inj h1, Option.some.inj h2]
  have hpar : ∀ e ∈ r.edges, ∀ e' ∈ r.edges, e.src = e'.src → e.dst = e'.dst → C.len e.path = C.len e'.path := by
    intro e he e' he' h1 h2
    obtain ⟨k1, k2, k3⟩ := hb.good.edges e he
    rw [hedge e he _ _ k2 k3, hedge e' he' _ _ (by rw [← h1]; exact k2) (by rw [← h2]; exact k3)]
  have hopt : ∀ p, AStar.Chain r 0 p g → (l.map C.len).sum ≤ ((p.map (·.path)).map C.len).sum := by
    intro p hp
    unfold computePath at hl
    rw [hb.init] at hl; dsimp only at hl
    rcases AStar.solution_spec hb.good.inv hb.init C.len (AStar.heuristic C.dist inf r) (r.configs.length + 1) (le_refl _) with
      ⟨g', es, p1, p2, p3, -⟩ | ⟨p1, p2⟩
    · rw [p1] at hl; dsimp only at hl
      have hle := AStar.optimal_distance_inv C.toEnv inf hinf hpos hzero htri hb.good.inv 0 hb.init C.len (r.configs.length + 1) (le_refl _)
        g' es (fun e he a b h1 h2 => le_of_eq (hedge e he a b h1 h2).symm) hpar p1 g (by simp [hb.goals]) p hp
      by_cases he : es = []
      · subst he
        rw [if_pos rfl, hb.start] at hl; dsimp only at hl
        cases hs' : C.steer q0 q0 with
        | none => rw [hs'] at hl; simp at hl
        | some p0 =>
          rw [hs'] at hl
          have := Except.ok.inj hl
          subst this
          have h0 := hst p0 hs'
          rw [List.map_map]
          have h1 : (0 : K) ≤ (p.map (fun e => C.len e.path)).sum := by simpa using hle
          simpa [h0, Function.comp_def] using h1
      · rw [if_neg he] at hl
        have := Except.ok.inj hl
        subst this
        rw [List.map_map, List.map_map]
        exact hle
    · rw [p1] at hl; simp at hl
  have chain_append : ∀ {a b c : Nat} {l1 l2 : List (Edge P)}, AStar.Chain r a l1 b → AStar.Chain r b l2 c → AStar.Chain r a (l1 ++ l2) c := by
    intro a b c l1
    induction l1 generalizing a with
    | nil => intro l2 h1 h2; have : a = b := h1; subst this; exact h2
    | cons e l1 ih => intro l2 h1 h2; exact ⟨h1.1, h1.2.1, ih h1.2.2 h2⟩
  have chain_conf : ∀ {a b : Nat} {es : List (Edge P)} {x y : Q}, AStar.Chain r a es b → r.configs[a]? = some x →
      Connects C (fun _ => True) x (es.map (·.path)) y → r.configs[b]? = some y := by
    intro a b es
    induction es generalizing a with
    | nil =>
      intro x y h1 h2 h3
      have : a = b := h1
      subst this
      have : x = y := h3
      subst this
      exact h2
    | cons e es ih =>
      intro x y h1 h2 h3
      exact ih h1.2.2 (hb.good.edges e h1.1).dst h3.2.2
  refine ⟨?_, ?_⟩
  · obtain ⟨pre, m, rest, es, k1, k2, k3, k4, k5⟩ := Links.split ps [] (n := 0) (ns := ns) (by simpa using hb.links)
    have hr := k5.last
    subst hr
    have : m = g := by rw [← hb.last]; simp [k1]
    subst this
    have := hopt es k3
    rw [k4] at this
    exact this
  · intro as b1 b2 bs cs p x y hps' hx hy hp hpv
    obtain ⟨pre, m, rest, es, k1, k2, k3, k4, k5⟩ := Links.split as ((b1 :: b2 :: bs) ++ cs) (n := 0) (ns := ns)
      (by rw [← List.append_assoc, ← hps']; exact hb.links)
    obtain ⟨pre', m', rest', es', n1, n2, n3, n4, n5⟩ := Links.split (b1 :: b2 :: bs) cs k5
    obtain ⟨pre'', m'', rest'', es'', o1, o2, o3, o4, o5⟩ := Links.split cs [] (by simpa using n5)
    have hr := o5.last
    subst hr
    have hxm : r.configs[m]? = some x := chain_conf k3 hb.start (by rw [k4]; exact hx)
    have hym : r.configs[m']? = some y := chain_conf n3 hxm (by rw [n4]; exact hy)
    have hg : m'' = g := by
      rw [← hb.last]
      simp only [k1, n1, o1]
      simp
    subst hg
    obtain ⟨a1, a2, mid, rfl⟩ : ∃ a1 a2 mid, pre' = a1 :: a2 :: mid := by
      cases pre' with
      | nil => simp at n2
      | cons a1 t => cases t with
        | nil => simp at n2
        | cons a2 mid => exact ⟨a1, a2, mid, rfl⟩
    have ha1 : m = a1 := by simp only [List.cons_append, List.cons.injEq] at n1; exact n1.1
    subst ha1
    obtain ⟨e, he1, he2, he3, he4⟩ := hb.tried pre m a2 mid m' rest' (by rw [k1, n1]; rfl) x y p hxm hym hp hpv
    have hc : AStar.Chain r 0 (es ++ e :: es'') m'' := chain_append k3 ⟨he1, he2, by rw [he3]; exact o3⟩
    have := hopt _ hc
    simp only [List.map_append, List.map_cons, k4, he4, o4, List.sum_append, List.sum_cons] at this
    rw [add_assoc]
    exact this

/-! ## Witness: points on a line with a wall (`Planner.Line`) -/

/-- the hypotheses hold, and the detour 0, 2, 5, 3 becomes 0, 3 -/
example : Separates Line.env.toEnv ∧ (∀ a b p, optSteer Line.env a b = some p → Line.env.ini p = a ∧ Line.env.fin p = b) ∧
    Connects Line.env (fun _ => True) 0 [(0, 2, 0), (2, 5, 0), (5, 3, 0)] 3 := by
  refine ⟨?_, ?_, ?_⟩
  · intro x q h
    have h : max (x - q) (q - x) ≤ max (q - q) (q - q) := h
    simp at h; omega
  · intro a b p h
    simp only [optSteer, Line.env] at h
    split at h
    · simp at h
    · rename_i dp hd
      split at hd
      · cases hd; cases h; exact ⟨rfl, rfl⟩
      · simp at hd
  · exact ⟨trivial, rfl, trivial, rfl, trivial, rfl, rfl⟩

example : (match simpleShortcut Line.env (fun r => AStar.heuristic Line.env.dist 1000 r) 0 [(0, 2, 0), (2, 5, 0), (5, 3, 0)] with
    | .ok l => some l | _ => none) = some [(0, 3, 0)] := by decide +kernel

end Verif.Optim.Simple
