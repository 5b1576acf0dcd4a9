import Verif.Planner.BiRRT
import Verif.Planner.Complete
import Verif.Planner.Wrappers
set_option linter.unusedSectionVars false

/-!
# Completeness of BiRRT (C153)

Without constraints, from an empty roadmap, `BiRRTPlanner` solves every problem whose shots contain, in order and possibly among others, a chain of configurations that leads from the init configuration to a goal, each of
which can be reached by an accepted path from all configurations closer than some radius `R`.  No configuration shot may be that of a node when it is shot (`C66_birrt_null_counterexample`).
-/
namespace Verif.Planner
open Verif.Roadmap Relation
variable {Q P K : Type} [DecidableEq Q] [AddCommGroup K] [LinearOrder K] [IsOrderedAddMonoid K]

/-! ## Specification -/

/-- The chain of shots: in order, the first one at most `R` from the init configuration, each one at most `R` from the previous one, the last one at most `R` before a goal, each one reached by an accepted path from
everything that is at most `R` from it; from the last one an accepted path leads to everything at distance at most `R`. -/
structure BiChain (C : PEnv Q P K) (R : K) (q0 : Q) (gs : List Q) (shoot : Nat → Q) (idx : Nat → Nat) (k : Nat) : Prop where
  mono : ∀ i < k, idx i < idx (i + 1)
  first : C.dist q0 (shoot (idx 0)) ≤ R
  next : ∀ i < k, C.dist (shoot (idx i)) (shoot (idx (i + 1))) ≤ R
  last : ∃ g ∈ gs, C.dist (shoot (idx k)) g ≤ R
  sees : ∀ i ≤ k, ∀ x, C.dist x (shoot (idx i)) ≤ R → ∃ p, C.steer x (shoot (idx i)) = some p ∧ (C.validate false p).1 = true
  seen : ∀ x, C.dist (shoot (idx k)) x ≤ R → ∃ p, C.steer (shoot (idx k)) x = some p ∧ (C.validate true p).1 = true

/-! ## Insertions in a component -/

variable {C : PEnv Q P K} {Valid : P → Prop} {V : List (Nat × Nat)} {r : Roadmap Q P}

theorem implAddEdge_comp {r r' : Roadmap Q P} {e : Edge P} (h : implAddEdge r e = .ok r') (hc : r.cc e.src = r.cc e.dst) : r'.comp = r.comp := by
  unfold implAddEdge connect at h
  simp only [hc] at h
  unfold canReach canReachLoop at h
  simp only [if_true] at h
  rw [← Except.ok.inj h]

/-- An edge between two nodes of the same component changes no component. -/
theorem addEdge_comp_same {r r' : Roadmap Q P} {a b : Nat} {p : P} (h : addEdge r a b p = .ok r') (hc : r.cc a = r.cc b) : r'.comp = r.comp := by
  by_cases hb : (decide (r.configs.length ≤ a) || decide (r.configs.length ≤ b)) = true
  · unfold addEdge at h
    rw [if_pos hb] at h
    simp [throw, throwThe, MonadExceptOf.throw, bind, Except.bind] at h
  · have h' : ((if (!isOutNeighbor r a b) = true then addOutEdge r ⟨r.edges.length, a, b, p⟩ else pure r) >>= fun r1 =>
        (if (!isInNeighbor r1 b a) = true then addInEdge r1 ⟨r.edges.length, a, b, p⟩ else pure r1) >>= fun r2 =>
          implAddEdge r2 ⟨r.edges.length, a, b, p⟩) = .ok r' := by
      rw [← h]
      unfold addEdge
      rw [if_neg hb]
      dsimp only
      split <;> (apply bind_congr; intro r1; split <;> rfl)
    obtain ⟨r1, h1, h2⟩ := bind_ok h'
    obtain ⟨r2, h3, h4⟩ := bind_ok h2
    have k1 : SameCC r r1 ∧ r1.comp = r.comp := by
      split at h1
      · refine ⟨addOutEdge_same h1, ?_⟩
        unfold addOutEdge at h1
        split at h1
        · simp at h1
        · rw [← Except.ok.inj h1]
      · rw [← Except.ok.inj h1]; exact ⟨⟨rfl, rfl⟩, rfl⟩
    have k2 : SameCC r1 r2 ∧ r2.comp = r1.comp := by
      split at h3
      · refine ⟨addInEdge_same h3, ?_⟩
        unfold addInEdge at h3
        split at h3
        · simp at h3
        · rw [← Except.ok.inj h3]
      · rw [← Except.ok.inj h3]; exact ⟨⟨rfl, rfl⟩, rfl⟩
    have k3 := k1.1.trans k2.1
    rw [implAddEdge_comp h4 (by rw [k3.2]; exact hc), k2.2, k1.2]

/-- The insertion of a node in the component of `a` with an edge changes neither the components of the other nodes nor the links between components. -/
structure Put (r r' : Roadmap Q P) (a n : Nat) : Prop where
  cc : ∀ m, m < r.configs.length → r'.cc m = r.cc m
  new : r'.cc n = r.cc a
  only : ∀ m, m < r'.configs.length → m < r.configs.length ∨ m = n
  live : r'.live = r.live
  tos : ∀ c, (r'.comp c).tos = (r.comp c).tos

theorem addNodeIn_put (h : Inv V r) (q : Q) {a : Nat} (hla : a < r.configs.length) {r1 : Roadmap Q P} {n : Nat} (h1 : addNodeIn C.toEnv r q (r.cc a) = .ok (r1, n)) : Put r r1 a n ∧ r1.cc n = r1.cc a := by
  obtain ⟨r1', m, h1', h2, h3, h4⟩ := h.addNodeIn C.toEnv q hla
  rw [h1] at h1'
  obtain ⟨rfl, rfl⟩ := Prod.mk.inj (Except.ok.inj h1')
  rcases h4 with ⟨rfl, k1, k2⟩ | ⟨hr1, hn, -⟩
  · exact ⟨⟨fun _ _ => rfl, k2, fun m hm => Or.inl hm, rfl, fun _ => rfl⟩, k2⟩
  · subst hr1 hn
    refine ⟨⟨fun k hk => ?_, ?_, ?_, rfl, ?_⟩, ?_⟩
    · simp only [pushNodeIn]
      rw [set_ne _ _ (by omega)]
    · simp only [pushNodeIn, set_eq]
    · intro m hm
      simp only [pushNodeIn, List.length_append, List.length_cons, List.length_nil] at hm
      omega
    · intro c
      simp only [pushNodeIn]
      by_cases hc : c = r.cc a
      · rw [hc, set_eq]
      · rw [set_ne _ _ hc]
    · simp only [pushNodeIn, set_eq]
      rw [set_ne _ _ (by omega)]

theorem Put.edge {r r1 r2 : Roadmap Q P} {a n x y : Nat} {p : P} (h : Put r r1 a n) (hl : r2.configs = r1.configs) (he : addEdge r1 x y p = .ok r2) (hxy : r1.cc x = r1.cc y) : Put r r2 a n := by
  obtain ⟨k1, k2⟩ := addEdge_live_same he hxy
  have k3 := addEdge_comp_same he hxy
  exact ⟨fun m hm => by rw [k2]; exact h.cc m hm, by rw [k2]; exact h.new, fun m hm => h.only m (by rw [← hl]; exact hm), by rw [k1]; exact h.live, fun c => by rw [k3]; exact h.tos c⟩

theorem addEdge_configs {r1 r2 : Roadmap Q P} {x y : Nat} {p : P} (he : addEdge r1 x y p = .ok r2) (hxy : r1.cc x = r1.cc y) : r2.configs = r1.configs := by
  by_cases hb : (decide (r1.configs.length ≤ x) || decide (r1.configs.length ≤ y)) = true
  · unfold addEdge at he
    rw [if_pos hb] at he
    simp [throw, throwThe, MonadExceptOf.throw, bind, Except.bind] at he
  · have h' : ((if (!isOutNeighbor r1 x y) = true then addOutEdge r1 ⟨r1.edges.length, x, y, p⟩ else pure r1) >>= fun s1 =>
        (if (!isInNeighbor s1 y x) = true then addInEdge s1 ⟨r1.edges.length, x, y, p⟩ else pure s1) >>= fun s2 =>
          implAddEdge s2 ⟨r1.edges.length, x, y, p⟩) = .ok r2 := by
      rw [← he]
      unfold addEdge
      rw [if_neg hb]
      dsimp only
      split <;> (apply bind_congr; intro r1; split <;> rfl)
    obtain ⟨s1, h1, h2⟩ := bind_ok h'
    obtain ⟨s2, h3, h4⟩ := bind_ok h2
    have k1 : SameCC r1 s1 ∧ s1.configs = r1.configs := by
      split at h1
      · refine ⟨addOutEdge_same h1, ?_⟩
        unfold addOutEdge at h1
        split at h1
        · simp at h1
        · rw [← Except.ok.inj h1]
      · rw [← Except.ok.inj h1]; exact ⟨⟨rfl, rfl⟩, rfl⟩
    have k2 : SameCC s1 s2 ∧ s2.configs = s1.configs := by
      split at h3
      · refine ⟨addInEdge_same h3, ?_⟩
        unfold addInEdge at h3
        split at h3
        · simp at h3
        · rw [← Except.ok.inj h3]
      · rw [← Except.ok.inj h3]; exact ⟨⟨rfl, rfl⟩, rfl⟩
    have k3 := k1.1.trans k2.1
    rw [← k1.2, ← k2.2]
    have hc : s2.cc x = s2.cc y := by rw [k3.2]; exact hxy
    unfold implAddEdge connect at h4
    simp only [hc] at h4
    unfold canReach canReachLoop at h4
    simp only [if_true] at h4
    rw [← Except.ok.inj h4]

theorem addNodeAndEdgeTo_put (h : Inv V r) {a : Nat} (hla : a < r.configs.length) (q : Q) (p : P) {r' : Roadmap Q P} {n : Nat} (hok : addNodeAndEdgeTo C.toEnv r a q p = .ok (r', n)) : Put r r' a n := by
  obtain ⟨r1, m, h1, -⟩ := h.addNodeIn C.toEnv q hla
  obtain ⟨k1, k2⟩ := addNodeIn_put h q hla h1
  unfold addNodeAndEdgeTo at hok
  rw [if_neg (by omega), h1] at hok
  change (do let r2 ← Roadmap.addEdge r1 a m p; return (r2, m)) = _ at hok
  obtain ⟨r2, e1, e2⟩ := bind_ok hok
  obtain ⟨rfl, rfl⟩ := Prod.mk.inj (Except.ok.inj e2)
  exact k1.edge (addEdge_configs e1 k2.symm) e1 k2.symm

theorem addNodeAndEdgeFrom_put (h : Inv V r) {a : Nat} (hla : a < r.configs.length) (q : Q) (p : P) {r' : Roadmap Q P} {n : Nat} (hok : addNodeAndEdgeFrom C.toEnv r q a p = .ok (r', n)) : Put r r' a n := by
  obtain ⟨r1, m, h1, -⟩ := h.addNodeIn C.toEnv q hla
  obtain ⟨k1, k2⟩ := addNodeIn_put h q hla h1
  unfold addNodeAndEdgeFrom at hok
  rw [if_neg (by omega), h1] at hok
  change (do let r2 ← Roadmap.addEdge r1 m a p; return (r2, m)) = _ at hok
  obtain ⟨r2, e1, e2⟩ := bind_ok hok
  obtain ⟨rfl, rfl⟩ := Prod.mk.inj (Except.ok.inj e2)
  exact k1.edge (addEdge_configs e1 k2) e1 k2

/-! ## The two trees -/

theorem reach_grow {r r' : Roadmap Q P} {a b : Nat} (h : NodeReach r a b) (g : Grow r r') : NodeReach r' a b := ReflTransGen.mono (fun _ _ hh => g.hasEdge hh) _ _ h

/-- As long as the trees have not met: the nodes of the start component are reached from the init node, those of each end component lead to a goal, and no component is linked to another one. -/
structure Trees (C : PEnv Q P K) (Valid : P → Prop) (q0 : Q) (gs : List Q) (sc : Nat) (ends : List Nat) (r : Roadmap Q P) : Prop where
  good : ∃ V, Good C (ValidOrPoint C Valid) V r
  tag : Tagged q0 gs r
  init : ∀ i, r.init = some i → r.cc i = sc
  scl : sc ∈ r.live
  tree : ∀ i, r.init = some i → ∀ m, m < r.configs.length → r.cc m = sc → NodeReach r i m
  live : ∀ c ∈ ends, c ∈ r.live
  lead : ∀ m, m < r.configs.length → r.cc m ∈ ends → ∃ g ∈ r.goals, NodeReach r m g
  goals : ∀ g ∈ r.goals, r.cc g ∈ ends
  apart : sc ∉ ends
  closed : (r.comp sc).tos = []

/-- The trees have met. -/
structure Met (C : PEnv Q P K) (Valid : P → Prop) (q0 : Q) (gs : List Q) (r : Roadmap Q P) : Prop where
  good : ∃ V, Good C (ValidOrPoint C Valid) V r
  tag : Tagged q0 gs r
  met : ∃ i, r.init = some i ∧ ∃ g ∈ r.goals, NodeReach r i g

theorem reached_creach {V : List (Nat × Nat)} (h : Inv V r) {i : Nat} (hi : r.init = some i) : (reached r).1 = true ↔ ∃ g ∈ r.goals, CReach r (r.cc i) (r.cc g) := by
  unfold reached
  rw [hi]
  obtain ⟨ans, h1, h2⟩ := pathExistsLoop_spec h.wf (h.wf.cc_live i (h.init i hi)) r.goals
  simp only [pathExists, hi, h1]
  rw [h2]

theorem computePath_reach {q0 : Q} {gs : List Q} (hq : ∀ q, C.steer q q ≠ none) (hm : Met C Valid q0 gs r) (heur : Roadmap Q P → Nat → K) : ∃ l, computePath C heur r = .ok l := by
  obtain ⟨i, hi, hqi⟩ := hm.tag.init
  obtain ⟨V, hg⟩ := hm.good
  obtain ⟨i', hi', g, hg1, hg2⟩ := hm.met
  rw [hi] at hi'
  obtain rfl := Option.some.inj hi'
  unfold computePath
  rw [hi]
  simp only
  rcases AStar.solution_spec hg.inv hi C.len (heur r) (r.configs.length + 1) (le_refl _) with ⟨g', es, h1, h2, h3, -⟩ | ⟨h1, h2⟩
  · rw [h1]
    simp only
    split
    · rw [hqi]
      simp only
      cases hs : C.steer q0 q0 with
      | none => exact absurd hs (hq q0)
      | some p => exact ⟨[p], rfl⟩
    · exact ⟨_, rfl⟩
  · exact absurd hg2 (h2 g hg1)

theorem Met.reached {q0 : Q} {gs : List Q} (hm : Met C Valid q0 gs r) : (reached r).1 = true := by
  obtain ⟨V, hg⟩ := hm.good
  obtain ⟨i, hi, g, hg1, hg2⟩ := hm.met
  refine (reached_creach hg.inv hi).2 ⟨g, hg1, ?_⟩
  exact hg.inv.sem.reach_complete (ReflTransGen.mono (fun _ _ hh => Or.inl hh) _ _ hg2)

/-- While the trees have not met the target is not reached. -/
theorem Trees.not_reached {q0 : Q} {gs : List Q} {sc : Nat} {ends : List Nat} (h : Trees C Valid q0 gs sc ends r) : (reached r).1 = false := by
  obtain ⟨i, hi, hqi⟩ := h.tag.init
  obtain ⟨V, hg⟩ := h.good
  by_contra hr
  obtain ⟨g, hg1, hg2⟩ := (reached_creach hg.inv hi).1 (by simpa using hr)
  have key : ∀ d, CReach r sc d → d = sc := by
    intro d hd
    induction hd with
    | refl => rfl
    | tail _ hs ih =>
      rw [ih] at hs
      have hs' : _ ∈ (r.comp sc).tos := hs
      rw [h.closed] at hs'
      simp at hs'
  rw [h.init i hi] at hg2
  exact h.apart (key _ hg2 ▸ h.goals g hg1)

theorem Trees.putTo {q0 : Q} {gs : List Q} {sc : Nat} {ends : List Nat} (h : Trees C Valid q0 gs sc ends r) {r' : Roadmap Q P} {a n : Nat} (hg : ∃ V, Good C (ValidOrPoint C Valid) V r') (he : Ext r r')
    (hp : Put r r' a n) (ha : r.cc a = sc) (hla : a < r.configs.length) (hed : HasEdge r' a n) : Trees C Valid q0 gs sc ends r' := by
  obtain ⟨V, hv⟩ := h.good
  refine ⟨hg, h.tag.mono he, ?_, hp.live ▸ h.scl, ?_, fun c hc => hp.live ▸ h.live c hc, ?_, ?_, h.apart, by rw [hp.tos]; exact h.closed⟩
  · intro i hi
    rw [he.init] at hi
    rw [hp.cc i (hv.inv.init i hi)]
    exact h.init i hi
  · intro i hi m hm hc
    rw [he.init] at hi
    rcases hp.only m hm with hm' | rfl
    · rw [hp.cc m hm'] at hc
      exact reach_grow (h.tree i hi m hm' hc) he.grow
    · exact (reach_grow (h.tree i hi a hla ha) he.grow).tail hed
  · intro m hm hc
    rw [he.goals]
    rcases hp.only m hm with hm' | rfl
    · rw [hp.cc m hm'] at hc
      obtain ⟨g, k1, k2⟩ := h.lead m hm' hc
      exact ⟨g, k1, reach_grow k2 he.grow⟩
    · rw [hp.new, ha] at hc
      exact absurd hc h.apart
  · intro g hgg
    rw [he.goals] at hgg
    rw [hp.cc g (hv.inv.goals g hgg)]
    exact h.goals g hgg

theorem Trees.putFrom {q0 : Q} {gs : List Q} {sc : Nat} {ends : List Nat} (h : Trees C Valid q0 gs sc ends r) {r' : Roadmap Q P} {a n : Nat} (hg : ∃ V, Good C (ValidOrPoint C Valid) V r') (he : Ext r r')
    (hp : Put r r' a n) (ha : r.cc a ∈ ends) (hla : a < r.configs.length) (hed : HasEdge r' n a) : Trees C Valid q0 gs sc ends r' := by
  obtain ⟨V, hv⟩ := h.good
  refine ⟨hg, h.tag.mono he, ?_, hp.live ▸ h.scl, ?_, fun c hc => hp.live ▸ h.live c hc, ?_, ?_, h.apart, by rw [hp.tos]; exact h.closed⟩
  · intro i hi
    rw [he.init] at hi
    rw [hp.cc i (hv.inv.init i hi)]
    exact h.init i hi
  · intro i hi m hm hc
    rw [he.init] at hi
    rcases hp.only m hm with hm' | rfl
    · rw [hp.cc m hm'] at hc
      exact reach_grow (h.tree i hi m hm' hc) he.grow
    · rw [hp.new] at hc
      exact absurd (hc ▸ ha) h.apart
  · intro m hm hc
    rw [he.goals]
    rcases hp.only m hm with hm' | rfl
    · rw [hp.cc m hm'] at hc
      obtain ⟨g, k1, k2⟩ := h.lead m hm' hc
      exact ⟨g, k1, reach_grow k2 he.grow⟩
    · obtain ⟨g, k1, k2⟩ := h.lead a hla ha
      exact ⟨g, k1, (reach_grow k2 he.grow).head hed⟩
  · intro g hgg
    rw [he.goals] at hgg
    rw [hp.cc g (hv.inv.goals g hgg)]
    exact h.goals g hgg

/-- The nearest node of a component. -/
theorem nearest_of {V : List (Nat × Nat)} (h : Inv V r) (q : Q) {c : Nat} (hc : c ∈ r.live) (b : Bool) :
    ∃ d n x, search C.toEnv r q c b = some (d, n) ∧ r.configs[n]? = some x ∧ r.cc n = c ∧ ∀ m y, r.configs[m]? = some y → r.cc m = c → qdist C.toEnv q b x ≤ qdist C.toEnv q b y := by
  obtain ⟨d, n, h1, h2⟩ := search_spec C.toEnv h.wf q hc b
  obtain ⟨x, hx, hd⟩ := h2.config
  obtain ⟨ho1, ho2⟩ := h.wf.owned _ hc n h2.mem
  refine ⟨d, n, x, h1, hx, ho2, ?_⟩
  intro m y hm hmc
  have := h2.le m (by rw [← hmc]; exact h.wf.mem m (lt_of_get hm)) y hm
  rwa [hd] at this

/-- What is known of the node inserted in the start component. -/
structure Hook (sc : Nat) (q : Q) (valid : Bool) (hit : Option (Nat × Q)) (r : Roadmap Q P) : Prop where
  node : ∀ n qn, hit = some (n, qn) → r.configs[n]? = some qn ∧ r.cc n = sc ∧ (valid = true → qn = q)
  some : valid = true → hit ≠ none

/-- Connection to the start component. -/
theorem fromStart_trees (hC : Contract C Valid) (hfree : ∀ x q, C.onKernel x q = some q) (hmove : ∀ x q p, x ≠ q → C.steer x q = some p → (C.validate false p).1 = true → C.t1 (C.validate false p).2 ≠ C.t0 p)
    {q0 : Q} {gs : List Q} {sc : Nat} {ends : List Nat} (h : Trees C Valid q0 gs sc ends r) (q : Q) (hnew : q ∉ r.configs) :
    ∃ r1 valid hit, fromStart C q sc r = .ok (r1, valid, hit) ∧ Trees C Valid q0 gs sc ends r1 ∧ Hook sc q valid hit r1 ∧ Ext r r1 ∧ (∀ m, m < r.configs.length → r1.cc m = r.cc m) ∧
      ∀ R : K, (∀ x, C.dist x q ≤ R → ∃ p, C.steer x q = some p ∧ (C.validate false p).1 = true) → (∃ m y, r.configs[m]? = some y ∧ r.cc m = sc ∧ C.dist y q ≤ R) →
        valid = true := by
  obtain ⟨V, hg⟩ := h.good
  obtain ⟨d, near, x, h1, h2, h3, h4⟩ := nearest_of (C := C) hg.inv q h.scl false
  have hxq : x ≠ q := fun hh => hnew (hh ▸ List.mem_of_getElem? h2)
  have hsee : ∀ R : K, (∀ x, C.dist x q ≤ R → ∃ p, C.steer x q = some p ∧ (C.validate false p).1 = true) → (∃ m y, r.configs[m]? = some y ∧ r.cc m = sc ∧ C.dist y q ≤ R) →
      ∃ p, C.steer x q = some p ∧ (C.validate false p).1 = true := by
    rintro R hs ⟨m, y, k1, k2, k3⟩
    have := h4 m y k1 k2
    simp only [qdist, Bool.false_eq_true, if_false] at this
    exact hs x (this.trans k3)
  have hbe : bExtend C x q false = C.steer x q := by simp [bExtend, hfree]
  unfold fromStart
  simp only [h1, h2, hbe]
  cases hs : C.steer x q with
  | none =>
    refine ⟨r, false, none, rfl, h, ⟨by simp, by simp⟩, Ext.refl r, fun _ _ => rfl, ?_⟩
    intro R a b
    obtain ⟨p, e1, -⟩ := hsee R a b
    rw [hs] at e1
    simp at e1
  | some p =>
    obtain ⟨e1, e2⟩ := hC.steer x q p hs
    simp only
    have hval : ∀ R : K, (∀ x, C.dist x q ≤ R → ∃ p, C.steer x q = some p ∧ (C.validate false p).1 = true) → (∃ m y, r.configs[m]? = some y ∧ r.cc m = sc ∧ C.dist y q ≤ R) →
        (C.validate false p).1 = true := by
      intro R a b
      obtain ⟨p', e3, e4⟩ := hsee R a b
      rw [hs] at e3
      obtain rfl := Option.some.inj e3
      exact e4
    by_cases ht : C.t1 (C.validate false p).2 ≠ C.t0 p
    · rw [if_pos ht]
      obtain ⟨r', n, k1, k2, k3, k4⟩ := hg.addNodeAndEdgeTo (a := near) (p := (C.validate false p).2) (Or.inl (hC.valid_part p (Or.inl ht)))
        (by rw [h2, hC.valid_ini, e1])
      have hput := addNodeAndEdgeTo_put hg.inv (lt_of_get h2) _ _ k1
      have hed : HasEdge r' near n := by
        refine ⟨⟨r.edges.length, near, n, (C.validate false p).2⟩, ?_, rfl, rfl⟩
        rw [addNodeAndEdgeTo_edges hg.inv (lt_of_get h2) _ _ k1]
        simp
      simp only [k1]
      refine ⟨r', _, _, rfl, h.putTo ⟨_, k2⟩ k3 hput h3 (lt_of_get h2) hed, ⟨?_, by simp⟩, k3, hput.cc, hval⟩
      intro n' qn hn
      simp only [Option.some.injEq, Prod.mk.injEq] at hn
      obtain ⟨rfl, rfl⟩ := hn
      exact ⟨k4, by rw [hput.new, h3], fun hv => by rw [(hC.valid_true false p hv).2.2.2, e2]⟩
    · rw [if_neg ht]
      refine ⟨r, _, none, rfl, h, ⟨by simp, ?_⟩, Ext.refl r, fun _ _ => rfl, hval⟩
      intro hv
      exact absurd (hmove x q p hxq hs hv) ht

theorem Trees.meet {q0 : Q} {gs : List Q} {sc : Nat} {ends : List Nat} (h : Trees C Valid q0 gs sc ends r) {r' : Roadmap Q P} {a b : Nat} (hg : ∃ V, Good C (ValidOrPoint C Valid) V r') (he : Ext r r')
    (ha : r.cc a = sc) (hla : a < r.configs.length) (hb : r.cc b ∈ ends) (hlb : b < r.configs.length) (hed : HasEdge r' a b) : Met C Valid q0 gs r' := by
  obtain ⟨i, hi, -⟩ := h.tag.init
  obtain ⟨g, k1, k2⟩ := h.lead b hlb hb
  exact ⟨hg, h.tag.mono he, i, by rw [he.init]; exact hi, g, by rw [he.goals]; exact k1, ReflTransGen.trans ((reach_grow (h.tree i hi a hla ha) he.grow).tail hed) (reach_grow k2 he.grow)⟩

/-- Connection to the end components: no error, and the trees meet if the shot has been reached from the start and leads to everything around it, a node of an end component being among. -/
theorem endLoop_trees (hC : Contract C Valid) (hP : PointContract C Valid) (hfree : ∀ x q, C.onKernel x q = some q) {q0 : Q} {gs : List Q} {sc : Nat} {ends : List Nat} (q : Q) (valid : Bool)
    (hit : Option (Nat × Q)) (cs : List Nat) (hcs : ∀ c ∈ cs, c ∈ ends) {r : Roadmap Q P} (h : Trees C Valid q0 gs sc ends r) (hk : Hook sc q valid hit r) :
    ∃ r', endLoop C q valid hit cs r = .ok r' ∧ (Met C Valid q0 gs r' ∨ (Trees C Valid q0 gs sc ends r' ∧ Ext r r' ∧ (∀ m, m < r.configs.length → r'.cc m = r.cc m) ∧
      ∀ R : K, valid = true → (∀ x, C.dist q x ≤ R → ∃ p, C.steer q x = some p ∧ (C.validate true p).1 = true) → ¬ ∃ m y, r.configs[m]? = some y ∧ r.cc m ∈ cs ∧ C.dist q y ≤ R)) := by
  induction cs generalizing r with
  | nil => exact ⟨r, rfl, Or.inr ⟨h, Ext.refl r, fun _ _ => rfl, by simp⟩⟩
  | cons c cs ih =>
    obtain ⟨V, hg⟩ := h.good
    have hce := hcs c (by simp)
    obtain ⟨d, near, x, h1, h2, h3, h4⟩ := nearest_of (C := C) hg.inv q (h.live c hce) true
    have hbe : bExtend C x q true = C.steer q x := by simp [bExtend, hfree]
    have ih' := fun (r : Roadmap Q P) h hk => ih (fun c' hc' => hcs c' (by simp [hc'])) (r := r) h hk
    have hsee : ∀ R : K, (∀ x, C.dist q x ≤ R → ∃ p, C.steer q x = some p ∧ (C.validate true p).1 = true) → (∃ m y, r.configs[m]? = some y ∧ r.cc m = c ∧ C.dist q y ≤ R) →
        ∃ p, C.steer q x = some p ∧ (C.validate true p).1 = true := by
      rintro R hs ⟨m, y, k1, k2, k3⟩
      have := h4 m y k1 k2
      simp only [qdist, if_true] at this
      exact hs x (this.trans k3)
    -- going on with the other components
    have next : ∀ r1 : Roadmap Q P, Trees C Valid q0 gs sc ends r1 → Ext r r1 → (∀ m, m < r.configs.length → r1.cc m = r.cc m) → (∀ p, C.steer q x = some p → (C.validate true p).1 = true → valid = false) →
        ∃ r', endLoop C q valid hit cs r1 = .ok r' ∧ (Met C Valid q0 gs r' ∨ (Trees C Valid q0 gs sc ends r' ∧ Ext r r' ∧ (∀ m, m < r.configs.length → r'.cc m = r.cc m) ∧
          ∀ R : K, valid = true → (∀ x, C.dist q x ≤ R → ∃ p, C.steer q x = some p ∧ (C.validate true p).1 = true) → ¬ ∃ m y, r.configs[m]? = some y ∧ r.cc m ∈ c :: cs ∧ C.dist q y ≤ R)) := by
      intro r1 t1 e1 c1 hno
      have hk1 : Hook sc q valid hit r1 := by
        refine ⟨fun n qn hn => ?_, hk.some⟩
        obtain ⟨a1, a2, a3⟩ := hk.node n qn hn
        exact ⟨e1.grow.get a1, by rw [c1 n (lt_of_get a1), a2], a3⟩
      obtain ⟨r', k1, k2⟩ := ih' r1 t1 hk1
      refine ⟨r', k1, k2.imp_right ?_⟩
      rintro ⟨k3, k4, k5, k6⟩
      refine ⟨k3, e1.trans k4, fun m hm => by rw [k5 m (lt_of_lt_of_le hm e1.grow.length), c1 m hm], ?_⟩
      rintro R hv hs ⟨m, y, m1, m2, m3⟩
      rcases List.mem_cons.1 m2 with m2 | m2
      · obtain ⟨p, e3, e4⟩ := hsee R hs ⟨m, y, m1, m2, m3⟩
        rw [hno p e3 e4] at hv
        simp at hv
      · exact k6 R hv hs ⟨m, y, e1.grow.get m1, by rw [c1 m (lt_of_get m1)]; exact m2, m3⟩
    unfold endLoop
    simp only [h1, h2, hbe]
    cases hs : C.steer q x with
    | none => exact next r h (Ext.refl r) (fun _ _ => rfl) (by rw [hs]; simp)
    | some p =>
      obtain ⟨e1, e2⟩ := hC.steer q x p hs
      simp only
      by_cases hv : (C.validate true p).1 = true ∧ valid = true
      · rw [if_pos hv]
        cases hh : hit with
        | none => exact absurd hh (hk.some hv.2)
        | some nq =>
          obtain ⟨n, qn⟩ := nq
          obtain ⟨w1, w2, w3⟩ := hk.node n qn hh
          obtain ⟨v1, v2, v3, v4⟩ := hC.valid_true true p hv.1
          obtain ⟨r2, k1, k2, k3, -, k5⟩ := hg.addEdge (a := n) (b := near) (p := (C.validate true p).2) (Or.inl v2)
            (by rw [w1, w3 hv.2, v3, e1]) (by rw [h2, v4, e2])
          simp only
          exact ⟨r2, k1, Or.inl (h.meet ⟨V, k2⟩ k3 w2 (lt_of_get w1) (h3 ▸ hce) (lt_of_get h2) ((k5.hasEdge _ _).2 (Or.inr ⟨rfl, rfl⟩)))⟩
      · rw [if_neg hv]
        have hno : ∀ p', C.steer q x = some p' → (C.validate true p').1 = true → valid = false := by
          intro p' hp' hvp
          rw [hs] at hp'
          obtain rfl := Option.some.inj hp'
          by_contra hvv
          exact hv ⟨hvp, by simpa using hvv⟩
        by_cases ht : C.t1 (C.validate true p).2 ≠ C.t0 p
        · rw [if_pos ht]
          obtain ⟨r1, n2, k1, k2, k3, k4⟩ := hg.addNodeAndEdgeFrom (a := near) (p := (C.validate true p).2) (hP.part p ht)
            (by rw [h2, hC.valid_fin, e2])
          have hput := addNodeAndEdgeFrom_put hg.inv (lt_of_get h2) _ _ k1
          have hed : HasEdge r1 n2 near := by
            refine ⟨⟨r.edges.length, n2, near, (C.validate true p).2⟩, ?_, rfl, rfl⟩
            rw [addNodeAndEdgeFrom_edges hg.inv (lt_of_get h2) _ _ k1]
            simp
          have t1 := h.putFrom ⟨_, k2⟩ k3 hput (h3 ▸ hce) (lt_of_get h2) hed
          have go := next r1 t1 k3 hput.cc hno
          simp only [k1]
          cases hh : hit with
          | none => rw [hh] at go; exact go
          | some nq =>
            obtain ⟨n, qn⟩ := nq
            rw [hh] at go
            simp only
            cases hst : C.steer qn (C.ini (C.validate true p).2) with
            | none => exact go
            | some p2 =>
              simp only
              by_cases hv2 : (C.validate false p2).1 = true
              · rw [if_pos hv2]
                obtain ⟨s1, s2⟩ := hC.steer _ _ p2 hst
                obtain ⟨w1, w2, w3⟩ := hk.node n qn hh
                obtain ⟨r2, m1, m2, m3, -, m5⟩ := k2.addEdge (a := n) (b := n2) (p := p2) (Or.inl (hC.valid_true false p2 hv2).1)
                  (by rw [k3.grow.get w1, s1]) (by rw [k4, s2])
                refine ⟨r2, m1, Or.inl (t1.meet ⟨_, m2⟩ m3 (by rw [hput.cc n (lt_of_get w1), w2]) (lt_of_get (k3.grow.get w1)) ?_ (lt_of_get k4) ((m5.hasEdge _ _).2 (Or.inr ⟨rfl, rfl⟩)))⟩
                rw [hput.new, h3]
                exact hce
              · rw [if_neg hv2]
                exact go
        · rw [if_neg ht]
          exact next r h (Ext.refl r) (fun _ _ => rfl) hno

/-! ## Start -/

/-- All nodes are the init node or goal nodes. -/
def OnlyEnds (r : Roadmap Q P) : Prop := ∀ m, m < r.configs.length → r.init = some m ∨ m ∈ r.goals

theorem addGoals_only (gs : List Q) (h : Good C Valid V r) (ho : OnlyEnds r) {r' : Roadmap Q P} (hr : addGoals C gs r = .ok r') : OnlyEnds r' := by
  induction gs generalizing r with
  | nil => rw [← Except.ok.inj hr]; exact ho
  | cons g gs ih =>
    obtain ⟨r1, n, h1, h2, h3, h4, h5, h6, h7, h8⟩ := h.inv.addNode C.toEnv g
    obtain ⟨r1', n', g1, g2, g3, g4⟩ := h.addNode g
    rw [h1] at g1
    obtain ⟨rfl, rfl⟩ := Prod.mk.inj (Except.ok.inj g1)
    have hg2 : Good C Valid V { r1 with goals := r1.goals ++ [n] } := by
      refine g2.setGoals ?_
      intro x hx
      rcases List.mem_append.1 hx with hx | hx
      · exact g2.inv.goals x hx
      · rw [List.mem_singleton.1 hx]; exact lt_of_get g4
    refine ih hg2 ?_ (by simp only [addGoals, addGoalNode, h1] at hr; exact hr)
    intro m hm
    show r1.init = some m ∨ m ∈ r1.goals ++ [n]
    rw [h6, h7]
    by_cases hmr : m < r.configs.length
    · exact (ho m hmr).imp_right (fun hh => List.mem_append_left _ hh)
    · right
      have hm' : m < r1.configs.length := hm
      rcases h8 with ⟨rfl, -⟩ | ⟨-, hn, hcf, -⟩
      · exact absurd hm' hmr
      · rw [hcf] at hm'
        simp at hm'
        have : m = n := by omega
        simp [this]

theorem startSolve_only (h : Good C Valid V r) (he : r.configs = []) (q0 : Q) (gs : List Q) {r' : Roadmap Q P} (hr : startSolve C q0 gs r = .ok r') : OnlyEnds r' := by
  have h0 : Good C Valid V (resetGoalNodes r) := h.setGoals (by simp)
  obtain ⟨r1, n, h1, h2, h3, h4, h5, h6, h7, h8⟩ := h0.inv.addNode C.toEnv q0
  obtain ⟨r1', n', g1, g2, g3, g4⟩ := h0.addNode q0
  rw [h1] at g1
  obtain ⟨rfl, rfl⟩ := Prod.mk.inj (Except.ok.inj g1)
  have h2' : Good C Valid V { r1 with init := some n } := g2.setInit (lt_of_get g4)
  refine addGoals_only gs h2' ?_ (by simp only [startSolve, Roadmap.setInit, h1] at hr; exact hr)
  intro m hm
  left
  have hm' : m < r1.configs.length := hm
  have he0 : (resetGoalNodes r).configs = [] := he
  show some n = some m
  rcases h8 with ⟨-, hn⟩ | ⟨-, hn, hcf, -⟩
  · rw [he0] at hn; simp at hn
  · rw [hcf, he0] at hm'
    rw [he0] at hn
    simp at hm' hn
    rw [hm', hn]

/-- What an edge proposed by the direct connection is. -/
theorem futureEdge_ends (h : Inv V r) {fwd : Bool} {n c : Nat} (hc : c ∈ r.live) {x : Option (Nat × Nat × P)} (hx : futureEdge C r fwd n c = .ok x) :
    ∀ y ∈ x, (fwd = true → y.1 = n ∧ r.cc y.2.1 ≠ r.cc n ∧ y.2.1 < r.configs.length) ∧
      (fwd = false → y.2.1 = n ∧ y.1 < r.configs.length ∧ ∀ a b, r.configs[y.1]? = some a → r.configs[n]? = some b → directPath C a b ≠ none) := by
  unfold futureEdge at hx
  by_cases h0 : c = r.cc n
  · rw [if_pos h0] at hx
    rw [← Except.ok.inj hx]
    simp
  · rw [if_neg h0] at hx
    cases hq : r.configs[n]? with
    | none => rw [hq] at hx; simp at hx
    | some q =>
      rw [hq] at hx
      obtain ⟨d, m, z, h1, h2, h3⟩ := search_good (C := C) h q hc fwd
      simp only [h1, h2] at hx
      cases fwd with
      | true =>
        simp only [if_true] at hx
        rw [← Except.ok.inj hx]
        intro y hy
        simp only [Option.mem_def, Option.map_eq_some_iff] at hy
        obtain ⟨p, hp, rfl⟩ := hy
        exact ⟨fun _ => ⟨rfl, by simp only; rw [h3]; exact h0, lt_of_get h2⟩, by simp⟩
      | false =>
        simp only [Bool.false_eq_true, if_false] at hx
        rw [← Except.ok.inj hx]
        intro y hy
        simp only [Option.mem_def, Option.map_eq_some_iff] at hy
        obtain ⟨p, hp, rfl⟩ := hy
        refine ⟨by simp, fun _ => ⟨rfl, lt_of_get h2, ?_⟩⟩
        intro a b ha hb
        simp only at ha
        rw [h2] at ha
        obtain rfl := Option.some.inj ha
        obtain rfl := Option.some.inj hb
        rw [hp]
        simp

theorem futureEdges_ends (h : Inv V r) {fwd : Bool} {n : Nat} (cs : List Nat) (hcs : ∀ c ∈ cs, c ∈ r.live) {l : List (Nat × Nat × P)} (hx : futureEdges C r fwd n cs = .ok l) :
    ∀ y ∈ l, (fwd = true → y.1 = n ∧ r.cc y.2.1 ≠ r.cc n ∧ y.2.1 < r.configs.length) ∧
      (fwd = false → y.2.1 = n ∧ y.1 < r.configs.length ∧ ∀ a b, r.configs[y.1]? = some a → r.configs[n]? = some b → directPath C a b ≠ none) := by
  induction cs generalizing l with
  | nil => rw [← Except.ok.inj hx]; simp
  | cons c cs ih =>
    unfold futureEdges at hx
    cases h1 : futureEdge C r fwd n c with
    | error e => rw [h1] at hx; simp at hx
    | ok x =>
      cases h2 : futureEdges C r fwd n cs with
      | error e => rw [h1, h2] at hx; simp at hx
      | ok l' =>
        simp only [h1, h2] at hx
        rw [← Except.ok.inj hx]
        intro y hy
        rcases List.mem_append.1 hy with hy | hy
        · exact futureEdge_ends h (hcs c (by simp)) h1 y (by simpa using hy)
        · exact ih (fun c' hc' => hcs c' (by simp [hc'])) h2 y hy

theorem goalEdges_ends (h : Inv V r) (gs : List Nat) {l : List (Nat × Nat × P)} (hx : goalEdges C r gs = .ok l) :
    ∀ y ∈ l, y.2.1 ∈ gs ∧ y.1 < r.configs.length ∧ ∀ a b, r.configs[y.1]? = some a → r.configs[y.2.1]? = some b → directPath C a b ≠ none := by
  induction gs generalizing l with
  | nil => rw [← Except.ok.inj hx]; simp
  | cons g gs ih =>
    unfold goalEdges at hx
    cases h1 : futureEdges C r false g r.live with
    | error e => rw [h1] at hx; simp at hx
    | ok x =>
      cases h2 : goalEdges C r gs with
      | error e => rw [h1, h2] at hx; simp at hx
      | ok l' =>
        simp only [h1, h2] at hx
        rw [← Except.ok.inj hx]
        intro y hy
        rcases List.mem_append.1 hy with hy | hy
        · obtain ⟨a1, a2, a3⟩ := (futureEdges_ends h r.live (fun _ hc => hc) h1 y hy).2 rfl
          refine ⟨by simp [a1], a2, ?_⟩
          rw [a1]
          exact a3
        · obtain ⟨a1, a2⟩ := ih h2 y hy
          exact ⟨by simp [a1], a2⟩

theorem addAll_edge (l : List (Nat × Nat × P)) (h : Good C Valid V r) (hl : ∀ x ∈ l, FutureOk C Valid r x) {r' : Roadmap Q P} (hr : addAll l r = .ok r') : ∀ x ∈ l, HasEdge r' x.1 x.2.1 := by
  induction l generalizing r with
  | nil => simp
  | cons x l ih =>
    obtain ⟨a, b, p⟩ := x
    obtain ⟨h1, h2, h3⟩ := hl (a, b, p) (by simp)
    obtain ⟨r1, k1, k2, k3, -, k5⟩ := h.addEdge h1 h2 h3
    have hl1 : ∀ x ∈ l, FutureOk C Valid r1 x := fun x hx => (hl x (by simp [hx])).mono k3.grow
    obtain ⟨r2, m1, m2, m3⟩ := addAll_spec l k2 hl1
    simp only [addAll, k1] at hr
    rw [m1] at hr
    obtain rfl := Except.ok.inj hr
    intro y hy
    rcases List.mem_cons.1 hy with rfl | hy
    · exact m3.grow.hasEdge ((k5.hasEdge _ _).2 (Or.inr ⟨rfl, rfl⟩))
    · exact ih k2 hl1 m1 y hy

/-- From an empty roadmap, the start of BiRRT gives two sets of trees reduced to their roots, unless the init configuration is a goal or is directly connected to a goal. -/
theorem bStart_trees (hC : Contract C Valid) (hP : PointContract C Valid) (q0 : Q) (gs : List Q) (hgs : ∀ g ∈ gs, ∀ g' ∈ gs, directPath C g g' = none)
    (h : Good C (ValidOrPoint C Valid) [] r) (hemp : r.configs = []) (a : Nat) : ∃ sc ends r1, bStart C q0 gs (⟨a, [], 0⟩, r) = .ok (⟨sc, ends, 0⟩, r1) ∧ (Met C Valid q0 gs r1 ∨ Trees C Valid q0 gs sc ends r1) := by
  obtain ⟨r1, h1, h2, h3, h4⟩ := startSolve_spec h q0 gs
  have hedges := startSolve_edges h h1
  have hr0 : r.edges = [] := by
    by_contra hne
    obtain ⟨e, he⟩ := List.exists_mem_of_ne_nil _ hne
    have := (h.edges e he).src
    rw [hemp] at this
    simp at this
  rw [hr0] at hedges
  have honly := startSolve_only h hemp q0 gs h1
  obtain ⟨i, hi, hqi⟩ := h4.init
  have hC' := hC.point hP
  obtain ⟨l, f1, f2⟩ := futureEdges_spec hC' h2.inv true (h2.inv.init i hi) r1.live (fun _ hc => hc)
  obtain ⟨l', f3, f4⟩ := goalEdges_spec hC' h2.inv r1.goals h2.inv.goals
  have hll : ∀ x ∈ l ++ l', FutureOk C (ValidOrPoint C Valid) r1 x := fun x hx => by
    rcases List.mem_append.1 hx with hx | hx
    · exact f2 x hx
    · exact f4 x hx
  obtain ⟨r2, f5, f6, f7⟩ := addAll_spec (l ++ l') h2 hll
  have htc : tryConnect C r1 = .ok r2 := by
    unfold tryConnect
    rw [hi]
    simp only [f1, f3, f5]
  have hst : bStart C q0 gs (⟨a, [], 0⟩, r) = .ok (⟨r1.cc i, r1.goals.map r1.cc, 0⟩, r2) := by
    simp only [bStart, h1, hi, htc, List.nil_append]
  refine ⟨r1.cc i, r1.goals.map r1.cc, r2, hst, ?_⟩
  have hreach : ∀ x y, NodeReach r1 x y → x = y := by
    intro x y hxy
    induction hxy with
    | refl => rfl
    | tail _ hs _ =>
      obtain ⟨e, he, -⟩ := hs
      rw [hedges] at he
      simp at he
  have hsame : ∀ x y, x < r1.configs.length → y < r1.configs.length → r1.cc x = r1.cc y → x = y := fun x y hx hy hc => hreach x y (h2.inv.semNil.same x y hx hy hc)
  -- all proposed edges go from the init node to a goal
  have hfrom : ∀ x ∈ l ++ l', x.1 = i ∧ x.2.1 ∈ r1.goals := by
    intro x hx
    rcases List.mem_append.1 hx with hx | hx
    · obtain ⟨b1, b2, b3⟩ := (futureEdges_ends h2.inv r1.live (fun _ hc => hc) f1 x hx).1 rfl
      refine ⟨b1, ?_⟩
      rcases honly _ b3 with b4 | b4
      · rw [hi] at b4
        exact absurd (by rw [Option.some.inj b4]) b2
      · exact b4
    · obtain ⟨b1, b2, b3⟩ := goalEdges_ends h2.inv r1.goals f3 x hx
      refine ⟨?_, b1⟩
      rcases honly _ b2 with b4 | b4
      · rw [hi] at b4
        exact (Option.some.inj b4).symm
      · obtain ⟨qa, a1, a2⟩ := h4.goals _ b4
        obtain ⟨qb, c1, c2⟩ := h4.goals _ b1
        exact absurd (hgs qa a1 qb c1) (b3 qa qb a2 c2)
  cases hcase : l ++ l' with
  | cons x xs =>
    left
    have hx : x ∈ l ++ l' := by rw [hcase]; simp
    obtain ⟨b1, b2⟩ := hfrom x hx
    have hed := addAll_edge (l ++ l') h2 hll f5 x hx
    rw [b1] at hed
    exact ⟨⟨[], f6⟩, h4.mono f7, i, by rw [f7.init]; exact hi, x.2.1, by rw [f7.goals]; exact b2, ReflTransGen.single hed⟩
  | nil =>
    rw [hcase] at f5
    have hr2 : r1 = r2 := Except.ok.inj f5
    subst hr2
    by_cases hig : i ∈ r1.goals
    · exact Or.inl ⟨⟨[], h2⟩, h4, i, hi, i, hig, ReflTransGen.refl⟩
    · right
      have hil := h2.inv.init i hi
      refine ⟨⟨[], h2⟩, h4, ?_, h2.inv.wf.cc_live i hil, ?_, ?_, ?_, fun g hg => List.mem_map.2 ⟨g, hg, rfl⟩, ?_, ?_⟩
      · intro i' hi'
        rw [hi] at hi'
        rw [Option.some.inj hi']
      · intro i' hi' m hm hc
        rw [hi] at hi'
        obtain rfl := Option.some.inj hi'
        exact h2.inv.semNil.same i m hil hm hc.symm
      · intro c hc
        obtain ⟨g, hg, rfl⟩ := List.mem_map.1 hc
        exact h2.inv.wf.cc_live g (h2.inv.goals g hg)
      · intro m hm hc
        obtain ⟨g, hg, hgc⟩ := List.mem_map.1 hc
        exact ⟨g, hg, h2.inv.semNil.same m g hm (h2.inv.goals g hg) hgc.symm⟩
      · intro hc
        obtain ⟨g, hg, hgc⟩ := List.mem_map.1 hc
        have := hsame g i (h2.inv.goals g hg) hil hgc
        exact hig (this ▸ hg)
      · by_contra hne
        obtain ⟨c, hc⟩ := List.exists_mem_of_ne_nil _ hne
        obtain ⟨k1, k2, -⟩ := h2.inv.wf.to_live _ (h2.inv.wf.cc_live i hil) c hc
        obtain ⟨m, hm, rfl⟩ := h2.inv.wf.exists_node k1
        have := hreach i m (h2.inv.semNil.sound i m hil hm hc)
        exact k2 (by rw [this])

/-! ## The whole planner -/

/-- A resolution whose states satisfy `J n` after `n` steps, until one of them satisfies `D`, at step `N` at the latest. -/
theorem solveLoop_until {S E : Type} (A : Calls S (List P) E) (hpure : ∀ s, (A.reached s).2 = s) (st : Settings K) (late intr : Nat → Bool) (N : Nat) (hstop : st.stop = true)
    (hlim : ∀ m < N, ¬ Limit st late m) (hint : ∀ m ≤ N, intr m = false) (J : Nat → S → Prop) (D : S → Prop)
    (hD : ∀ s, D s → (A.reached s).1 = true ∧ ∃ l, A.computePath s = .ok l) (hJ : ∀ n s, J n s → (A.reached s).1 = false)
    (hstep : ∀ n s, n < N → J n s → ∃ s', A.step s = .ok s' ∧ (D s' ∨ (n + 1 < N ∧ J (n + 1) s')))
    (fuel n : Nat) (s : S) (hs : J n s) (hnN : n < N) (hf : N ≤ n + fuel) : ∃ l, solveLoop A st late intr fuel n s = .path l := by
  induction fuel generalizing n s with
  | zero => omega
  | succ fuel ih =>
    have hl := hlim n hnN
    have h1 : decide (st.maxIter ≠ 0 ∧ st.maxIter ≤ n) = false := by
      simp only [decide_eq_false_iff_not]
      exact fun h => hl (Or.inl h)
    have h2 : late n = false := by
      by_contra h
      exact hl (Or.inr (by simpa using h))
    obtain ⟨s', h3, h4⟩ := hstep n s hnN hs
    unfold solveLoop
    simp only [h1, h2, h3, hstop, hint (n + 1) (by omega), Bool.false_eq_true, if_false, if_true, hpure]
    have z1 : ¬ ((0 : Nat) = 1) := by omega
    have z2 : ¬ ((0 : Nat) = 2) := by omega
    simp only [z1, z2, if_false]
    rcases h4 with h4 | ⟨h4, h5⟩
    · obtain ⟨k1, l, k2⟩ := hD s' h4
      rw [if_pos k1]
      exact ⟨l, by simp only [conclude, k2]⟩
    · rw [if_neg (by rw [hJ _ _ h5]; simp)]
      exact ih (n + 1) s' h5 h4 (by omega)

theorem solve_until {S E : Type} (A : Calls S (List P) E) (hpure : ∀ s, (A.reached s).2 = s) (st : Settings K) (late intr : Nat → Bool) (s s0 : S) (h0 : A.start s = .ok s0) (N : Nat) (hN : 0 < N) (hstop : st.stop = true)
    (hlim : ∀ m < N, ¬ Limit st late m) (hint : ∀ m ≤ N, intr m = false) (J : Nat → S → Prop) (D : S → Prop)
    (hD : ∀ s, D s → (A.reached s).1 = true ∧ ∃ l, A.computePath s = .ok l) (hJ : ∀ n s, J n s → (A.reached s).1 = false) (hs0 : D s0 ∨ J 0 s0)
    (hstep : ∀ n s, n < N → J n s → ∃ s', A.step s = .ok s' ∧ (D s' ∨ (n + 1 < N ∧ J (n + 1) s')))
    (fuel : Nat) (hf : N ≤ fuel) : ∃ l, solve A st late intr fuel s = .path l := by
  unfold solve
  simp only [h0, hint 0 (by omega), Bool.false_eq_true, if_false, hpure]
  rcases hs0 with hs0 | hs0
  · obtain ⟨k1, l, k2⟩ := hD s0 hs0
    rw [if_pos k1]
    exact ⟨l, by simp only [conclude, k2]⟩
  · rw [if_neg (by rw [hJ _ _ hs0]; simp)]
    exact solveLoop_until A hpure st late intr N hstop hlim hint J D hD hJ hstep fuel 0 s0 hs0 hN (by omega)

/-- C153: without constraints, from an empty roadmap, if the shots contain a chain from the init configuration to a goal, and no shot is already a node when it is shot, then BiRRT returns a path that solves the problem
unless a limit or an interruption stops it before the end of the chain, whatever the other shots. -/
theorem C153_birrt (hC : Contract C Valid) (hP : PointContract C Valid) (hfree : ∀ x q, C.onKernel x q = some q) (hself : ∀ q, C.steer q q ≠ none)
    (hmove : ∀ x q p, x ≠ q → C.steer x q = some p → (C.validate false p).1 = true → C.t1 (C.validate false p).2 ≠ C.t0 p)
    (heur : Roadmap Q P → Nat → K) (q0 : Q) (gs : List Q) (hgs : ∀ g ∈ gs, ∀ g' ∈ gs, directPath C g g' = none) (shoot : Nat → Q)
    {r : Roadmap Q P} (h : Good C (ValidOrPoint C Valid) [] r) (hemp : r.configs = []) (a : Nat) (R : K) (idx : Nat → Nat) (k : Nat) (hch : BiChain C R q0 gs shoot idx k)
    (hnew : ∀ s0 n t, bStart C q0 gs (⟨a, [], 0⟩, r) = .ok s0 → After (birrt C heur q0 gs shoot) s0 n t → (reached t.2).1 = false → n ≤ idx k → shoot n ∉ t.2.configs)
    (st : Settings K) (late intr : Nat → Bool) (hstop : st.stop = true) (hlim : ∀ m ≤ idx k, ¬ Limit st late m) (hint : ∀ m ≤ idx k + 1, intr m = false) (fuel : Nat) (hf : idx k < fuel) :
    ∃ l, solve (birrt C heur q0 gs shoot) st late intr fuel (⟨a, [], 0⟩, r) = .path l ∧ Solves C (ValidOrPoint C Valid) q0 gs l := by
  obtain ⟨sc, ends, r1, h1, h2⟩ := bStart_trees hC hP q0 gs hgs h hemp a
  have hmono : ∀ i j, i < j → j ≤ k → idx i < idx j := by
    intro i j hij
    induction j with
    | zero => omega
    | succ j ih =>
      intro hj
      rcases Nat.lt_succ_iff_lt_or_eq.1 hij with hlt | rfl
      · exact (ih hlt (by omega)).trans (hch.mono j (by omega))
      · exact hch.mono i (by omega)
  let J : Nat → BState × Roadmap Q P → Prop := fun n t => After (birrt C heur q0 gs shoot) (⟨sc, ends, 0⟩, r1) n t ∧ t.1 = ⟨sc, ends, n⟩ ∧ Trees C Valid q0 gs sc ends t.2 ∧
    ∀ i ≤ k, idx i < n → ∃ m, t.2.configs[m]? = some (shoot (idx i)) ∧ t.2.cc m = sc
  have hstep : ∀ n t, n < idx k + 1 → J n t → ∃ t', (birrt C heur q0 gs shoot).step t = .ok t' ∧ (Met C Valid q0 gs t'.2 ∨ (n + 1 < idx k + 1 ∧ J (n + 1) t')) := by
    rintro n ⟨b, t⟩ hn ⟨j1, j2, j3, j4⟩
    simp only at j2 j3 j4
    subst j2
    have hfresh := hnew _ n _ h1 j1 j3.not_reached (by omega)
    obtain ⟨t1, valid, hit, f1, f2, f3, f4, f5, f6⟩ := fromStart_trees hC hfree hmove j3 (shoot n) hfresh
    obtain ⟨t2, e1, e2⟩ := endLoop_trees hC hP hfree (shoot n) valid hit ends (fun _ hc => hc) f2 f3
    have hs : (birrt C heur q0 gs shoot).step (⟨sc, ends, n⟩, t) = .ok (⟨sc, ends, n + 1⟩, t2) := by
      simp only [birrt, planCalls, bStep, f1, e1]
    refine ⟨_, hs, e2.imp_right ?_⟩
    rintro ⟨e3, e4, e5, e6⟩
    -- a shot of the chain is reached from the start component
    have hin : ∀ i ≤ k, idx i = n → valid = true := by
      intro i hi hin
      subst hin
      refine f6 R (hch.sees i hi) ?_
      cases i with
      | zero =>
        obtain ⟨i0, hi0, hq0⟩ := j3.tag.init
        exact ⟨i0, q0, hq0, j3.init i0 hi0, hch.first⟩
      | succ i =>
        obtain ⟨m, m1, m2⟩ := j4 i (by omega) (hch.mono i (by omega))
        exact ⟨m, _, m1, m2, hch.next i (by omega)⟩
    have hlt : n + 1 < idx k + 1 := by
      by_contra hcon
      have hnk : idx k = n := by omega
      obtain ⟨g, hg1, hg2⟩ := hch.last
      obtain ⟨gn, g1, g2⟩ := j3.tag.all g hg1
      refine e6 R (hin k le_rfl hnk) (by rw [← hnk]; exact hch.seen) ⟨gn, g, f4.grow.get g2, ?_, by rw [← hnk]; exact hg2⟩
      rw [f5 gn (lt_of_get g2)]
      exact j3.goals gn g1
    refine ⟨hlt, ⟨_, j1, hs⟩, rfl, e3, ?_⟩
    intro i hi hlt'
    rcases Nat.lt_succ_iff_lt_or_eq.1 hlt' with hlt' | hin'
    · obtain ⟨m, m1, m2⟩ := j4 i hi hlt'
      exact ⟨m, (f4.trans e4).grow.get m1, by rw [e5 m (lt_of_get (f4.grow.get m1)), f5 m (lt_of_get m1), m2]⟩
    · have hv := hin i hi hin'
      cases hh : hit with
      | none => exact absurd hh (f3.some hv)
      | some nq =>
        obtain ⟨m, qm⟩ := nq
        obtain ⟨m1, m2, m3⟩ := f3.node m qm hh
        exact ⟨m, by rw [hin']; exact m3 hv ▸ e4.grow.get m1, by rw [e5 m (lt_of_get m1), m2]⟩
  obtain ⟨l, hl⟩ := solve_until (birrt C heur q0 gs shoot) (fun _ => rfl) st late intr (⟨a, [], 0⟩, r) (⟨sc, ends, 0⟩, r1) h1 (idx k + 1) (by omega) hstop (fun m hm => hlim m (by omega)) hint
    J (fun t => Met C Valid q0 gs t.2) (fun t ht => ⟨ht.reached, computePath_reach hself ht heur⟩) (fun n t ht => ht.2.2.1.not_reached)
    (h2.imp_right (fun ht => ⟨rfl, rfl, ht, by omega⟩)) hstep fuel (by omega)
  exact ⟨l, hl, C67_birrt_partial hC hP hfree heur q0 gs shoot h st late intr fuel l hl⟩

/-- C153, dense shots: the distance is symmetric and satisfies the triangle inequality; a sequence of configurations leads from the init configuration to a goal by steps of length at most `d`; the shots come back
infinitely often at distance at most `d` from each of them; accepted paths lead to the shots at distance at most `d` from one of them, from all configurations at distance at most `3 d`, and back.  Without limit nor
interruption, BiRRT stops with a solution (as long as no shot is already a node when it is shot). -/
theorem C153_dense (hC : Contract C Valid) (hP : PointContract C Valid) (hfree : ∀ x q, C.onKernel x q = some q) (hself : ∀ q, C.steer q q ≠ none)
    (hmove : ∀ x q p, x ≠ q → C.steer x q = some p → (C.validate false p).1 = true → C.t1 (C.validate false p).2 ≠ C.t0 p)
    (heur : Roadmap Q P → Nat → K) (q0 g : Q) (gs : List Q) (hgs : ∀ g ∈ gs, ∀ g' ∈ gs, directPath C g g' = none) (shoot : Nat → Q)
    {r : Roadmap Q P} (h : Good C (ValidOrPoint C Valid) [] r) (hemp : r.configs = []) (a : Nat) (hd2 : ∀ a b, C.dist a b = C.dist b a) (hd3 : ∀ a b c, C.dist a c ≤ C.dist a b + C.dist b c)
    (d : K) (hd : 0 ≤ d) (w : Nat → Q) (k : Nat) (hw0 : w 0 = q0) (hwk : w k = g) (hg : g ∈ gs) (hw : ∀ i < k, C.dist (w i) (w (i + 1)) ≤ d)
    (hdense : ∀ i ≤ k, ∀ N, ∃ n ≥ N, C.dist (shoot n) (w i) ≤ d)
    (hsee : ∀ i ≤ k, ∀ n, C.dist (shoot n) (w i) ≤ d → ∀ x, C.dist x (shoot n) ≤ d + d + d →
      (∃ p, C.steer x (shoot n) = some p ∧ (C.validate false p).1 = true) ∧ (∃ p, C.steer (shoot n) x = some p ∧ (C.validate true p).1 = true))
    (hnew : ∀ s0 n t, bStart C q0 gs (⟨a, [], 0⟩, r) = .ok s0 → After (birrt C heur q0 gs shoot) s0 n t → (reached t.2).1 = false → shoot n ∉ t.2.configs)
    (st : Settings K) (late intr : Nat → Bool) (hstop : st.stop = true) (hlim : ∀ m, ¬ Limit st late m) (hint : ∀ m, intr m = false) :
    ∃ N, ∀ fuel ≥ N, ∃ l, solve (birrt C heur q0 gs shoot) st late intr fuel (⟨a, [], 0⟩, r) = .path l ∧ Solves C (ValidOrPoint C Valid) q0 gs l := by
  have hex : ∀ i N, ∃ n, N ≤ n ∧ (i ≤ k → C.dist (shoot n) (w i) ≤ d) := by
    intro i N
    by_cases hi : i ≤ k
    · obtain ⟨n, h1, h2⟩ := hdense i hi N
      exact ⟨n, h1, fun _ => h2⟩
    · exact ⟨N, le_rfl, fun hh => absurd hh hi⟩
  choose nx hnx1 hnx2 using hex
  let idx : Nat → Nat := fun i => Nat.rec (nx 0 0) (fun j a => nx (j + 1) (a + 1)) i
  have hidx : ∀ i ≤ k, C.dist (shoot (idx i)) (w i) ≤ d := by
    intro i hi
    cases i with
    | zero => exact hnx2 0 0 hi
    | succ j => exact hnx2 (j + 1) (idx j + 1) hi
  have hmono : ∀ i, idx i < idx (i + 1) := fun i => hnx1 (i + 1) (idx i + 1)
  have hle : d ≤ d + d + d := by
    have := add_le_add (add_le_add (le_refl d) hd) hd
    simpa using this
  have hch : BiChain C (d + d + d) q0 gs shoot idx k := by
    refine ⟨fun i _ => hmono i, ?_, ?_, ⟨g, hg, ?_⟩, fun i hi x hx => (hsee i hi _ (hidx i hi) x hx).1, fun x hx => (hsee k le_rfl _ (hidx k le_rfl) x (by rw [hd2]; exact hx)).2⟩
    · rw [← hw0, hd2]
      exact (hidx 0 (by omega)).trans hle
    · intro i hi
      refine (hd3 _ (w (i + 1)) _).trans (add_le_add ((hd3 _ (w i) _).trans (add_le_add (hidx i (by omega)) (hw i hi))) ?_)
      rw [hd2]
      exact hidx (i + 1) (by omega)
    · rw [← hwk]
      exact (hidx k le_rfl).trans hle
  refine ⟨idx k + 1, fun fuel hf => ?_⟩
  exact C153_birrt hC hP hfree hself hmove heur q0 gs hgs shoot h hemp a (d + d + d) idx k hch (fun s0 n t h1 ht hr _ => hnew s0 n t h1 ht hr) st late intr hstop (fun m _ => hlim m) (fun m _ => hint m) fuel (by omega)

end Verif.Planner
