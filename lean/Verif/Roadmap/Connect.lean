import Verif.Roadmap.Merge

/-! `canReach` and `connect` preserve and use the invariants (helper lemmas). -/
namespace Verif.Roadmap
open Relation
variable {Q P K : Type}

/-- One link of the component graph. -/
def CStep (r : Roadmap Q P) : Nat → Nat → Prop := StepRel (fun c => (r.comp c).tos)
/-- Reachability in the component graph. -/
def CReach (r : Roadmap Q P) : Nat → Nat → Prop := ReflTransGen (CStep r)

theorem Wf.creach_live {r : Roadmap Q P} (h : Wf r) {c d : Nat} (hc : c ∈ r.live) (hd : CReach r c d) :
    d ∈ r.live := by
  induction hd with
  | refl => exact hc
  | tail _ hs ih => exact (h.to_live _ ih _ hs).1

theorem Wf.frms_reach {r : Roadmap Q P} (h : Wf r) {c d : Nat} (hc : c ∈ r.live)
    (hd : ReflTransGen (StepRel (fun c => (r.comp c).frms)) c d) : d ∈ r.live ∧ CReach r d c := by
  induction hd with
  | refl => exact ⟨hc, ReflTransGen.refl⟩
  | tail _ hs ih => exact ⟨(h.frm_live _ ih.1 _ hs).1, ReflTransGen.head ((h.frm_live _ ih.1 _ hs).2.2) ih.2⟩

theorem Wf.reach_frms {r : Roadmap Q P} (h : Wf r) {c d : Nat} (hc : c ∈ r.live)
    (hd : CReach r c d) : ReflTransGen (StepRel (fun c => (r.comp c).frms)) d c := by
  have : d ∈ r.live ∧ ReflTransGen (StepRel (fun c => (r.comp c).frms)) d c := by
    induction hd with
    | refl => exact ⟨hc, ReflTransGen.refl⟩
    | tail _ hs ih => exact ⟨(h.to_live _ ih.1 _ hs).1, ReflTransGen.head ((h.to_live _ ih.1 _ hs).2.2) ih.2⟩
  exact this.2

theorem length_le_of_subset {l m : List Nat} (hn : l.Nodup) (hs : ∀ x ∈ l, x ∈ m) : l.length ≤ m.length :=
  (List.subperm_of_subset hn hs).length_le

theorem clean_all (b : Bfs) (h : ∀ x, b.flags x = true ↔ x ∈ b.seen) : clean b.seen b.flags = fun _ => false := by
  funext x
  rw [clean_apply]
  by_cases hx : x ∈ b.seen
  · simp [hx]
  · simp only [hx, if_false]
    have : ¬ b.flags x = true := fun hf => hx ((h x).1 hf)
    simpa using this

theorem Wf.explored_eq {r : Roadmap Q P} (h : Wf r) : r.explored = fun _ => false := funext h.unexplored

/-- `canReach` terminates, answers reachability in the component graph and leaves the roadmap unchanged. -/
theorem canReach_spec {r : Roadmap Q P} (h : Wf r) {c d : Nat} (hc : c ∈ r.live) :
    ∃ ans, canReach r c d = some (ans, r) ∧ (ans = true ↔ CReach r c d) := by
  have hB : ∀ l : List Nat, l.Nodup →
      (∀ x ∈ l, ReflTransGen (StepRel (fun c => (r.comp c).tos)) c x) → l.length ≤ r.live.length :=
    fun l hn hl => length_le_of_subset hn (fun x hx => h.creach_live hc (hl x hx))
  obtain ⟨ans, b', h1, h2, h3⟩ := canReachLoop_spec (target := d) hB (r.live.length + 2) [] _
    (BInv.init _ c d r.explored h.unexplored) (by simp) (by simp)
  refine ⟨ans, ?_, h3⟩
  unfold canReach
  rw [h1]
  simp only [clean_all b' h2, ← h.explored_eq]

/-- The component graph has no cycle. -/
def Acyclic (r : Roadmap Q P) : Prop :=
  ∀ c ∈ r.live, ∀ d, CReach r c d → CReach r d c → c = d

theorem canReachSet_spec {r : Roadmap Q P} (h : Wf r) (ha : Acyclic r) {c d : Nat} (hc : c ∈ r.live) :
    (¬ CReach r c d ∧ ∃ S, canReachSet r c d = some (false, S, r)) ∨
    (CReach r c d ∧ ∃ S, canReachSet r c d = some (true, S, r) ∧ S.Nodup ∧
      ∀ x, x ∈ S ↔ CReach r c x ∧ CReach r x d) := by
  have hB : ∀ l : List Nat, l.Nodup →
      (∀ x ∈ l, ReflTransGen (StepRel (fun c => (r.comp c).tos)) c x) → l.length ≤ r.live.length :=
    fun l hn hl => length_le_of_subset hn (fun x hx => h.creach_live hc (hl x hx))
  obtain ⟨found, done, fw, h1, h2, h3, h4⟩ := exploreLoop_spec (stop := d) hB (r.live.length + 2) false [] _
    (BInv.init _ c d r.explored h.unexplored) (by simp) (by simp)
  unfold canReachSet
  rw [h1]
  simp only [clean_all fw h2.flag]
  have hfound : found = true ↔ CReach r c d := by
    rw [h4]
    constructor
    · exact h2.reach d
    · intro hr
      rcases h2.complete h3 hr with h | h
      · exact h
      · exact h.1
  by_cases hf : found = true
  · right
    have hr := hfound.1 hf
    have hd : d ∈ r.live := h.creach_live hc hr
    refine ⟨hr, ?_⟩
    have hB' : ∀ l : List Nat, l.Nodup →
        (∀ x ∈ l, ReflTransGen (StepRel (fun c => (r.comp c).frms)) d x) → l.length ≤ r.live.length :=
      fun l hn hl => length_le_of_subset hn (fun x hx => (h.frms_reach hd (hl x hx)).1)
    obtain ⟨found', done', bw, k1, k2, k3, k4⟩ := exploreLoop_spec (stop := c) hB' (r.live.length + 2) false [] _
      (BInv.init _ d c (fun _ => false) (fun _ => rfl)) (by simp) (by simp)
    rw [k1]
    simp only [hf, Bool.not_true, Bool.false_eq_true, if_false, clean_all bw k2.flag]
    rw [← h.explored_eq]
    refine ⟨_, rfl, h2.nodup.filter _, ?_⟩
    intro x
    rw [List.mem_filter, List.contains_iff_mem]
    constructor
    · rintro ⟨hx1, hx2⟩
      exact ⟨h2.reach x hx1, (h.frms_reach hd (k2.reach x hx2)).2⟩
    · rintro ⟨hx1, hx2⟩
      have hxl := h.creach_live hc hx1
      constructor
      · rcases h2.complete h3 hx1 with h' | ⟨h', h''⟩
        · exact h'
        · have : x = d := ha x hxl d hx2 h''
          rw [this]; exact h'
      · rcases k2.complete k3 (h.reach_frms hxl hx2) with h' | ⟨h', h''⟩
        · exact h'
        · have : c = x := ha c hc x hx1 (h.frms_reach hc h'').2
          rw [← this]; exact h'
  · left
    refine ⟨fun hr => hf (hfound.2 hr), [], ?_⟩
    have : found = false := by simpa using hf
    subst this
    simp only [Bool.not_false, if_true]
    rw [← h.explored_eq]

/-- Semantic invariant: the components describe the reachability of the relation `G` on nodes. -/
structure Sem (G : Nat → Nat → Prop) (r : Roadmap Q P) : Prop where
  same : ∀ a b, a < r.configs.length → b < r.configs.length → r.cc a = r.cc b → ReflTransGen G a b
  sound : ∀ a b, a < r.configs.length → b < r.configs.length → CStep r (r.cc a) (r.cc b) → ReflTransGen G a b
  complete : ∀ a b, G a b → a < r.configs.length ∧ b < r.configs.length ∧ CReach r (r.cc a) (r.cc b)
  acyclic : Acyclic r

theorem Wf.exists_node {r : Roadmap Q P} (h : Wf r) {c : Nat} (hc : c ∈ r.live) :
    ∃ n, n < r.configs.length ∧ r.cc n = c := by
  obtain ⟨n, hn⟩ := List.exists_mem_of_ne_nil _ (h.nonempty c hc)
  exact ⟨n, h.owned c hc n hn⟩

theorem Sem.creach_sound {G : Nat → Nat → Prop} {r : Roadmap Q P} (h : Wf r) (hs : Sem G r) {a b : Nat}
    (ha : a < r.configs.length) (hb : b < r.configs.length) (hr : CReach r (r.cc a) (r.cc b)) :
    ReflTransGen G a b := by
  have key : ∀ c, CReach r (r.cc a) c → ∀ b, b < r.configs.length → r.cc b = c → ReflTransGen G a b := by
    intro c hc
    induction hc with
    | refl => intro b hb hbc; exact hs.same a b ha hb hbc.symm
    | @tail y z hy hyz ih =>
      intro b hb hbz
      obtain ⟨n, hn, hny⟩ := h.exists_node (h.creach_live (h.cc_live a ha) hy)
      refine (ih n hn hny).trans (hs.sound n b hn hb ?_)
      rw [hny, hbz]; exact hyz
  exact key _ hr b hb rfl

theorem Sem.reach_complete {G : Nat → Nat → Prop} {r : Roadmap Q P} (hs : Sem G r) {a b : Nat}
    (hr : ReflTransGen G a b) : CReach r (r.cc a) (r.cc b) := by
  induction hr with
  | refl => exact ReflTransGen.refl
  | tail _ hs' ih => exact ih.trans (hs.complete _ _ hs').2.2

/-- The relation `G` with one more pair. -/
def addPair (G : Nat → Nat → Prop) (a b : Nat) : Nat → Nat → Prop := fun x y => G x y ∨ (x = a ∧ y = b)

theorem addPair_mono (G : Nat → Nat → Prop) (a b : Nat) {x y : Nat} (h : ReflTransGen G x y) :
    ReflTransGen (addPair G a b) x y := ReflTransGen.mono (fun _ _ h => Or.inl h) _ _ h

/-- Two roadmaps that differ only by the components. -/
structure SameGraph (r r' : Roadmap Q P) : Prop where
  configs : r'.configs = r.configs
  edges : r'.edges = r.edges
  out : r'.out = r.out
  inn : r'.inn = r.inn
  init : r'.init = r.init
  goals : r'.goals = r.goals
  nextCC : r'.nextCC = r.nextCC

theorem collapse_mem {c1 x : Nat} {cs : List Nat} (h : x ∈ cs) : collapse c1 cs x = c1 := by simp [collapse, h]
theorem collapse_not_mem {c1 x : Nat} {cs : List Nat} (h : x ∉ cs) : collapse c1 cs x = x := by simp [collapse, h]

/-- `Roadmap::connect` never fails and updates the components for one more directed connection. -/
theorem connect_spec {G : Nat → Nat → Prop} {r : Roadmap Q P} (h : Wf r) (hs : Sem G r) {a b : Nat}
    (ha : a < r.configs.length) (hb : b < r.configs.length) :
    ∃ r', connect r (r.cc a) (r.cc b) = .ok r' ∧ Wf r' ∧ SameGraph r r' ∧ Sem (addPair G a b) r' := by
  have hca := h.cc_live a ha
  have hcb := h.cc_live b hb
  obtain ⟨ans, h1, h2⟩ := canReach_spec h (d := r.cc b) hca
  unfold connect
  rw [h1]
  cases ans with
  | true =>
    have hr := h2.1 rfl
    refine ⟨r, rfl, h, ⟨rfl, rfl, rfl, rfl, rfl, rfl, rfl⟩, ?_⟩
    refine ⟨fun x y hx hy e => addPair_mono _ _ _ (hs.same x y hx hy e),
      fun x y hx hy e => addPair_mono _ _ _ (hs.sound x y hx hy e), ?_, hs.acyclic⟩
    rintro x y (hg | ⟨rfl, rfl⟩)
    · exact hs.complete x y hg
    · exact ⟨ha, hb, hr⟩
  | false =>
    have hnr : ¬ CReach r (r.cc a) (r.cc b) := fun hr => by simpa using h2.2 hr
    rcases canReachSet_spec h hs.acyclic (d := r.cc a) hcb with ⟨hn, S, hS⟩ | ⟨hr, S, hS, hSn, hSm⟩
    · -- no cycle: add a link
      simp only [hS]
      refine ⟨_, rfl, ?_, ⟨rfl, rfl, rfl, rfl, rfl, rfl, rfl⟩, ?_⟩
      all_goals
        have hne : r.cc a ≠ r.cc b := fun he => hnr (he ▸ ReflTransGen.refl)
        generalize hm : set (set r.comp (r.cc a) { r.comp (r.cc a) with tos := sInsert (r.cc b) (r.comp (r.cc a)).tos })
          (r.cc b) { (set r.comp (r.cc a) { r.comp (r.cc a) with tos := sInsert (r.cc b) (r.comp (r.cc a)).tos }) (r.cc b) with
            frms := sInsert (r.cc a) ((set r.comp (r.cc a) { r.comp (r.cc a) with tos := sInsert (r.cc b) (r.comp (r.cc a)).tos }) (r.cc b)).frms } = m
        have mn : ∀ y, (m y).nodes = (r.comp y).nodes := by
          intro y; rw [← hm]
          by_cases h1 : y = r.cc b
          · subst h1; rw [set_eq, set_ne _ _ (Ne.symm hne)]
          · rw [set_ne _ _ h1]
            by_cases h2 : y = r.cc a
            · subst h2; rw [set_eq]
            · rw [set_ne _ _ h2]
        have mt : ∀ y z, z ∈ (m y).tos ↔ z ∈ (r.comp y).tos ∨ (y = r.cc a ∧ z = r.cc b) := by
          intro y z; rw [← hm]
          by_cases h1 : y = r.cc b
          · subst h1; rw [set_eq, set_ne _ _ (Ne.symm hne)]; simp [Ne.symm hne]
          · rw [set_ne _ _ h1]
            by_cases h2 : y = r.cc a
            · subst h2; rw [set_eq]; simp [mem_sInsert]; tauto
            · rw [set_ne _ _ h2]; simp [h2]
        have mf : ∀ y z, z ∈ (m y).frms ↔ z ∈ (r.comp y).frms ∨ (y = r.cc b ∧ z = r.cc a) := by
          intro y z; rw [← hm]
          by_cases h1 : y = r.cc b
          · subst h1; rw [set_eq, set_ne _ _ (Ne.symm hne)]; simp [mem_sInsert]; tauto
          · rw [set_ne _ _ h1]
            by_cases h2 : y = r.cc a
            · subst h2; rw [set_eq]; simp [hne]
            · rw [set_ne _ _ h2]; simp [h1]
      · -- Wf
        constructor
        · exact h.cc_live
        · intro n hn; show n ∈ (m _).nodes; rw [mn]; exact h.mem n hn
        · intro c hc n hn; change n ∈ (m c).nodes at hn; rw [mn] at hn; exact h.owned c hc n hn
        · intro c hc; show (m c).nodes.Nodup; rw [mn]; exact h.nodup c hc
        · intro c hc; show (m c).nodes ≠ []; rw [mn]; exact h.nonempty c hc
        · exact h.live_sorted
        · exact h.live_lt
        · intro c hc d hd
          change d ∈ (m c).tos at hd
          show d ∈ r.live ∧ d ≠ c ∧ c ∈ (m d).frms
          rw [mf]
          rcases (mt c d).1 hd with hd | ⟨rfl, rfl⟩
          · obtain ⟨k1, k2, k3⟩ := h.to_live c hc d hd
            exact ⟨k1, k2, Or.inl k3⟩
          · exact ⟨hcb, Ne.symm hne, Or.inr ⟨rfl, rfl⟩⟩
        · intro c hc d hd
          change d ∈ (m c).frms at hd
          show d ∈ r.live ∧ d ≠ c ∧ c ∈ (m d).tos
          rw [mt]
          rcases (mf c d).1 hd with hd | ⟨rfl, rfl⟩
          · obtain ⟨k1, k2, k3⟩ := h.frm_live c hc d hd
            exact ⟨k1, k2, Or.inl k3⟩
          · exact ⟨hca, hne, Or.inr ⟨rfl, rfl⟩⟩
        · exact h.unexplored
      · -- Sem
        have hstep : ∀ x y, CStep ({ r with comp := m } : Roadmap Q P) x y ↔
            CStep r x y ∨ (x = r.cc a ∧ y = r.cc b) := fun x y => mt x y
        have hmono : ∀ {x y}, CReach r x y → CReach ({ r with comp := m } : Roadmap Q P) x y :=
          fun hxy => ReflTransGen.mono (fun _ _ hh => (hstep _ _).2 (Or.inl hh)) _ _ hxy
        have hsplit : ∀ {x y}, CReach ({ r with comp := m } : Roadmap Q P) x y →
            CReach r x y ∨ (CReach r x (r.cc a) ∧ CReach r (r.cc b) y) := by
          intro x y hxy
          induction hxy with
          | refl => exact Or.inl ReflTransGen.refl
          | tail _ hyz ih =>
            rcases (hstep _ _).1 hyz with hyz | ⟨rfl, rfl⟩
            · rcases ih with ih | ⟨i1, i2⟩
              · exact Or.inl (ih.tail hyz)
              · exact Or.inr ⟨i1, i2.tail hyz⟩
            · rcases ih with ih | ⟨i1, i2⟩
              · exact Or.inr ⟨ih, ReflTransGen.refl⟩
              · exact absurd i2 hn
        constructor
        · intro x y hx hy e; exact addPair_mono _ _ _ (hs.same x y hx hy e)
        · intro x y hx hy e
          rcases (hstep _ _).1 e with e | ⟨e1, e2⟩
          · exact addPair_mono _ _ _ (hs.sound x y hx hy e)
          · change r.cc x = r.cc a at e1
            change r.cc y = r.cc b at e2
            refine (addPair_mono _ _ _ (hs.same x a hx ha e1)).trans (ReflTransGen.head ?_
              (addPair_mono _ _ _ (hs.same b y hb hy e2.symm)))
            exact Or.inr ⟨rfl, rfl⟩
        · rintro x y (hg | ⟨rfl, rfl⟩)
          · obtain ⟨k1, k2, k3⟩ := hs.complete x y hg
            exact ⟨k1, k2, hmono k3⟩
          · exact ⟨ha, hb, ReflTransGen.single ((hstep _ _).2 (Or.inr ⟨rfl, rfl⟩))⟩
        · intro c hc d hcd hdc
          rcases hsplit hcd with k1 | ⟨k1, k2⟩
          · rcases hsplit hdc with k3 | ⟨k3, k4⟩
            · exact hs.acyclic c hc d k1 k3
            · exact absurd (k4.trans (k1.trans k3)) hn
          · rcases hsplit hdc with k3 | ⟨k3, k4⟩
            · exact absurd (k2.trans (k3.trans k1)) hn
            · exact absurd (k2.trans k3) hn
    · -- cycle: merge
      simp only [hS]
      have haS : r.cc a ∈ S := (hSm _).2 ⟨hr, ReflTransGen.refl⟩
      have hbS : r.cc b ∈ S := (hSm _).2 ⟨ReflTransGen.refl, hr⟩
      have hSl : ∀ c ∈ S, c ∈ r.live := fun c hc => h.creach_live hcb ((hSm c).1 hc).1
      have hM := mergeAll_spec (r.cc a) S r h hca hSl hSn
      refine ⟨_, rfl, hM.wf, ⟨hM.configs, hM.edges, hM.out, hM.inn, hM.init, hM.goals, hM.nextCC⟩, ?_⟩
      generalize mergeAll (r.cc a) S r = r' at hM
      -- reachability in the collapsed graph, in terms of the former graph with the link a -> b
      have hplus : ∀ {x y}, CReach r' x y → x ∈ r'.live →
          y ∈ r'.live ∧ ∀ x0 y0, x0 ∈ r.live → y0 ∈ r.live → collapse (r.cc a) S x0 = x → collapse (r.cc a) S y0 = y →
            CReach r x0 y0 ∨ (CReach r x0 (r.cc a) ∧ CReach r (r.cc b) y0) := by
        intro x y hxy hx
        induction hxy with
        | refl =>
          refine ⟨hx, fun x0 y0 hx0 hy0 e1 e2 => ?_⟩
          by_cases k1 : x0 ∈ S
          · by_cases k2 : y0 ∈ S
            · exact Or.inr ⟨((hSm _).1 k1).2, ((hSm _).1 k2).1⟩
            · rw [collapse_mem k1] at e1
              rw [collapse_not_mem k2] at e2
              exact absurd (e2 ▸ e1 ▸ haS) k2
          · rw [collapse_not_mem k1] at e1
            by_cases k2 : y0 ∈ S
            · rw [collapse_mem k2] at e2
              exact absurd (e1 ▸ e2 ▸ haS) k1
            · rw [collapse_not_mem k2] at e2
              rw [e1, e2]; exact Or.inl ReflTransGen.refl
        | @tail y z hxy hyz ih =>
          obtain ⟨hy, ih⟩ := ih
          obtain ⟨hzy, p0, hp0, q0, hq0, e3, e4⟩ := (hM.tos y hy z).1 hyz
          have hz : z ∈ r'.live := (hM.wf.to_live y hy z hyz).1
          refine ⟨hz, fun x0 z0 hx0 hz0 e1 e2 => ?_⟩
          have hq0l := (h.to_live p0 hp0 q0 hq0).1
          -- from x0 to p0, then to q0, then to z0
          have l1 := ih x0 p0 hx0 hp0 e1 e3
          have l2 : CReach r q0 z0 ∨ (CReach r q0 (r.cc a) ∧ CReach r (r.cc b) z0) := by
            by_cases k1 : q0 ∈ S
            · by_cases k2 : z0 ∈ S
              · exact Or.inr ⟨((hSm _).1 k1).2, ((hSm _).1 k2).1⟩
              · rw [collapse_mem k1] at e4
                rw [collapse_not_mem k2] at e2
                exact absurd (e2 ▸ e4 ▸ haS) k2
            · rw [collapse_not_mem k1] at e4
              by_cases k2 : z0 ∈ S
              · rw [collapse_mem k2] at e2
                exact absurd (e4 ▸ e2 ▸ haS) k1
              · rw [collapse_not_mem k2] at e2
                rw [e4, e2]; exact Or.inl ReflTransGen.refl
          rcases l1 with l1 | ⟨l1, l1'⟩
          · rcases l2 with l2 | ⟨l2, l2'⟩
            · exact Or.inl ((l1.tail hq0).trans l2)
            · exact Or.inr ⟨(l1.tail hq0).trans l2, l2'⟩
          · rcases l2 with l2 | ⟨l2, l2'⟩
            · exact Or.inr ⟨l1, (l1'.tail hq0).trans l2⟩
            · exact Or.inr ⟨l1, l2'⟩
      have hfix : ∀ x ∈ r'.live, x ∈ r.live ∧ collapse (r.cc a) S x = x := by
        intro x hx
        obtain ⟨k1, k2⟩ := (hM.live x).1 hx
        refine ⟨k1, ?_⟩
        by_cases k3 : x ∈ S
        · rw [collapse_mem k3, k2 k3]
        · exact collapse_not_mem k3
      have hedge : ReflTransGen (addPair G a b) a b := ReflTransGen.single (Or.inr ⟨rfl, rfl⟩)
      have hnodes : ∀ x y, x < r.configs.length → y < r.configs.length →
          (CReach r (r.cc x) (r.cc y) ∨ (CReach r (r.cc x) (r.cc a) ∧ CReach r (r.cc b) (r.cc y))) →
          ReflTransGen (addPair G a b) x y := by
        intro x y hx hy hxy
        rcases hxy with k | ⟨k1, k2⟩
        · exact addPair_mono _ _ _ (hs.creach_sound h hx hy k)
        · exact (addPair_mono _ _ _ (hs.creach_sound h hx ha k1)).trans
            (hedge.trans (addPair_mono _ _ _ (hs.creach_sound h hb hy k2)))
      constructor
      · intro x y hx hy e
        rw [hM.configs] at hx hy
        refine hnodes x y hx hy ?_
        have hx' : r'.cc x ∈ r'.live := hM.wf.cc_live x (by rw [hM.configs]; exact hx)
        refine (hplus (x := r'.cc x) (y := r'.cc x) ReflTransGen.refl hx').2 _ _ (h.cc_live x hx) (h.cc_live y hy)
          (hM.cc x hx).symm ?_
        rw [← hM.cc y hy, e]
      · intro x y hx hy e
        rw [hM.configs] at hx hy
        refine hnodes x y hx hy ?_
        have hx' : r'.cc x ∈ r'.live := hM.wf.cc_live x (by rw [hM.configs]; exact hx)
        exact (hplus (ReflTransGen.single e) hx').2 _ _ (h.cc_live x hx) (h.cc_live y hy)
          (hM.cc x hx).symm (hM.cc y hy).symm
      · have himg : ∀ {x y}, x ∈ r.live → CReach r x y → CReach r' (collapse (r.cc a) S x) (collapse (r.cc a) S y) := by
          intro x y hx hxy
          induction hxy with
          | refl => exact ReflTransGen.refl
          | @tail y z hy hyz ih =>
            by_cases k : collapse (r.cc a) S y = collapse (r.cc a) S z
            · rw [← k]; exact ih
            · refine ih.tail ?_
              have hyl := h.creach_live hx hy
              have hyl' : collapse (r.cc a) S y ∈ r'.live := by
                rw [hM.live]
                by_cases k3 : y ∈ S
                · rw [collapse_mem k3]; exact ⟨hca, fun _ => rfl⟩
                · rw [collapse_not_mem k3]; exact ⟨hyl, fun hh => absurd hh k3⟩
              exact (hM.tos _ hyl' _).2 ⟨k, y, hyl, z, hyz, rfl, rfl⟩
        rintro x y (hg | ⟨rfl, rfl⟩)
        · obtain ⟨k1, k2, k3⟩ := hs.complete x y hg
          rw [hM.configs]
          refine ⟨k1, k2, ?_⟩
          rw [hM.cc x k1, hM.cc y k2]
          exact himg (h.cc_live x k1) k3
        · rw [hM.configs]
          refine ⟨ha, hb, ?_⟩
          rw [hM.cc x ha, hM.cc y hb, collapse_mem haS, collapse_mem hbS]
          exact ReflTransGen.refl
      · intro c hc d hcd hdc
        obtain ⟨hd, h1⟩ := hplus hcd hc
        obtain ⟨_, h2⟩ := hplus hdc hd
        obtain ⟨c1, c2⟩ := hfix c hc
        obtain ⟨d1, d2⟩ := hfix d hd
        have inS : c ∈ S → d ∈ S → c = d := by
          intro k1 k2
          rw [((hM.live c).1 hc).2 k1, ((hM.live d).1 hd).2 k2]
        rcases h1 c d c1 d1 c2 d2 with k1 | ⟨k1, k2⟩
        · rcases h2 d c d1 c1 d2 c2 with k3 | ⟨k3, k4⟩
          · exact hs.acyclic c c1 d k1 k3
          · exact inS ((hSm c).2 ⟨k4, k1.trans k3⟩) ((hSm d).2 ⟨k4.trans k1, k3⟩)
        · rcases h2 d c d1 c1 d2 c2 with k3 | ⟨k3, k4⟩
          · exact inS ((hSm c).2 ⟨k2.trans k3, k1⟩) ((hSm d).2 ⟨k2, k3.trans k1⟩)
          · exact inS ((hSm c).2 ⟨k4, k1⟩) ((hSm d).2 ⟨k2, k3⟩)

end Verif.Roadmap
