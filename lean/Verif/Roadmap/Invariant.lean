import Verif.Roadmap.Connect
import Verif.Roadmap.Search

/-! Invariants of the roadmap along a history of calls (helper lemmas). -/
namespace Verif.Roadmap
open Relation
variable {Q P K : Type}

/-- There is an edge from `a` to `b` in `edges()`. -/
def HasEdge (r : Roadmap Q P) (a b : Nat) : Prop := ∃ e ∈ r.edges, e.src = a ∧ e.dst = b

/-- Adjacency lists and edge list agree. -/
structure Adj (r : Roadmap Q P) : Prop where
  ends : ∀ e ∈ r.edges, e.src < r.configs.length ∧ e.dst < r.configs.length
  outOk : ∀ n, ∀ e ∈ r.out n, e.src = n ∧ e ∈ r.edges
  innOk : ∀ n, ∀ e ∈ r.inn n, e.dst = n ∧ e ∈ r.edges
  outDistinct : ∀ n, (r.out n).Pairwise (fun e e' => e.dst ≠ e'.dst)
  innDistinct : ∀ n, (r.inn n).Pairwise (fun e e' => e.src ≠ e'.src)
  listed : ∀ e ∈ r.edges, ∃ e', e' ∈ r.out e.src ∧ e' ∈ r.inn e.dst ∧ e'.src = e.src ∧ e'.dst = e.dst
  ids : r.edges.map Edge.id = List.range r.edges.length

theorem Wf.frame {r : Roadmap Q P} (h : Wf r) (o i : Nat → List (Edge P)) (e : List (Edge P)) (x : Option Nat)
    (g : List Nat) : Wf { r with out := o, inn := i, edges := e, init := x, goals := g } :=
  ⟨h.cc_live, h.mem, h.owned, h.nodup, h.nonempty, h.live_sorted, h.live_lt, h.to_live, h.frm_live, h.unexplored⟩

theorem Sem.frame {G : Nat → Nat → Prop} {r : Roadmap Q P} (h : Sem G r) (o i : Nat → List (Edge P)) (e : List (Edge P))
    (x : Option Nat) (g : List Nat) : Sem G { r with out := o, inn := i, edges := e, init := x, goals := g } :=
  ⟨h.same, h.sound, h.complete, h.acyclic⟩

theorem Sem.congr {G G' : Nat → Nat → Prop} {r : Roadmap Q P} (h : Sem G r) (hg : ∀ a b, G a b ↔ G' a b) : Sem G' r := by
  have : G = G' := funext fun a => funext fun b => propext (hg a b)
  rw [← this]; exact h

/-- The adjacency update of one edge insertion. -/
def link (r : Roadmap Q P) (e : Edge P) : Roadmap Q P :=
  if isOutNeighbor r e.src e.dst then r
  else { r with out := set r.out e.src (r.out e.src ++ [e]), inn := set r.inn e.dst (r.inn e.dst ++ [e]) }

theorem Adj.neighbor_iff {r : Roadmap Q P} (h : Adj r) (a b : Nat) :
    (isOutNeighbor r a b = true ↔ HasEdge r a b) ∧ (isInNeighbor r b a = true ↔ HasEdge r a b) := by
  constructor
  · unfold isOutNeighbor HasEdge
    rw [List.any_eq_true]
    constructor
    · rintro ⟨e, he, hd⟩
      obtain ⟨h1, h2⟩ := h.outOk a e he
      exact ⟨e, h2, h1, by simpa using hd⟩
    · rintro ⟨e, he, rfl, rfl⟩
      obtain ⟨e', h1, _, _, h4⟩ := h.listed e he
      exact ⟨e', h1, by simp [h4]⟩
  · unfold isInNeighbor HasEdge
    rw [List.any_eq_true]
    constructor
    · rintro ⟨e, he, hd⟩
      obtain ⟨h1, h2⟩ := h.innOk b e he
      exact ⟨e, h2, by simpa using hd, h1⟩
    · rintro ⟨e, he, rfl, rfl⟩
      obtain ⟨e', _, h2, h3, _⟩ := h.listed e he
      exact ⟨e', h2, by simp [h3]⟩

theorem isIn_eq_isOut {r : Roadmap Q P} (h : Adj r) (a b : Nat) : isInNeighbor r b a = isOutNeighbor r a b := by
  rw [Bool.eq_iff_iff, (h.neighbor_iff a b).1, (h.neighbor_iff a b).2]

theorem Adj.link {r : Roadmap Q P} (h : Adj r) (e : Edge P) (he : e.id = r.edges.length)
    (hs : e.src < r.configs.length) (hd : e.dst < r.configs.length) :
    Adj { link r e with edges := r.edges ++ [e] } := by
  have hends : ∀ x ∈ r.edges ++ [e], x.src < r.configs.length ∧ x.dst < r.configs.length := by
    intro x hx
    rcases List.mem_append.1 hx with hx | hx
    · exact h.ends x hx
    · rw [List.mem_singleton.1 hx]; exact ⟨hs, hd⟩
  have hids : (r.edges ++ [e]).map Edge.id = List.range (r.edges ++ [e]).length := by
    simp [h.ids, he, List.range_succ]
  unfold Roadmap.link
  split
  · rename_i hn
    refine ⟨hends, fun n x hx => ?_, fun n x hx => ?_, h.outDistinct, h.innDistinct, ?_, hids⟩
    · obtain ⟨h1, h2⟩ := h.outOk n x hx
      exact ⟨h1, List.mem_append.2 (Or.inl h2)⟩
    · obtain ⟨h1, h2⟩ := h.innOk n x hx
      exact ⟨h1, List.mem_append.2 (Or.inl h2)⟩
    · intro x hx
      rcases List.mem_append.1 hx with hx | hx
      · exact h.listed x hx
      · rw [List.mem_singleton.1 hx]
        obtain ⟨e', k1, k2, k3⟩ := ((h.neighbor_iff e.src e.dst).1).1 hn
        obtain ⟨e'', l1, l2, l3, l4⟩ := h.listed e' k1
        rw [k2] at l1 l3; rw [k3] at l2 l4
        exact ⟨e'', l1, l2, l3, l4⟩
  · rename_i hn
    have hn' : ¬ HasEdge r e.src e.dst := fun hh => hn (((h.neighbor_iff _ _).1).2 hh)
    refine ⟨hends, ?_, ?_, ?_, ?_, ?_, hids⟩
    · intro n x hx
      change x ∈ set r.out e.src (r.out e.src ++ [e]) n at hx
      show x.src = n ∧ x ∈ r.edges ++ [e]
      by_cases hne : n = e.src
      · subst hne
        rw [set_eq] at hx
        rcases List.mem_append.1 hx with hx | hx
        · exact ⟨(h.outOk _ x hx).1, List.mem_append.2 (Or.inl (h.outOk _ x hx).2)⟩
        · rw [List.mem_singleton.1 hx]; simp
      · rw [set_ne _ _ hne] at hx
        exact ⟨(h.outOk _ x hx).1, List.mem_append.2 (Or.inl (h.outOk _ x hx).2)⟩
    · intro n x hx
      change x ∈ set r.inn e.dst (r.inn e.dst ++ [e]) n at hx
      show x.dst = n ∧ x ∈ r.edges ++ [e]
      by_cases hne : n = e.dst
      · subst hne
        rw [set_eq] at hx
        rcases List.mem_append.1 hx with hx | hx
        · exact ⟨(h.innOk _ x hx).1, List.mem_append.2 (Or.inl (h.innOk _ x hx).2)⟩
        · rw [List.mem_singleton.1 hx]; simp
      · rw [set_ne _ _ hne] at hx
        exact ⟨(h.innOk _ x hx).1, List.mem_append.2 (Or.inl (h.innOk _ x hx).2)⟩
    · intro n
      show (set r.out e.src (r.out e.src ++ [e]) n).Pairwise _
      by_cases hne : n = e.src
      · subst hne
        rw [set_eq, List.pairwise_append]
        refine ⟨h.outDistinct _, by simp, fun x hx y hy hxy => ?_⟩
        rw [List.mem_singleton.1 hy] at hxy
        exact hn' ⟨x, (h.outOk _ x hx).2, (h.outOk _ x hx).1, hxy⟩
      · rw [set_ne _ _ hne]; exact h.outDistinct n
    · intro n
      show (set r.inn e.dst (r.inn e.dst ++ [e]) n).Pairwise _
      by_cases hne : n = e.dst
      · subst hne
        rw [set_eq, List.pairwise_append]
        refine ⟨h.innDistinct _, by simp, fun x hx y hy hxy => ?_⟩
        rw [List.mem_singleton.1 hy] at hxy
        exact hn' ⟨x, (h.innOk _ x hx).2, hxy, (h.innOk _ x hx).1⟩
      · rw [set_ne _ _ hne]; exact h.innDistinct n
    · intro x hx
      show ∃ e', e' ∈ set r.out e.src (r.out e.src ++ [e]) x.src ∧ e' ∈ set r.inn e.dst (r.inn e.dst ++ [e]) x.dst ∧ _
      have mo : ∀ n, ∀ y ∈ r.out n, y ∈ set r.out e.src (r.out e.src ++ [e]) n := by
        intro n y hy
        by_cases hne : n = e.src
        · subst hne; rw [set_eq]; exact List.mem_append.2 (Or.inl hy)
        · rw [set_ne _ _ hne]; exact hy
      have mi : ∀ n, ∀ y ∈ r.inn n, y ∈ set r.inn e.dst (r.inn e.dst ++ [e]) n := by
        intro n y hy
        by_cases hne : n = e.dst
        · subst hne; rw [set_eq]; exact List.mem_append.2 (Or.inl hy)
        · rw [set_ne _ _ hne]; exact hy
      rcases List.mem_append.1 hx with hx | hx
      · obtain ⟨e', k1, k2, k3⟩ := h.listed x hx
        exact ⟨e', mo _ _ k1, mi _ _ k2, k3⟩
      · rw [List.mem_singleton.1 hx, set_eq, set_eq]
        exact ⟨e, by simp, by simp, rfl, rfl⟩

theorem link_out {r : Roadmap Q P} (h : Adj r) (e : Edge P) :
    (do let r1 ← if !isOutNeighbor r e.src e.dst then addOutEdge r e else pure r
        let r2 ← if !isInNeighbor r1 e.dst e.src then addInEdge r1 e else pure r1
        implAddEdge r2 e) = implAddEdge (link r e) e := by
  have hio := isIn_eq_isOut h e.src e.dst
  unfold link
  cases hn : isOutNeighbor r e.src e.dst with
  | true =>
    rw [hn] at hio
    simp [hio]
  | false =>
    rw [hn] at hio
    have h1 : (r.out e.src).any (fun x => x.dst == e.dst) = false := hn
    have h2 : (r.inn e.dst).any (fun x => x.src == e.src) = false := hio
    have h3 : ∀ o, isInNeighbor { r with out := o } e.dst e.src = false := fun o => h2
    simp only [addOutEdge, h1, addInEdge, Bool.not_false, if_true, Bool.false_eq_true, if_false]
    change (do
      let r1 ← (Except.ok _ : Except Err (Roadmap Q P))
      _) = _
    simp only [bind, Except.bind, h3, Bool.not_false, if_true, h2, Bool.false_eq_true, if_false]

theorem link_in {r : Roadmap Q P} (h : Adj r) (e : Edge P) :
    (do let r1 ← if !isInNeighbor r e.dst e.src then addInEdge r e else pure r
        let r2 ← if !isOutNeighbor r1 e.src e.dst then addOutEdge r1 e else pure r1
        implAddEdge r2 e) = implAddEdge (link r e) e := by
  have hio := isIn_eq_isOut h e.src e.dst
  unfold link
  cases hn : isOutNeighbor r e.src e.dst with
  | true =>
    rw [hn] at hio
    simp [hio, hn]
  | false =>
    rw [hn] at hio
    have h1 : (r.out e.src).any (fun x => x.dst == e.dst) = false := hn
    have h2 : (r.inn e.dst).any (fun x => x.src == e.src) = false := hio
    have h3 : ∀ o, isOutNeighbor { r with inn := o } e.src e.dst = false := fun o => h1
    simp only [addOutEdge, h2, hio, addInEdge, Bool.not_false, if_true, Bool.false_eq_true, if_false]
    change (do
      let r1 ← (Except.ok _ : Except Err (Roadmap Q P))
      _) = _
    simp only [bind, Except.bind, h3, Bool.not_false, if_true, h1, Bool.false_eq_true, if_false]

/-- What an edge insertion does not change. -/
structure EdgeAdded (r r' : Roadmap Q P) (a b : Nat) (p : P) : Prop where
  configs : r'.configs = r.configs
  edges : r'.edges = r.edges ++ [⟨r.edges.length, a, b, p⟩]
  init : r'.init = r.init
  goals : r'.goals = r.goals
  nextCC : r'.nextCC = r.nextCC

theorem implAddEdge_spec {G : Nat → Nat → Prop} {r : Roadmap Q P} (h : Wf r) (ha : Adj r) (hs : Sem G r) {a b : Nat} (p : P)
    (hla : a < r.configs.length) (hlb : b < r.configs.length) :
    ∃ r', implAddEdge (link r ⟨r.edges.length, a, b, p⟩) ⟨r.edges.length, a, b, p⟩ = .ok r' ∧
      Wf r' ∧ Adj r' ∧ Sem (addPair G a b) r' ∧ EdgeAdded r r' a b p := by
  set e : Edge P := ⟨r.edges.length, a, b, p⟩ with he
  have hlink : ∃ o i, link r e = { r with out := o, inn := i } := by
    unfold link; split
    · exact ⟨r.out, r.inn, rfl⟩
    · exact ⟨_, _, rfl⟩
  have hadj := Adj.link ha e rfl hla hlb
  obtain ⟨o, i, hoi⟩ := hlink
  rw [hoi] at hadj ⊢
  have hW : Wf ({ r with out := o, inn := i, edges := r.edges ++ [e] } : Roadmap Q P) := h.frame o i _ r.init r.goals
  have hS : Sem G ({ r with out := o, inn := i, edges := r.edges ++ [e] } : Roadmap Q P) := hs.frame o i _ r.init r.goals
  obtain ⟨r', h1, h2, h3, h4⟩ := connect_spec hW hS (a := a) (b := b) hla hlb
  refine ⟨r', h1, h2, ?_, h4, ⟨h3.configs, h3.edges, h3.init, h3.goals, h3.nextCC⟩⟩
  have e1 := h3.configs
  have e2 := h3.edges
  have e3 := h3.out
  have e4 := h3.inn
  constructor
  · rw [e1, e2]; exact hadj.ends
  · rw [e3, e2]; exact hadj.outOk
  · rw [e4, e2]; exact hadj.innOk
  · rw [e3]; exact hadj.outDistinct
  · rw [e4]; exact hadj.innDistinct
  · rw [e2, e3, e4]; exact hadj.listed
  · rw [e2]; exact hadj.ids

theorem addEdge_spec {G : Nat → Nat → Prop} {r : Roadmap Q P} (h : Wf r) (ha : Adj r) (hs : Sem G r) {a b : Nat} (p : P)
    (hla : a < r.configs.length) (hlb : b < r.configs.length) :
    ∃ r', addEdge r a b p = .ok r' ∧
      Wf r' ∧ Adj r' ∧ Sem (addPair G a b) r' ∧ EdgeAdded r r' a b p := by
  have : addEdge r a b p = implAddEdge (link r ⟨r.edges.length, a, b, p⟩) ⟨r.edges.length, a, b, p⟩ := by
    rw [← link_out ha]
    unfold addEdge
    have : (r.configs.length ≤ a || r.configs.length ≤ b) = false := by simp; omega
    simp only [this]
    rfl
  rw [this]
  exact implAddEdge_spec h ha hs p hla hlb

theorem addReverseEdge_spec {G : Nat → Nat → Prop} {r : Roadmap Q P} (h : Wf r) (ha : Adj r) (hs : Sem G r) {a b : Nat} (p : P)
    (hla : a < r.configs.length) (hlb : b < r.configs.length) :
    ∃ r', addReverseEdge r a b p = .ok r' ∧
      Wf r' ∧ Adj r' ∧ Sem (addPair G b a) r' ∧ EdgeAdded r r' b a p := by
  have : addReverseEdge r a b p = implAddEdge (link r ⟨r.edges.length, b, a, p⟩) ⟨r.edges.length, b, a, p⟩ := by
    rw [← link_in ha]
    unfold addReverseEdge
    rfl
  rw [this]
  exact implAddEdge_spec h ha hs p hlb hla

/-- Effect of `addEdges`. -/
structure EdgesAdded (E : Env Q P K) (r r' : Roadmap Q P) (a b : Nat) (p : P) : Prop where
  configs : r'.configs = r.configs
  edges : r'.edges = r.edges ++ [⟨r.edges.length, a, b, p⟩, ⟨r.edges.length + 1, b, a, E.rev p⟩]
  init : r'.init = r.init
  goals : r'.goals = r.goals
  nextCC : r'.nextCC = r.nextCC

theorem addEdges_spec (E : Env Q P K) {G : Nat → Nat → Prop} {r : Roadmap Q P} (h : Wf r) (ha : Adj r) (hs : Sem G r) {a b : Nat} (p : P)
    (hla : a < r.configs.length) (hlb : b < r.configs.length) :
    ∃ r', addEdges E r a b p = .ok r' ∧
      Wf r' ∧ Adj r' ∧ Sem (addPair (addPair G a b) b a) r' ∧ EdgesAdded E r r' a b p := by
  obtain ⟨r1, h1, h2, h3, h4, h5⟩ := addEdge_spec h ha hs p hla hlb
  obtain ⟨r2, k1, k2, k3, k4, k5⟩ := addReverseEdge_spec h2 h3 h4 (E.rev p) (a := a) (b := b)
    (by rw [h5.configs]; exact hla) (by rw [h5.configs]; exact hlb)
  refine ⟨r2, ?_, k2, k3, k4, ?_⟩
  · unfold addEdges
    rw [h1]
    exact k1
  · refine ⟨by rw [k5.configs, h5.configs], ?_, by rw [k5.init, h5.init], by rw [k5.goals, h5.goals],
      by rw [k5.nextCC, h5.nextCC]⟩
    rw [k5.edges, h5.edges]
    simp

/-- Effect of a node creation on the parts of the roadmap that are not components. -/
structure NodeAdded (r r' : Roadmap Q P) (q : Q) : Prop where
  configs : r'.configs = r.configs ++ [q]
  edges : r'.edges = r.edges
  init : r'.init = r.init
  goals : r'.goals = r.goals
  nextCC : r'.nextCC = r.nextCC + 1

theorem Adj.push {r r' : Roadmap Q P} (h : Adj r) (q : Q) (hc : r'.configs = r.configs ++ [q])
    (he : r'.edges = r.edges) (ho : r'.out = set r.out r.configs.length []) (hi : r'.inn = set r.inn r.configs.length []) :
    Adj r' := by
  constructor
  · intro e hh
    rw [he] at hh; rw [hc]
    have := h.ends e hh
    simp; omega
  · intro n e hh
    rw [ho] at hh; rw [he]
    by_cases hn : n = r.configs.length
    · rw [hn, set_eq] at hh; simp at hh
    · rw [set_ne _ _ hn] at hh; exact h.outOk n e hh
  · intro n e hh
    rw [hi] at hh; rw [he]
    by_cases hn : n = r.configs.length
    · rw [hn, set_eq] at hh; simp at hh
    · rw [set_ne _ _ hn] at hh; exact h.innOk n e hh
  · intro n
    rw [ho]
    by_cases hn : n = r.configs.length
    · rw [hn, set_eq]; simp
    · rw [set_ne _ _ hn]; exact h.outDistinct n
  · intro n
    rw [hi]
    by_cases hn : n = r.configs.length
    · rw [hn, set_eq]; simp
    · rw [set_ne _ _ hn]; exact h.innDistinct n
  · intro e hh
    rw [he] at hh
    obtain ⟨e', h1, h2, h3⟩ := h.listed e hh
    have h4 := h.ends e hh
    refine ⟨e', ?_, ?_, h3⟩
    · rw [ho, set_ne _ _ (by omega)]; exact h1
    · rw [hi, set_ne _ _ (by omega)]; exact h2
  · rw [he]; exact h.ids

theorem pushNewNode_spec {G : Nat → Nat → Prop} {r : Roadmap Q P} (h : Wf r) (ha : Adj r) (hs : Sem G r) (q : Q) :
    Wf (pushNewNode r q).1 ∧ Adj (pushNewNode r q).1 ∧ Sem G (pushNewNode r q).1 ∧
    NodeAdded r (pushNewNode r q).1 q ∧ (pushNewNode r q).2 = r.configs.length := by
  have hnl : r.nextCC ∉ r.live := fun hh => absurd (h.live_lt _ hh) (by omega)
  have hcne : ∀ c ∈ r.live, c ≠ r.nextCC := fun c hc he => hnl (he ▸ hc)
  generalize hr : (pushNewNode r q).1 = r'
  have e1 : r'.configs = r.configs ++ [q] := by rw [← hr]; rfl
  have e2 : r'.cc = set r.cc r.configs.length r.nextCC := by rw [← hr]; rfl
  have e3 : r'.comp = set r.comp r.nextCC { nodes := [r.configs.length], tos := [], frms := [] } := by rw [← hr]; rfl
  have e4 : r'.live = r.live ++ [r.nextCC] := by rw [← hr]; rfl
  have e5 : r'.nextCC = r.nextCC + 1 := by rw [← hr]; rfl
  have e6 : r'.explored = set r.explored r.nextCC false := by rw [← hr]; rfl
  have hlen : r'.configs.length = r.configs.length + 1 := by rw [e1]; simp
  have hold : ∀ n, n < r.configs.length → r'.cc n = r.cc n := fun n hn => by rw [e2, set_ne _ _ (by omega)]
  have hnew : r'.cc r.configs.length = r.nextCC := by rw [e2, set_eq]
  have hcomp : ∀ c ∈ r.live, r'.comp c = r.comp c := fun c hc => by rw [e3, set_ne _ _ (hcne c hc)]
  have hcompn : r'.comp r.nextCC = { nodes := [r.configs.length], tos := [], frms := [] } := by rw [e3, set_eq]
  have hstep : ∀ c ∈ r.live, ∀ d, CStep r' c d ↔ CStep r c d := by
    intro c hc d; unfold CStep StepRel; dsimp only; rw [hcomp c hc]
  have hstepn : ∀ d, ¬ CStep r' r.nextCC d := by
    intro d; unfold CStep StepRel; dsimp only; rw [hcompn]; simp
  have hreach : ∀ c ∈ r.live, ∀ d, CReach r' c d ↔ CReach r c d := by
    intro c hc d
    constructor
    · intro hh
      induction hh with
      | refl => exact ReflTransGen.refl
      | tail _ hs ih => exact ih.tail ((hstep _ (h.creach_live hc ih) _).1 hs)
    · intro hh
      induction hh with
      | refl => exact ReflTransGen.refl
      | @tail y z h1 hs ih => exact ih.tail ((hstep _ (h.creach_live hc h1) _).2 hs)
  refine ⟨?_, ?_, ?_, ⟨e1, by rw [← hr]; rfl, by rw [← hr]; rfl, by rw [← hr]; rfl, e5⟩, rfl⟩
  · constructor
    · intro n hn
      rw [e4]
      by_cases hh : n = r.configs.length
      · subst hh; rw [hnew]; simp
      · rw [hold n (by omega)]; exact List.mem_append.2 (Or.inl (h.cc_live n (by omega)))
    · intro n hn
      by_cases hh : n = r.configs.length
      · subst hh; rw [hnew, hcompn]; simp
      · rw [hold n (by omega), hcomp _ (h.cc_live n (by omega))]; exact h.mem n (by omega)
    · intro c hc n hn
      rw [e4] at hc
      rcases List.mem_append.1 hc with hc | hc
      · rw [hcomp c hc] at hn
        have := h.owned c hc n hn
        rw [hold n this.1, hlen]
        exact ⟨by omega, this.2⟩
      · rw [List.mem_singleton.1 hc] at hn ⊢
        rw [hcompn] at hn
        have : n = r.configs.length := by simpa using hn
        subst this
        exact ⟨by omega, hnew⟩
    · intro c hc
      rw [e4] at hc
      rcases List.mem_append.1 hc with hc | hc
      · rw [hcomp c hc]; exact h.nodup c hc
      · rw [List.mem_singleton.1 hc, hcompn]; simp
    · intro c hc
      rw [e4] at hc
      rcases List.mem_append.1 hc with hc | hc
      · rw [hcomp c hc]; exact h.nonempty c hc
      · rw [List.mem_singleton.1 hc, hcompn]; simp
    · rw [e4, List.pairwise_append]
      refine ⟨h.live_sorted, by simp, fun c hc d hd => ?_⟩
      rw [List.mem_singleton.1 hd]; exact h.live_lt c hc
    · intro c hc
      rw [e4] at hc; rw [e5]
      rcases List.mem_append.1 hc with hc | hc
      · have := h.live_lt c hc; omega
      · rw [List.mem_singleton.1 hc]; omega
    · intro c hc d hd
      rw [e4] at hc
      rcases List.mem_append.1 hc with hc | hc
      · rw [hcomp c hc] at hd
        obtain ⟨k1, k2, k3⟩ := h.to_live c hc d hd
        rw [e4, hcomp d k1]
        exact ⟨List.mem_append.2 (Or.inl k1), k2, k3⟩
      · rw [List.mem_singleton.1 hc, hcompn] at hd; simp at hd
    · intro c hc d hd
      rw [e4] at hc
      rcases List.mem_append.1 hc with hc | hc
      · rw [hcomp c hc] at hd
        obtain ⟨k1, k2, k3⟩ := h.frm_live c hc d hd
        rw [e4, hcomp d k1]
        exact ⟨List.mem_append.2 (Or.inl k1), k2, k3⟩
      · rw [List.mem_singleton.1 hc, hcompn] at hd; simp at hd
    · intro x
      rw [e6]
      by_cases hx : x = r.nextCC
      · rw [hx, set_eq]
      · rw [set_ne _ _ hx]; exact h.unexplored x
  · exact ha.push q e1 (by rw [← hr]; rfl) (by rw [← hr]; rfl) (by rw [← hr]; rfl)
  · constructor
    · intro a b hA hB hab
      by_cases h1 : a = r.configs.length
      · by_cases h2 : b = r.configs.length
        · rw [h1, h2]
        · rw [h1, hnew, hold b (by omega)] at hab
          exact absurd (hab ▸ h.cc_live b (by omega)) hnl
      · by_cases h2 : b = r.configs.length
        · rw [h2, hnew, hold a (by omega)] at hab
          exact absurd (hab ▸ h.cc_live a (by omega)) hnl
        · rw [hold a (by omega), hold b (by omega)] at hab
          exact hs.same a b (by omega) (by omega) hab
    · intro a b hA hB hab
      by_cases h1 : a = r.configs.length
      · rw [h1, hnew] at hab; exact absurd hab (hstepn _)
      · rw [hold a (by omega)] at hab
        have hl := h.cc_live a (by omega)
        have hab := (hstep _ hl _).1 hab
        by_cases h2 : b = r.configs.length
        · rw [h2, hnew] at hab
          exact absurd (h.to_live _ hl _ hab).1 hnl
        · rw [hold b (by omega)] at hab
          exact hs.sound a b (by omega) (by omega) hab
    · intro a b hab
      obtain ⟨k1, k2, k3⟩ := hs.complete a b hab
      rw [hold a k1, hold b k2, hlen]
      exact ⟨by omega, by omega, (hreach _ (h.cc_live a k1) _).2 k3⟩
    · intro c hc d hcd hdc
      rw [e4] at hc
      rcases List.mem_append.1 hc with hc | hc
      · have k1 := (hreach c hc d).1 hcd
        have hd := h.creach_live hc k1
        exact hs.acyclic c hc d k1 ((hreach d hd c).1 hdc)
      · rw [List.mem_singleton.1 hc] at hcd ⊢
        rcases ReflTransGen.cases_head hcd with h1 | ⟨x, h1, _⟩
        · exact h1
        · exact absurd h1 (hstepn _)

/-- Creation of a node in the component of node `a`: the components then describe the graph with links in both directions
between `a` and the new node. -/
theorem pushNodeIn_spec {G : Nat → Nat → Prop} {r : Roadmap Q P} (h : Wf r) (ha : Adj r) (hs : Sem G r) (q : Q)
    {a : Nat} (hla : a < r.configs.length) :
    Wf (pushNodeIn r q (r.cc a)).1 ∧ Adj (pushNodeIn r q (r.cc a)).1 ∧
    Sem (addPair (addPair G a r.configs.length) r.configs.length a) (pushNodeIn r q (r.cc a)).1 ∧
    NodeAdded r (pushNodeIn r q (r.cc a)).1 q ∧ (pushNodeIn r q (r.cc a)).2 = r.configs.length := by
  generalize hr : (pushNodeIn r q (r.cc a)).1 = r'
  have hcl := h.cc_live a hla
  have e1 : r'.configs = r.configs ++ [q] := by rw [← hr]; rfl
  have e2 : r'.cc = set r.cc r.configs.length (r.cc a) := by rw [← hr]; rfl
  have e3 : r'.comp = set r.comp (r.cc a) { r.comp (r.cc a) with nodes := (r.comp (r.cc a)).nodes ++ [r.configs.length] } := by
    rw [← hr]; rfl
  have e4 : r'.live = r.live := by rw [← hr]; rfl
  have e5 : r'.nextCC = r.nextCC + 1 := by rw [← hr]; rfl
  have e6 : r'.explored = r.explored := by rw [← hr]; rfl
  have hlen : r'.configs.length = r.configs.length + 1 := by rw [e1]; simp
  have hold : ∀ n, n < r.configs.length → r'.cc n = r.cc n := fun n hn => by rw [e2, set_ne _ _ (by omega)]
  have hnew : r'.cc r.configs.length = r.cc a := by rw [e2, set_eq]
  have htos : ∀ c, (r'.comp c).tos = (r.comp c).tos := by
    intro c; rw [e3]
    by_cases hc : c = r.cc a
    · subst hc; rw [set_eq]
    · rw [set_ne _ _ hc]
  have hfrms : ∀ c, (r'.comp c).frms = (r.comp c).frms := by
    intro c; rw [e3]
    by_cases hc : c = r.cc a
    · subst hc; rw [set_eq]
    · rw [set_ne _ _ hc]
  have hnodes : ∀ c n, n ∈ (r'.comp c).nodes ↔ n ∈ (r.comp c).nodes ∨ (c = r.cc a ∧ n = r.configs.length) := by
    intro c n; rw [e3]
    by_cases hc : c = r.cc a
    · subst hc; rw [set_eq]; simp
    · rw [set_ne _ _ hc]; simp [hc]
  have hstep : CStep r' = CStep r := by
    funext c d; unfold CStep StepRel; dsimp only; rw [htos]
  have hreach : CReach r' = CReach r := by unfold CReach; rw [hstep]
  refine ⟨?_, ?_, ?_, ⟨e1, by rw [← hr]; rfl, by rw [← hr]; rfl, by rw [← hr]; rfl, e5⟩, rfl⟩
  · constructor
    · intro n hn
      rw [e4]
      by_cases hh : n = r.configs.length
      · subst hh; rw [hnew]; exact hcl
      · rw [hold n (by omega)]; exact h.cc_live n (by omega)
    · intro n hn
      rw [hnodes]
      by_cases hh : n = r.configs.length
      · subst hh; rw [hnew]; exact Or.inr ⟨rfl, rfl⟩
      · rw [hold n (by omega)]; exact Or.inl (h.mem n (by omega))
    · intro c hc n hn
      rw [e4] at hc
      rcases (hnodes c n).1 hn with hn | ⟨rfl, rfl⟩
      · have := h.owned c hc n hn
        rw [hold n this.1, hlen]
        exact ⟨by omega, this.2⟩
      · rw [hnew, hlen]; exact ⟨by omega, rfl⟩
    · intro c hc
      rw [e4] at hc; rw [e3]
      by_cases hh : c = r.cc a
      · subst hh; rw [set_eq]
        simp only
        rw [List.nodup_append]
        refine ⟨h.nodup _ hc, by simp, fun x hx y hy hxy => ?_⟩
        rw [List.mem_singleton.1 hy] at hxy
        have := (h.owned _ hc x hx).1
        omega
      · rw [set_ne _ _ hh]; exact h.nodup c hc
    · intro c hc
      rw [e4] at hc
      obtain ⟨n, hn⟩ := List.exists_mem_of_ne_nil _ (h.nonempty c hc)
      exact List.ne_nil_of_mem ((hnodes c n).2 (Or.inl hn))
    · rw [e4]; exact h.live_sorted
    · intro c hc
      rw [e4] at hc; rw [e5]
      have := h.live_lt c hc; omega
    · intro c hc d hd
      rw [e4] at hc; rw [htos] at hd; rw [hfrms, e4]
      exact h.to_live c hc d hd
    · intro c hc d hd
      rw [e4] at hc; rw [hfrms] at hd; rw [htos, e4]
      exact h.frm_live c hc d hd
    · rw [e6]; exact h.unexplored
  · exact ha.push q e1 (by rw [← hr]; rfl) (by rw [← hr]; rfl) (by rw [← hr]; rfl)
  · set n := r.configs.length with hn
    have gl : ∀ {x y}, ReflTransGen G x y → ReflTransGen (addPair (addPair G a n) n a) x y :=
      fun hh => addPair_mono _ _ _ (addPair_mono _ _ _ hh)
    have gan : ReflTransGen (addPair (addPair G a n) n a) a n := ReflTransGen.single (Or.inl (Or.inr ⟨rfl, rfl⟩))
    have gna : ReflTransGen (addPair (addPair G a n) n a) n a := ReflTransGen.single (Or.inr ⟨rfl, rfl⟩)
    -- every node is equivalent to an old node of the same component
    have hrep : ∀ x, x < r'.configs.length → ∃ y, y < n ∧ r.cc y = r'.cc x ∧
        ReflTransGen (addPair (addPair G a n) n a) x y ∧ ReflTransGen (addPair (addPair G a n) n a) y x := by
      intro x hx
      by_cases h1 : x = n
      · subst h1; exact ⟨a, hla, hnew.symm, gna, gan⟩
      · exact ⟨x, by omega, (hold x (by omega)).symm, ReflTransGen.refl, ReflTransGen.refl⟩
    constructor
    · intro x y hx hy hxy
      obtain ⟨x', h1, h2, h3, h4⟩ := hrep x hx
      obtain ⟨y', k1, k2, k3, k4⟩ := hrep y hy
      exact h3.trans ((gl (hs.same x' y' h1 k1 (by rw [h2, k2, hxy]))).trans k4)
    · intro x y hx hy hxy
      obtain ⟨x', h1, h2, h3, h4⟩ := hrep x hx
      obtain ⟨y', k1, k2, k3, k4⟩ := hrep y hy
      rw [hstep] at hxy
      exact h3.trans ((gl (hs.sound x' y' h1 k1 (by rw [h2, k2]; exact hxy))).trans k4)
    · rw [hreach, hlen]
      rintro x y ((hxy | ⟨rfl, rfl⟩) | ⟨rfl, rfl⟩)
      · obtain ⟨k1, k2, k3⟩ := hs.complete x y hxy
        rw [hold x k1, hold y k2]
        exact ⟨by omega, by omega, k3⟩
      · rw [hold x hla, hnew]; exact ⟨by omega, by omega, ReflTransGen.refl⟩
      · rw [hold y hla, hnew]; exact ⟨by omega, by omega, ReflTransGen.refl⟩
    · unfold Acyclic
      rw [e4, hreach]; exact hs.acyclic

end Verif.Roadmap
