import Verif.Planner.Line
import Verif.NearestNeighbor.Basic
import Mathlib.Data.Fintype.EquivFin
import Mathlib.Data.Set.Finite.List
set_option linter.unusedSectionVars false

/-!
# Parent maps of BiRRT* (C83, C84)

A parent map gives for each node of a tree the edge that comes from its parent.
-/
namespace Verif.Planner.Star
open Verif.Roadmap Verif.Planner
variable {Q P K : Type}

/-! ## Model -/

/-- `ParentMap_t`: bi-rrt-star.cc:89.  `none`: no entry; `some none`: the null edge of the root. -/
abbrev PMap (P : Type) := Nat → Option (Option (Edge P))

/-- Abnormal outcomes: those of the roadmap, dereference of the iterator `end()`, `std::logic_error`, `std::invalid_argument`, a loop that has not ended within
the given number of iterations. -/
inductive SErr where
  | road (e : Err) | endIterator | logic | invalidArgument | fuel
  deriving DecidableEq

/-- `computeCost`: bi-rrt-star.cc:90-102.  The entry is read (`current->second`) before it is compared with `end()`.  The first argument bounds the
number of iterations. -/
def computeCost [Zero K] [Add K] (len : P → K) (m : PMap P) : Nat → Nat → Except SErr K
  | 0, _ => .error .fuel
  | f + 1, n => match m n with
    | none => .error .endIterator
    | some none => .ok 0
    | some (some e) => match computeCost len m f e.src with
      | .error x => .error x
      | .ok c => .ok (c + len e.path)

/-- `setParent`: bi-rrt-star.cc:109-120. -/
def setParent (m : PMap P) (n : Nat) (e : Option (Edge P)) (newNode : Bool) : Except SErr (PMap P) :=
  if (∃ x ∈ e, m x.src = none) then .error .logic
  else if newNode = true ∧ m n ≠ none then .error .logic
  else .ok (set m n (some e))

/-- `WeighedNode_t`: bi-rrt-star.cc:122-129. -/
structure WNode (P K : Type) where
  node : Nat
  parent : Option (Edge P)
  cost : K

/-- `visited`: bi-rrt-star.cc:133-135. -/
abbrev Visited (P K : Type) := Nat → Option (Option (Edge P) × K)

/-- Children pushed in the queue: bi-rrt-star.cc:159-165. -/
def children [Add K] (len : P → K) (out : Nat → List (Edge P)) (w : WNode P K) : List (WNode P K) :=
  (out w.node).map (fun e => ⟨e.dst, some e, w.cost + len e.path⟩)

/-- `addChildren`: bi-rrt-star.cc:144-157. -/
def accepts [LT K] [DecidableLT K] (v : Visited P K) (w : WNode P K) : Bool := match v w.node with
  | none => true
  | some (_, c) => decide (w.cost < c)

/-- Loop of `computeParentMap`: bi-rrt-star.cc:140-167.  `pop` extracts an element of the queue (`top` and `pop` of `std::priority_queue`); the first argument
bounds the number of iterations. -/
def pmLoop [Add K] [LT K] [DecidableLT K] (len : P → K) (out : Nat → List (Edge P)) (pop : List (WNode P K) → Option (WNode P K × List (WNode P K))) :
    Nat → Visited P K → List (WNode P K) → Option (Visited P K)
  | 0, _, _ => none
  | f + 1, v, q => match pop q with
    | none => some v
    | some (w, q') =>
      if accepts v w then pmLoop len out pop f (set v w.node (some (w.parent, w.cost))) (q' ++ children len out w)
      else pmLoop len out pop f v q'

/-- `computeParentMap`: bi-rrt-star.cc:132-173. -/
def computeParentMap [Zero K] [Add K] [LT K] [DecidableLT K] (len : P → K) (out : Nat → List (Edge P))
    (pop : List (WNode P K) → Option (WNode P K × List (WNode P K))) (fuel : Nat) (root : Nat) : Option (PMap P) :=
  match pmLoop len out pop fuel (fun _ => none) [⟨root, none, 0⟩] with
  | none => none
  | some v => some (fun n => (v n).map (·.1))

/-- `top` and `pop` with `operator<` of `WeighedNode_t` (bi-rrt-star.cc:126): the first element of greatest cost is extracted. -/
def popMax [LT K] [DecidableLT K] : List (WNode P K) → Option (WNode P K × List (WNode P K))
  | [] => none
  | w :: q => match popMax q with
    | none => some (w, [])
    | some (x, q') => if w.cost < x.cost then some (x, w :: q') else some (w, q)

/-! ## Trees -/

/-- From `n` the parents lead to the root: number of edges and sum of the lengths. -/
inductive Up [Zero K] [Add K] (len : P → K) (m : PMap P) (root : Nat) : Nat → Nat → K → Prop
  | root : m root = some none → Up len m root root 0 0
  | step {n d : Nat} {e : Edge P} {c : K} : m n = some (some e) → Up len m root e.src d c → Up len m root n (d + 1) (c + len e.path)

/-- A parent map of the roadmap is a tree: from each of its nodes the parents lead to the root, along edges of the roadmap. -/
structure Tree [Zero K] [Add K] (len : P → K) (r : Roadmap Q P) (m : PMap P) (root : Nat) : Prop where
  up : ∀ n, m n ≠ none → ∃ d c, Up len m root n d c
  edge : ∀ n e, m n = some (some e) → e ∈ r.edges ∧ e.dst = n
  dom : ∀ n, m n ≠ none → n < r.configs.length

section
variable [AddCommGroup K] [LinearOrder K] [IsOrderedAddMonoid K] {len : P → K} {m : PMap P} {root : Nat} {r : Roadmap Q P}

theorem Up.unique {n d d' : Nat} {c c' : K} (h : Up len m root n d c) (h' : Up len m root n d' c') : d = d' ∧ c = c' := by
  induction h generalizing d' c' with
  | root h0 =>
    cases h' with
    | root _ => exact ⟨rfl, rfl⟩
    | step h1 _ => rw [h0] at h1; simp at h1
  | step h0 _ ih =>
    cases h' with
    | root h1 => rw [h0] at h1; simp at h1
    | step h1 h2 =>
      rw [h0] at h1
      have := Option.some.inj (Option.some.inj h1)
      subst this
      obtain ⟨rfl, rfl⟩ := ih h2
      exact ⟨rfl, rfl⟩

theorem Up.mem {n d : Nat} {c : K} (h : Up len m root n d c) : m n ≠ none := by
  cases h with
  | root h => rw [h]; simp
  | step h _ => rw [h]; simp

theorem Up.nonneg (hl : ∀ p, 0 ≤ len p) {n d : Nat} {c : K} (h : Up len m root n d c) : 0 ≤ c := by
  induction h with
  | root _ => exact le_rfl
  | step _ _ ih => exact add_nonneg ih (hl _)

theorem Up.levels {n d : Nat} {c : K} (h : Up len m root n d c) : ∀ j, j ≤ d → ∃ x c', Up len m root x j c' := by
  induction h with
  | root h0 => intro j hj; rw [Nat.le_zero.1 hj]; exact ⟨root, 0, Up.root h0⟩
  | @step n d e c h0 h1 ih =>
    intro j hj
    rcases Nat.lt_or_ge j (d + 1) with hlt | hge
    · exact ih j (by omega)
    · have : j = d + 1 := le_antisymm hj hge
      subst this
      exact ⟨_, _, Up.step h0 h1⟩

/-- The number of edges to the root is less than the number of nodes. -/
theorem Tree.depth_lt (h : Tree len r m root) {n d : Nat} {c : K} (hu : Up len m root n d c) : d < r.configs.length := by
  choose f g hf using fun j : Fin (d + 1) => hu.levels j.1 (by omega)
  have hinj : Function.Injective (fun j : Fin (d + 1) => (⟨f j, h.dom _ (hf j).mem⟩ : Fin r.configs.length)) := by
    intro a b hab
    have hab' : f a = f b := by simpa using hab
    have h1 := hf a
    rw [hab'] at h1
    exact Fin.ext (h1.unique (hf b)).1
  have := Fintype.card_le_of_injective _ hinj
  simp at this
  omega

theorem computeCost_up {n d : Nat} {c : K} (h : Up len m root n d c) {f : Nat} (hf : d < f) : computeCost len m f n = .ok c := by
  induction h generalizing f with
  | root h0 =>
    cases f with
    | zero => omega
    | succ f => unfold computeCost; rw [h0]
  | step h0 _ ih =>
    cases f with
    | zero => omega
    | succ f =>
      unfold computeCost; rw [h0]
      simp only
      rw [ih (by omega)]

/-- On a tree the cost of a node is computed without exception; it is the length of the way from the root. -/
theorem Tree.cost (h : Tree len r m root) {n : Nat} (hn : m n ≠ none) :
    ∃ d c, computeCost len m (r.configs.length + 1) n = .ok c ∧ Up len m root n d c := by
  obtain ⟨d, c, hu⟩ := h.up n hn
  exact ⟨d, c, computeCost_up hu (by have := h.depth_lt hu; omega), hu⟩

theorem Up.src_mem {n : Nat} {e : Edge P} (h : ∃ d c, Up len m root n d c) (he : m n = some (some e)) : m e.src ≠ none := by
  obtain ⟨d, c, hu⟩ := h
  cases hu with
  | root h1 => rw [he] at h1; simp at h1
  | step h1 h2 =>
    rw [he] at h1
    have := Option.some.inj (Option.some.inj h1)
    subst this
    exact h2.mem

/-- Edges from `a` to `b` in the roadmap. -/
theorem chain_snoc {a b : Nat} {es : List (Edge P)} {e : Edge P} (h : AStar.Chain r a es b) (he : e ∈ r.edges) (hs : e.src = b) :
    AStar.Chain r a (es ++ [e]) e.dst := by
  induction es generalizing a with
  | nil =>
    have : a = b := h
    subst this
    exact ⟨he, hs, rfl⟩
  | cons x es ih =>
    obtain ⟨h1, h2, h3⟩ := h
    exact ⟨h1, h2, ih h3⟩

/-- The way from the root is a sequence of consecutive edges of the roadmap. -/
theorem Tree.chain (h : Tree len r m root) {n d : Nat} {c : K} (hu : Up len m root n d c) :
    ∃ es : List (Edge P), AStar.Chain r root es n ∧ c = (es.map (fun e => len e.path)).sum := by
  induction hu with
  | root _ => exact ⟨[], rfl, rfl⟩
  | @step n d e c h0 _ ih =>
    obtain ⟨es, h1, h2⟩ := ih
    obtain ⟨h3, h4⟩ := h.edge _ _ h0
    refine ⟨es ++ [e], ?_, by simp [h2]⟩
    have := chain_snoc h1 h3 rfl
    rw [h4] at this
    exact this

/-! ### Changes of the map -/

theorem Up.mono {m' : PMap P} (hm : ∀ x, m x ≠ none → m' x = m x) {n d : Nat} {c : K} (h : Up len m root n d c) : Up len m' root n d c := by
  induction h with
  | root h0 => exact Up.root (by rw [hm _ (by rw [h0]; simp), h0])
  | step h0 _ ih => exact Up.step (by rw [hm _ (by rw [h0]; simp), h0]) ih

/-- A new leaf. -/
theorem Tree.insert (h : Tree len r m root) {n : Nat} {e : Edge P} (hn : m n = none) (hs : m e.src ≠ none) (he : e ∈ r.edges) (hd : e.dst = n)
    (hl : n < r.configs.length) : Tree len r (set m n (some (some e))) root ∧ (∀ x d c, Up len m root x d c → Up len (set m n (some (some e))) root x d c) ∧
      ∀ d c, Up len m root e.src d c → Up len (set m n (some (some e))) root n (d + 1) (c + len e.path) := by
  have hm : ∀ x, m x ≠ none → set m n (some (some e)) x = m x := by
    intro x hx
    exact set_ne _ _ (fun hxn => hx (by rw [hxn, hn]))
  have hup : ∀ x d c, Up len m root x d c → Up len (set m n (some (some e))) root x d c := fun x d c hu => hu.mono hm
  have hnew : ∀ d c, Up len m root e.src d c → Up len (set m n (some (some e))) root n (d + 1) (c + len e.path) :=
    fun d c hu => Up.step (set_eq _ _ _) (hup _ _ _ hu)
  refine ⟨⟨?_, ?_, ?_⟩, hup, hnew⟩
  · intro x hx
    by_cases hxn : x = n
    · subst hxn
      obtain ⟨d, c, hu⟩ := h.up _ hs
      exact ⟨_, _, hnew d c hu⟩
    · rw [set_ne _ _ hxn] at hx
      obtain ⟨d, c, hu⟩ := h.up x hx
      exact ⟨d, c, hup _ _ _ hu⟩
  · intro x e' hx
    by_cases hxn : x = n
    · subst hxn
      rw [set_eq] at hx
      have := Option.some.inj (Option.some.inj hx)
      subst this
      exact ⟨he, hd⟩
    · rw [set_ne _ _ hxn] at hx
      exact h.edge x e' hx
  · intro x hx
    by_cases hxn : x = n
    · subst hxn; exact hl
    · rw [set_ne _ _ hxn] at hx; exact h.dom x hx

/-- Either the way of `x` does not go through `n`, or the potential of `n` is not greater than the one of `x`. -/
theorem Up.avoid {n : Nat} {v : Option (Option (Edge P))} {φ : Nat → K} (hφ : ∀ x e, m x = some (some e) → φ e.src ≤ φ x)
    {x d : Nat} {c : K} (h : Up len m root x d c) : Up len (set m n v) root x d c ∨ φ n ≤ φ x := by
  induction h with
  | root h0 =>
    by_cases hn : root = n
    · right; rw [hn]
    · left; exact Up.root (by rw [set_ne _ _ hn, h0])
  | @step x d e c h0 _ ih =>
    by_cases hn : x = n
    · right; rw [hn]
    · rcases ih with ih | ih
      · left; exact Up.step (by rw [set_ne _ _ hn, h0]) ih
      · right; exact le_trans ih (hφ _ _ h0)

/-- Another parent for `n`: when the potential of the new parent is less than the one of `n`, the parents still lead to the root. -/
theorem Up.reparent {n : Nat} {e : Edge P} {φ : Nat → K} (hφ : ∀ x e, m x = some (some e) → φ e.src ≤ φ x) {d0 : Nat} {c0 : K}
    (hu : Up len m root e.src d0 c0) (hlt : φ e.src < φ n) {x d : Nat} {c : K} (h : Up len m root x d c)
    (hc : ∀ d c, Up len m root n d c → c0 + len e.path ≤ c) :
    ∃ d' c', Up len (set m n (some (some e))) root x d' c' ∧ c' ≤ c := by
  have hu' : Up len (set m n (some (some e))) root e.src d0 c0 := by
    rcases hu.avoid (n := n) (v := some (some e)) hφ with h1 | h1
    · exact h1
    · exact absurd hlt (not_lt.2 h1)
  have hn' : Up len (set m n (some (some e))) root n (d0 + 1) (c0 + len e.path) := Up.step (set_eq _ _ _) hu'
  induction h with
  | root h0 =>
    by_cases hn : root = n
    · subst hn
      exact ⟨_, _, hn', hc _ _ (Up.root h0)⟩
    · exact ⟨0, 0, Up.root (by rw [set_ne _ _ hn, h0]), le_rfl⟩
  | @step x d e' c h0 h1 ih =>
    by_cases hn : x = n
    · subst hn
      exact ⟨_, _, hn', hc _ _ (Up.step h0 h1)⟩
    · obtain ⟨d', c', h2, h3⟩ := ih
      exact ⟨d' + 1, c' + len e'.path, Up.step (by rw [set_ne _ _ hn, h0]) h2, by gcongr⟩

/-- A node of the tree gets a better parent. -/
theorem Tree.rewire (hl : ∀ p, 0 ≤ len p) (h : Tree len r m root) {n : Nat} {e : Edge P} {d0 dn : Nat} {c0 cn : K} (hu : Up len m root e.src d0 c0)
    (hn : Up len m root n dn cn) (hlt : c0 + len e.path < cn) (he : e ∈ r.edges) (hd : e.dst = n) :
    Tree len r (set m n (some (some e))) root ∧ Up len (set m n (some (some e))) root e.src d0 c0 ∧
      ∀ x d c, Up len m root x d c → ∃ d' c', Up len (set m n (some (some e))) root x d' c' ∧ c' ≤ c := by
  classical
  let φ : Nat → K := fun x => if hx : ∃ c d, Up len m root x d c then hx.choose else 0
  have hφe : ∀ x d c, Up len m root x d c → φ x = c := by
    intro x d c hx
    have hex : ∃ c d, Up len m root x d c := ⟨c, d, hx⟩
    have := hex.choose_spec.choose_spec
    simp only [φ, dif_pos hex]
    exact (this.unique hx).2
  have hφ : ∀ x e, m x = some (some e) → φ e.src ≤ φ x := by
    intro x e' hx
    obtain ⟨d, c, hux⟩ := h.up x (by rw [hx]; simp)
    obtain ⟨d', c', hux'⟩ := h.up e'.src (Up.src_mem ⟨d, c, hux⟩ hx)
    rw [hφe _ _ _ hux', hφe _ _ _ (Up.step hx hux')]
    exact le_add_of_nonneg_right (hl _)
  have hlt' : φ e.src < φ n := by
    rw [hφe _ _ _ hu, hφe _ _ _ hn]
    exact lt_of_le_of_lt (le_add_of_nonneg_right (hl _)) hlt
  have hc : ∀ d c, Up len m root n d c → c0 + len e.path ≤ c := by
    intro d c hx
    rw [(hx.unique hn).2]
    exact hlt.le
  have key : ∀ x d c, Up len m root x d c → ∃ d' c', Up len (set m n (some (some e))) root x d' c' ∧ c' ≤ c :=
    fun x d c hx => Up.reparent hφ hu hlt' hx hc
  refine ⟨⟨?_, ?_, ?_⟩, ?_, key⟩
  · intro x hx
    have hx' : m x ≠ none := by
      by_cases hxn : x = n
      · rw [hxn]; exact hn.mem
      · rwa [set_ne _ _ hxn] at hx
    obtain ⟨d, c, hux⟩ := h.up x hx'
    obtain ⟨d', c', h1, -⟩ := key x d c hux
    exact ⟨d', c', h1⟩
  · intro x e' hx
    by_cases hxn : x = n
    · subst hxn
      rw [set_eq] at hx
      have := Option.some.inj (Option.some.inj hx)
      subst this
      exact ⟨he, hd⟩
    · rw [set_ne _ _ hxn] at hx
      exact h.edge x e' hx
  · intro x hx
    by_cases hxn : x = n
    · subst hxn; exact h.dom _ hn.mem
    · rw [set_ne _ _ hxn] at hx; exact h.dom x hx
  · rcases hu.avoid (n := n) (v := some (some e)) hφ with h1 | h1
    · exact h1
    · exact absurd hlt' (not_lt.2 h1)

end

end Verif.Planner.Star
