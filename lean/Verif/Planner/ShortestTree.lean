import Verif.Planner.ParentMap
import Mathlib.Algebra.BigOperators.Group.Finset.Basic
import Mathlib.Algebra.Order.BigOperators.Group.Finset
set_option linter.unusedSectionVars false

/-! # `computeParentMap` of BiRRT* computes a tree of shortest ways (C84) -/
namespace Verif.Planner.Star
open Verif.Roadmap Verif.Planner
variable {Q P K : Type} [AddCommGroup K] [LinearOrder K] [IsOrderedAddMonoid K]

/-- What is used of the priority queue: it returns an element and keeps the others. -/
def PopOk (pop : List (WNode P K) → Option (WNode P K × List (WNode P K))) : Prop :=
  pop [] = none ∧ ∀ q, q ≠ [] → ∃ w q', pop q = some (w, q') ∧ q.Perm (w :: q')

theorem popMax_ok : PopOk (popMax : List (WNode P K) → Option (WNode P K × List (WNode P K))) := by
  refine ⟨rfl, ?_⟩
  intro q
  induction q with
  | nil => intro h; exact absurd rfl h
  | cons w q ih =>
    intro _
    cases q with
    | nil => exact ⟨w, [], rfl, List.Perm.refl _⟩
    | cons w' q =>
      obtain ⟨x, q', h1, h2⟩ := ih (by simp)
      unfold popMax
      rw [h1]
      simp only
      split
      · exact ⟨x, w :: q', rfl, (h2.cons w).trans (List.Perm.swap x w q')⟩
      · exact ⟨w, w' :: q, rfl, List.Perm.refl _⟩

/-- The map of the parents. -/
def parents (v : Visited P K) : PMap P := fun n => (v n).map (·.1)

/-- The graph given to the algorithm: `N` nodes. -/
structure Graph (out : Nat → List (Edge P)) (N : Nat) : Prop where
  src : ∀ n, ∀ e ∈ out n, e.src = n
  dst : ∀ n, ∀ e ∈ out n, e.dst < N

/-- Invariant of the loop. -/
structure PInv (len : P → K) (out : Nat → List (Edge P)) (root : Nat) (v : Visited P K) (q : List (WNode P K)) : Prop where
  top : v root = some (none, 0)
  lab : ∀ n e c, v n = some (some e, c) → e ∈ out e.src ∧ e.dst = n ∧ ∃ p cs, v e.src = some (p, cs) ∧ cs + len e.path ≤ c
  relaxed : ∀ n p c, v n = some (p, c) → ∀ e ∈ out n, (∃ w ∈ q, w.node = e.dst ∧ w.cost ≤ c + len e.path) ∨
    ∃ p' c', v e.dst = some (p', c') ∧ c' ≤ c + len e.path
  up : ∀ n, v n ≠ none → ∃ d c, Up len (parents v) root n d c
  queue : ∀ w ∈ q, ∃ (e : Edge P) (es : List (Edge P)), w.parent = some e ∧ e.dst = w.node ∧ e ∈ out e.src ∧ (∀ x ∈ es, x ∈ out x.src) ∧
    (root :: es.map (·.dst)).Nodup ∧ e.src ∈ root :: es.map (·.dst) ∧ w.cost = (es.map (fun x => len x.path)).sum + len e.path ∧
    (∃ p cs, v e.src = some (p, cs) ∧ cs + len e.path ≤ w.cost) ∧
    ∀ x ∈ root :: es.map (·.dst), ∃ p c, v x = some (p, c) ∧ c ≤ w.cost

variable {len : P → K} {out : Nat → List (Edge P)} {root N : Nat} {v : Visited P K} {q : List (WNode P K)}

theorem PInv.perm {q' : List (WNode P K)} (h : PInv len out root v q) (hp : q.Perm q') : PInv len out root v q' :=
  ⟨h.top, h.lab, fun n p c hv e he => (h.relaxed n p c hv e he).imp (fun ⟨w, hw, h1⟩ => ⟨w, hp.mem_iff.1 hw, h1⟩) id, h.up,
    fun w hw => h.queue w (hp.mem_iff.2 hw)⟩

/-- An element that is not accepted. -/
theorem PInv.reject {w : WNode P K} (h : PInv len out root v (w :: q)) (ha : accepts v w = false) : PInv len out root v q := by
  refine ⟨h.top, h.lab, ?_, h.up, fun x hx => h.queue x (by simp [hx])⟩
  intro n p c hv e he
  rcases h.relaxed n p c hv e he with ⟨x, hx, h1, h2⟩ | h1
  · rcases List.mem_cons.1 hx with rfl | hx
    · right
      unfold accepts at ha
      rw [h1] at ha
      cases hd : v e.dst with
      | none => rw [hd] at ha; simp at ha
      | some y =>
        rw [hd] at ha
        simp only [decide_eq_false_iff_not, not_lt] at ha
        exact ⟨y.1, y.2, rfl, le_trans ha h2⟩
    · exact Or.inl ⟨x, hx, h1, h2⟩
  · exact Or.inr h1

/-- The label of an accepted element decreases. -/
theorem accepts_label {w : WNode P K} (ha : accepts v w = true) {x : Nat} {p : Option (Edge P)} {c : K} (hx : v x = some (p, c)) :
    ∃ p' c', set v w.node (some (w.parent, w.cost)) x = some (p', c') ∧ c' ≤ c := by
  by_cases hn : x = w.node
  · subst hn
    rw [set_eq]
    unfold accepts at ha
    rw [hx] at ha
    exact ⟨_, _, rfl, (by simpa using ha : w.cost < c).le⟩
  · rw [set_ne _ _ hn]; exact ⟨p, c, hx, le_rfl⟩

/-- The labels do not decrease along the parents. -/
theorem parents_set (v : Visited P K) (n : Nat) (x : Option (Edge P) × K) : parents (set v n (some x)) = set (parents v) n (some x.1) := by
  funext y
  unfold parents
  by_cases hy : y = n
  · subst hy; rw [set_eq, set_eq]; rfl
  · rw [set_ne _ _ hy, set_ne _ _ hy]

/-- An accepted element. -/
theorem PInv.accept (hl : ∀ p, 0 ≤ len p) (hG : Graph out N) {w : WNode P K} (h : PInv len out root v (w :: q)) (ha : accepts v w = true) :
    PInv len out root (set v w.node (some (w.parent, w.cost))) (q ++ children len out w) ∧
    ∃ es : List (Edge P), (∀ x ∈ es, x ∈ out x.src) ∧ (root :: es.map (·.dst)).Nodup ∧ w.cost = (es.map (fun x => len x.path)).sum := by
  obtain ⟨e, es, q1, q2, q3, q4, q5, q6, q7, ⟨ps, cs, q8, q9⟩, q10⟩ := h.queue w (by simp)
  have hnot : w.node ∉ root :: es.map (·.dst) := by
    intro hm
    obtain ⟨p, c, h1, h2⟩ := q10 _ hm
    unfold accepts at ha
    rw [h1] at ha
    simp only [decide_eq_true_eq] at ha
    exact absurd ha (not_lt.2 h2)
  have hroot : root ≠ w.node := fun hh => hnot (by rw [← hh]; simp)
  have hwalk : (root :: (es ++ [e]).map (·.dst)).Nodup := by
    rw [List.map_append, ← List.cons_append, List.nodup_append]
    refine ⟨q5, by simp, ?_⟩
    intro a ha' b hb hab
    simp only [List.map_cons, List.map_nil, List.mem_singleton] at hb
    rw [hab, hb, q2] at ha'
    exact hnot ha'
  have hes : ∀ x ∈ es ++ [e], x ∈ out x.src := by
    intro x hx
    rcases List.mem_append.1 hx with hx | hx
    · exact q4 x hx
    · rw [List.mem_singleton.1 hx]; exact q3
  have hcost : w.cost = ((es ++ [e]).map (fun x => len x.path)).sum := by rw [q7]; simp
  refine ⟨⟨?_, ?_, ?_, ?_, ?_⟩, es ++ [e], hes, hwalk, hcost⟩
  · rw [set_ne _ _ hroot]; exact h.top
  · intro n e' c hn
    by_cases hnw : n = w.node
    · subst hnw
      rw [set_eq] at hn
      have h1 := Option.some.inj hn
      rw [Prod.mk.injEq] at h1
      obtain ⟨h1, h2⟩ := h1
      rw [q1] at h1
      have := Option.some.inj h1
      subst this
      subst h2
      obtain ⟨p', c', h3, h4⟩ := accepts_label ha q8
      exact ⟨q3, q2, p', c', h3, le_trans (by gcongr) q9⟩
    · rw [set_ne _ _ hnw] at hn
      obtain ⟨h1, h2, p', c', h3, h4⟩ := h.lab n e' c hn
      obtain ⟨p'', c'', h5, h6⟩ := accepts_label ha h3
      exact ⟨h1, h2, p'', c'', h5, le_trans (by gcongr) h4⟩
  · intro n p c hn e' he'
    by_cases hnw : n = w.node
    · subst hnw
      rw [set_eq] at hn
      have h1 := Option.some.inj hn
      rw [Prod.mk.injEq] at h1
      obtain ⟨h1, h2⟩ := h1
      left
      refine ⟨⟨e'.dst, some e', w.cost + len e'.path⟩, ?_, rfl, by rw [h2]⟩
      exact List.mem_append.2 (Or.inr (List.mem_map.2 ⟨e', he', rfl⟩))
    · rw [set_ne _ _ hnw] at hn
      rcases h.relaxed n p c hn e' he' with ⟨x, hx, h1, h2⟩ | ⟨p', c', h1, h2⟩
      · rcases List.mem_cons.1 hx with rfl | hx
        · right
          rw [← h1, set_eq]
          exact ⟨_, _, rfl, h2⟩
        · exact Or.inl ⟨x, List.mem_append.2 (Or.inl hx), h1, h2⟩
      · right
        obtain ⟨p'', c'', h5, h6⟩ := accepts_label ha h1
        exact ⟨p'', c'', h5, le_trans h6 h2⟩
  · rw [parents_set, q1]
    have hsrc : v e.src ≠ none := by rw [q8]; simp
    obtain ⟨d0, c0, hu⟩ := h.up _ hsrc
    by_cases hn : v w.node = none
    · have hm : ∀ x, parents v x ≠ none → set (parents v) w.node (some (some e)) x = parents v x := by
        intro x hx
        refine set_ne _ _ (fun hxn => hx ?_)
        unfold parents
        rw [hxn, hn]; rfl
      intro n hnn
      by_cases hnw : n = w.node
      · subst hnw
        exact ⟨_, _, Up.step (set_eq _ _ _) (hu.mono hm)⟩
      · rw [set_ne _ _ hnw] at hnn
        obtain ⟨d, c, hx⟩ := h.up n hnn
        exact ⟨d, c, hx.mono hm⟩
    · let φ : Nat → K := fun x => match v x with
        | none => 0
        | some (_, c) => c
      have hφ : ∀ x e, parents v x = some (some e) → φ e.src ≤ φ x := by
        intro x e' hx
        unfold parents at hx
        obtain ⟨y, hy, hy'⟩ := Option.map_eq_some_iff.1 hx
        obtain ⟨y1, c⟩ := y
        simp only at hy'
        subst hy'
        obtain ⟨-, -, p', c', h3, h4⟩ := h.lab x e' c hy
        have e1 : φ e'.src = c' := by simp only [φ, h3]
        have e2 : φ x = c := by simp only [φ, hy]
        rw [e1, e2]
        exact le_trans (le_add_of_nonneg_right (hl _)) h4
      have hlt : φ e.src < φ w.node := by
        cases hc : v w.node with
        | none => exact absurd hc hn
        | some y =>
          have e1 : φ e.src = cs := by simp only [φ, q8]
          have e2 : φ w.node = y.2 := by simp only [φ, hc]
          rw [e1, e2]
          unfold accepts at ha
          rw [hc] at ha
          simp only [decide_eq_true_eq] at ha
          exact lt_of_le_of_lt (le_trans (le_add_of_nonneg_right (hl _)) q9) ha
      have hu' : Up len (set (parents v) w.node (some (some e))) root e.src d0 c0 := by
        rcases hu.avoid (n := w.node) (v := some (some e)) hφ with h1 | h1
        · exact h1
        · exact absurd hlt (not_lt.2 h1)
      have hnew : Up len (set (parents v) w.node (some (some e))) root w.node (d0 + 1) (c0 + len e.path) := Up.step (set_eq _ _ _) hu'
      have all : ∀ x d c, Up len (parents v) root x d c → ∃ d c, Up len (set (parents v) w.node (some (some e))) root x d c := by
        intro x d c hx
        induction hx with
        | root h0 => exact ⟨0, 0, Up.root (by rw [set_ne _ _ hroot]; exact h0)⟩
        | @step x d e' c h0 _ ih =>
          by_cases hxn : x = w.node
          · subst hxn; exact ⟨_, _, hnew⟩
          · obtain ⟨d', c', h2⟩ := ih
            exact ⟨d' + 1, c' + len e'.path, Up.step (by rw [set_ne _ _ hxn]; exact h0) h2⟩
      intro n hnn
      by_cases hnw : n = w.node
      · subst hnw; exact ⟨_, _, hnew⟩
      · rw [set_ne _ _ hnw] at hnn
        obtain ⟨d, c, hx⟩ := h.up n hnn
        exact all n d c hx
  · intro x hx
    rcases List.mem_append.1 hx with hx | hx
    · obtain ⟨e', es', r1, r2, r3, r4, r5, r6, r7, ⟨p', c', r8, r9⟩, r10⟩ := h.queue x (by simp [hx])
      refine ⟨e', es', r1, r2, r3, r4, r5, r6, r7, ?_, ?_⟩
      · obtain ⟨p'', c'', h5, h6⟩ := accepts_label ha r8
        exact ⟨p'', c'', h5, le_trans (by gcongr) r9⟩
      · intro y hy
        obtain ⟨p, c, h1, h2⟩ := r10 y hy
        obtain ⟨p'', c'', h5, h6⟩ := accepts_label ha h1
        exact ⟨p'', c'', h5, le_trans h6 h2⟩
    · obtain ⟨e', he', rfl⟩ := List.mem_map.1 hx
      have hs := hG.src _ _ he'
      refine ⟨e', es ++ [e], rfl, rfl, by rw [hs]; exact he', hes, hwalk, ?_, ?_, ?_, ?_⟩
      · rw [hs, ← q2]; simp
      · simp only; rw [hcost]
      · rw [hs, set_eq]; exact ⟨_, _, rfl, le_rfl⟩
      · intro y hy
        rw [List.map_append, ← List.cons_append] at hy
        rcases List.mem_append.1 hy with hy | hy
        · obtain ⟨p, c, h1, h2⟩ := q10 y hy
          obtain ⟨p'', c'', h5, h6⟩ := accepts_label ha h1
          exact ⟨p'', c'', h5, le_trans (le_trans h6 h2) (le_add_of_nonneg_right (hl _))⟩
        · simp only [List.map_cons, List.map_nil, List.mem_singleton] at hy
          rw [hy, q2, set_eq]
          exact ⟨_, _, rfl, le_add_of_nonneg_right (hl _)⟩

/-! ## Termination -/

open Classical in
/-- Number of values of `S` less than the label. -/
noncomputable def mu (S : Finset K) : Option (Option (Edge P) × K) → Nat
  | none => S.card + 1
  | some (_, c) => (S.filter (· < c)).card

/-- Sum over the nodes. -/
noncomputable def measure (S : Finset K) (N : Nat) (v : Visited P K) : Nat := ∑ n ∈ Finset.range N, mu S (v n)

theorem measure_lt {S : Finset K} {w : WNode P K} (hN : w.node < N) (hS : w.cost ∈ S) (ha : accepts v w = true) :
    measure S N (set v w.node (some (w.parent, w.cost))) < measure S N v := by
  classical
  unfold measure
  have key : mu S (some (w.parent, w.cost)) < mu S (v w.node) := by
    unfold accepts at ha
    cases hv : v w.node with
    | none =>
      have := Finset.card_filter_le S (· < w.cost)
      show (S.filter (· < w.cost)).card < S.card + 1
      omega
    | some y =>
      obtain ⟨p, c⟩ := y
      rw [hv] at ha
      simp only [decide_eq_true_eq] at ha
      unfold mu
      apply Finset.card_lt_card
      rw [Finset.ssubset_iff_of_subset]
      · exact ⟨w.cost, by simp [hS, ha], by simp⟩
      · intro x hx
        rw [Finset.mem_filter] at hx ⊢
        exact ⟨hx.1, lt_trans hx.2 ha⟩
  apply Finset.sum_lt_sum
  · intro n _
    by_cases hn : n = w.node
    · subst hn; rw [set_eq]; exact key.le
    · rw [set_ne _ _ hn]
  · exact ⟨w.node, Finset.mem_range.2 hN, by rw [set_eq]; exact key⟩

/-- The costs of the sequences of at most `N` edges. -/
theorem finite_costs (out : Nat → List (Edge P)) (len : P → K) (N : Nat) (hout : ∀ n, N ≤ n → out n = []) :
    ∃ S : Finset K, ∀ es : List (Edge P), (∀ x ∈ es, x ∈ out x.src) → es.length ≤ N → (es.map (fun x => len x.path)).sum ∈ S := by
  classical
  let A := {e : Edge P // e ∈ (List.range N).flatMap out}
  have hA : Finite A := List.finite_toSet _
  have hfin : {l : List A | l.length ≤ N}.Finite := List.finite_length_le A N
  let S : Set K := (fun l : List A => (l.map (fun x => len x.1.path)).sum) '' {l : List A | l.length ≤ N}
  have hS : S.Finite := hfin.image _
  refine ⟨hS.toFinset, ?_⟩
  intro es h1 h2
  rw [Set.Finite.mem_toFinset]
  have hmem : ∀ x ∈ es, x ∈ (List.range N).flatMap out := by
    intro x hx
    have := h1 x hx
    refine List.mem_flatMap.2 ⟨x.src, ?_, this⟩
    rw [List.mem_range]
    by_contra hc
    rw [hout _ (not_lt.1 hc)] at this
    simp at this
  refine ⟨es.attach.map (fun x => ⟨x.1, hmem x.1 x.2⟩), ?_, ?_⟩
  · simp only [Set.mem_ofPred_eq, List.length_map, List.length_attach]; exact h2
  · simp only [List.map_map]
    congr 1
    conv_rhs => rw [← List.attach_map_subtype_val es]
    rw [List.map_map]
    rfl

theorem pmLoop_spec (hl : ∀ p, 0 ≤ len p) (hG : Graph out N) {pop : List (WNode P K) → Option (WNode P K × List (WNode P K))} (hp : PopOk pop)
    {S : Finset K} (hS : ∀ es : List (Edge P), (∀ x ∈ es, x ∈ out x.src) → es.length ≤ N → (es.map (fun x => len x.path)).sum ∈ S)
    (hr : root < N) :
    ∀ (M : Nat) (k : Nat) (v : Visited P K) (q : List (WNode P K)), measure S N v = M → q.length ≤ k → PInv len out root v q →
      ∃ F v', (∀ f, F ≤ f → pmLoop len out pop f v q = some v') ∧ PInv len out root v' [] := by
  intro M
  induction M using Nat.strong_induction_on with
  | _ M ihM =>
    intro k
    induction k with
    | zero =>
      intro v q _ hk hI
      have : q = [] := List.length_eq_zero_iff.1 (Nat.le_zero.1 hk)
      subst this
      refine ⟨1, v, ?_, hI⟩
      intro f hf
      obtain ⟨f, rfl⟩ : ∃ g, f = g + 1 := ⟨f - 1, by omega⟩
      rw [pmLoop, hp.1]
    | succ k ih =>
      intro v q hM hk hI
      by_cases hq : q = []
      · subst hq
        refine ⟨1, v, ?_, hI⟩
        intro f hf
        obtain ⟨f, rfl⟩ : ∃ g, f = g + 1 := ⟨f - 1, by omega⟩
        rw [pmLoop, hp.1]
      · obtain ⟨w, q', h1, h2⟩ := hp.2 q hq
        have hI' := hI.perm h2
        have hlen : q.length = q'.length + 1 := by rw [h2.length_eq]; rfl
        by_cases ha : accepts v w = true
        · obtain ⟨hnext, es, e1, e2, e3⟩ := hI'.accept hl hG ha
          obtain ⟨e, es', r1, r2, r3, -⟩ := hI'.queue w (by simp)
          have hNw : w.node < N := by rw [← r2]; exact hG.dst _ _ r3
          have hlt := measure_lt (S := S) hNw (by
            rw [e3]
            refine hS es e1 ?_
            have hlt : ∀ x ∈ root :: es.map (·.dst), x < N := by
              intro x hx
              rcases List.mem_cons.1 hx with rfl | hx
              · exact hr
              · obtain ⟨y, hy, rfl⟩ := List.mem_map.1 hx
                exact hG.dst _ _ (e1 y hy)
            have := length_le_of_subset (m := List.range N) e2 (fun x hx => List.mem_range.2 (hlt x hx))
            simp at this
            omega) ha
          obtain ⟨F, v', k1, k2⟩ := ihM _ (by rw [← hM]; exact hlt) _ _ (q' ++ children len out w) rfl le_rfl hnext
          refine ⟨F + 1, v', ?_, k2⟩
          intro f hf
          obtain ⟨f, rfl⟩ : ∃ g, f = g + 1 := ⟨f - 1, by omega⟩
          rw [pmLoop, h1]
          simp only
          rw [if_pos ha]
          exact k1 f (by omega)
        · obtain ⟨F, v', k1, k2⟩ := ih v q' hM (by omega) (hI'.reject (by simpa using ha))
          refine ⟨F + 1, v', ?_, k2⟩
          intro f hf
          obtain ⟨f, rfl⟩ : ∃ g, f = g + 1 := ⟨f - 1, by omega⟩
          rw [pmLoop, h1]
          simp only
          rw [if_neg ha]
          exact k1 f (by omega)

/-! ## Result -/

/-- When the queue is empty, the labels are the costs of the nodes in the tree, and the least costs. -/
theorem PInv.final (h : PInv len out root v []) :
    (∀ n p c, v n = some (p, c) → ∃ d es, Up len (parents v) root n d c ∧ AStar.Walk out root es n ∧ AStar.total len es = c) ∧
    ∀ n es, AStar.Walk out root es n → ∃ p c, v n = some (p, c) ∧ c ≤ AStar.total len es := by
  constructor
  · intro n p c hn
    obtain ⟨d, c', hu⟩ := h.up n (by rw [hn]; simp)
    have key : ∀ x d c', Up len (parents v) root x d c' → ∃ p es, v x = some (p, c') ∧ AStar.Walk out root es x ∧ AStar.total len es = c' := by
      intro x d c' hx
      induction hx with
      | root h0 => exact ⟨none, [], h.top, .nil _, rfl⟩
      | @step x d e c h0 _ ih =>
        obtain ⟨p, es, i1, i2, i3⟩ := ih
        unfold parents at h0
        obtain ⟨⟨y, cy⟩, hy, hy'⟩ := Option.map_eq_some_iff.1 h0
        simp only at hy'
        subst hy'
        obtain ⟨l1, l2, p', c', l3, l4⟩ := h.lab x e cy hy
        rw [i1] at l3
        obtain ⟨rfl, rfl⟩ : p = p' ∧ c = c' := by simpa using l3
        have hle : cy ≤ c + len e.path := by
          rcases h.relaxed _ _ _ i1 e l1 with ⟨w, hw, -⟩ | ⟨p', c', k1, k2⟩
          · simp at hw
          · rw [l2, hy] at k1
            obtain ⟨-, rfl⟩ : some e = p' ∧ cy = c' := by simpa using k1
            exact k2
        have heq : cy = c + len e.path := le_antisymm hle l4
        refine ⟨some e, es ++ [e], by rw [hy, heq], ?_, ?_⟩
        · have := i2.snoc l1; rw [l2] at this; exact this
        · rw [AStar.total_append, i3]; simp
    obtain ⟨p', es, k1, k2, k3⟩ := key n d c' hu
    rw [hn] at k1
    obtain ⟨-, rfl⟩ : p = p' ∧ c = c' := by simpa using k1
    exact ⟨d, es, hu, k2, k3⟩
  · have key : ∀ a es n, AStar.Walk out a es n → ∀ p c, v a = some (p, c) → ∃ p' c', v n = some (p', c') ∧ c' ≤ c + AStar.total len es := by
      intro a es n hw
      induction hw with
      | nil a => intro p c hv; exact ⟨p, c, hv, by simp⟩
      | @cons a b e es he _ ih =>
        intro p c hv
        rcases h.relaxed a p c hv e he with ⟨w, hw, -⟩ | ⟨p', c', k1, k2⟩
        · simp at hw
        · obtain ⟨p'', c'', m1, m2⟩ := ih p' c' k1
          refine ⟨p'', c'', m1, le_trans m2 ?_⟩
          rw [AStar.total_cons, ← add_assoc]
          gcongr
    intro n es hw
    obtain ⟨p, c, h1, h2⟩ := key root es n hw none 0 h.top
    exact ⟨p, c, h1, by simpa using h2⟩

/-- The state after the root has been visited. -/
theorem PInv.start (hl : ∀ p, 0 ≤ len p) (hG : Graph out N) :
    PInv len out root (set (fun _ => none) root (some (none, 0))) (children len out ⟨root, none, 0⟩) := by
  have hv : ∀ n x, (set (fun _ => none) root (some (none, 0)) : Visited P K) n = some x → n = root ∧ x = (none, 0) := by
    intro n x hx
    by_cases hn : n = root
    · subst hn; rw [set_eq] at hx; exact ⟨rfl, (Option.some.inj hx).symm⟩
    · rw [set_ne _ _ hn] at hx; simp at hx
  refine ⟨set_eq _ _ _, ?_, ?_, ?_, ?_⟩
  · intro n e c hn
    have := (hv n _ hn).2
    simp at this
  · intro n p c hn e he
    obtain ⟨rfl, h2⟩ := hv n _ hn
    obtain ⟨rfl, rfl⟩ : p = none ∧ c = 0 := by simpa using h2
    exact Or.inl ⟨_, List.mem_map.2 ⟨e, he, rfl⟩, rfl, le_rfl⟩
  · intro n hn
    obtain ⟨x, hx⟩ := Option.ne_none_iff_exists'.1 hn
    obtain ⟨rfl, rfl⟩ := hv n x hx
    exact ⟨0, 0, Up.root (by unfold parents; rw [hx]; rfl)⟩
  · intro w hw
    obtain ⟨e, he, rfl⟩ := List.mem_map.1 hw
    have hs := hG.src _ _ he
    refine ⟨e, [], rfl, rfl, by rw [hs]; exact he, by simp, by simp, by simp [hs], by simp, ?_, ?_⟩
    · rw [hs, set_eq]; exact ⟨_, _, rfl, le_rfl⟩
    · intro x hx
      rw [List.map_nil, List.mem_singleton] at hx
      rw [hx, set_eq]
      exact ⟨_, _, rfl, by simpa using hl e.path⟩

/-- C84: `computeParentMap` ends for every order of extraction, in particular the one of the code (`popMax_ok`).  The result is a tree that contains exactly the nodes that can be
reached from the root, along edges of the roadmap, and the cost of a node is the least length of a walk from the root. -/
theorem C84_computeParentMap {V : List (Nat × Nat)} {r : Roadmap Q P} (h : Inv V r) (hl : ∀ p, 0 ≤ len p)
    {pop : List (WNode P K) → Option (WNode P K × List (WNode P K))} (hp : PopOk pop) (hr : root < r.configs.length) :
    ∃ F m, (∀ f, F ≤ f → computeParentMap len r.out pop f root = some m) ∧ Tree len r m root ∧ (∀ n, m n ≠ none ↔ NodeReach r root n) ∧
      ∀ n, NodeReach r root n → ∃ c, computeCost len m (r.configs.length + 1) n = .ok c ∧
        (∃ es, AStar.Walk r.out root es n ∧ AStar.total len es = c) ∧ ∀ es, AStar.Walk r.out root es n → c ≤ AStar.total len es := by
  have hG : Graph r.out r.configs.length := ⟨fun n e he => (h.adj.outOk n e he).1, fun n e he => (h.adj.ends e (h.adj.outOk n e he).2).2⟩
  have hout : ∀ n, r.configs.length ≤ n → r.out n = [] := by
    intro n hn
    rw [List.eq_nil_iff_forall_not_mem]
    intro e he
    obtain ⟨h1, h2⟩ := h.adj.outOk n e he
    have := (h.adj.ends e h2).1
    omega
  obtain ⟨S, hS⟩ := finite_costs r.out len r.configs.length hout
  obtain ⟨F, v, h1, h2⟩ := pmLoop_spec (root := root) hl hG hp hS hr _ _ _ _ rfl le_rfl (PInv.start hl hG)
  obtain ⟨f1, f2⟩ := h2.final
  have hreach : ∀ n, parents v n ≠ none ↔ NodeReach r root n := by
    intro n
    rw [AStar.nodeReach_iff_walk h.adj]
    unfold parents
    constructor
    · intro hn
      obtain ⟨x, hx⟩ := Option.ne_none_iff_exists'.1 hn
      obtain ⟨⟨y, c⟩, hy, -⟩ := Option.map_eq_some_iff.1 hx
      obtain ⟨d, es, -, k, -⟩ := f1 n y c hy
      exact ⟨es, k⟩
    · rintro ⟨es, hw⟩
      obtain ⟨p, c, k, -⟩ := f2 n es hw
      rw [k]; simp
  have hT : Tree len r (parents v) root := by
    refine ⟨?_, ?_, ?_⟩
    · intro n hn
      refine h2.up n ?_
      intro hc
      exact hn (by unfold parents; rw [hc]; rfl)
    · intro n e hn
      unfold parents at hn
      obtain ⟨⟨y, c⟩, hy, hy'⟩ := Option.map_eq_some_iff.1 hn
      simp only at hy'
      subst hy'
      obtain ⟨k1, k2, -⟩ := h2.lab n e c hy
      exact ⟨(h.adj.outOk _ e k1).2, k2⟩
    · intro n hn
      by_cases hnr : n = root
      · rw [hnr]; exact hr
      · obtain ⟨d, c, hu⟩ := h2.up n (fun hc => hn (by unfold parents; rw [hc]; rfl))
        cases hu with
        | root _ => exact hr
        | @step _ d e c h0 _ =>
          unfold parents at h0
          obtain ⟨⟨y, c⟩, hy, hy'⟩ := Option.map_eq_some_iff.1 h0
          simp only at hy'
          subst hy'
          obtain ⟨k1, k2, -⟩ := h2.lab n e c hy
          rw [← k2]
          exact hG.dst _ _ k1
  refine ⟨F + 1, parents v, ?_, hT, hreach, ?_⟩
  · intro f hf
    obtain ⟨f, rfl⟩ : ∃ g, f = g + 1 := ⟨f - 1, by omega⟩
    obtain ⟨w, q', k1, k2⟩ := hp.2 [⟨root, none, 0⟩] (by simp)
    have k3 := List.perm_singleton.1 k2.symm
    rw [List.cons.injEq] at k3
    obtain ⟨rfl, rfl⟩ := k3
    unfold computeParentMap
    rw [pmLoop, k1]
    simp only [accepts, if_true, List.nil_append]
    rw [h1 f (by omega)]
    rfl
  · intro n hn
    obtain ⟨x, hx⟩ := Option.ne_none_iff_exists'.1 ((hreach n).2 hn)
    unfold parents at hx
    obtain ⟨⟨y, c⟩, hy, -⟩ := Option.map_eq_some_iff.1 hx
    obtain ⟨d, es, hu, hw, ht⟩ := f1 n y c hy
    refine ⟨c, computeCost_up hu (by have := hT.depth_lt hu; omega), ⟨es, hw, ht⟩, ?_⟩
    intro es' hw'
    obtain ⟨p', c', k1, k2⟩ := f2 n es' hw'
    rw [hy] at k1
    obtain ⟨-, rfl⟩ : y = p' ∧ c = c' := by simpa using k1
    exact k2

/-- four nodes, the direct edge from 0 to 3 is longer than the way through 1 and 2; the last node cannot be reached -/
def demoOut : Nat → List (Edge Int)
  | 0 => [⟨0, 0, 3, 9⟩, ⟨1, 0, 1, 2⟩]
  | 1 => [⟨2, 1, 2, 3⟩, ⟨3, 1, 0, 2⟩]
  | 2 => [⟨4, 2, 3, 1⟩]
  | _ => []

example : (computeParentMap (K := Int) id demoOut popMax 20 0).map (fun m => (List.range 5).map (fun n => (m n).map (fun e => e.map (·.src)))) =
    some [some none, some (some 0), some (some 1), some (some 2), none] := by decide +kernel

end Verif.Planner.Star
