import Verif.AStar.Model
import Mathlib.Algebra.Order.Group.Unbundled.Basic
import Mathlib.Algebra.Order.Monoid.Defs
import Mathlib.Tactic.Common
import Mathlib.Tactic.Abel
import Mathlib.Tactic.Linarith

/-! Invariants of the A* loop (helper lemmas). -/
namespace Verif.AStar
open Verif.Roadmap (Edge)
variable {P K : Type} [AddCommGroup K] [LinearOrder K]

/-- A directed walk along out edges. -/
inductive Walk (out : Nat → List (Edge P)) : Nat → List (Edge P) → Nat → Prop
  | nil (a : Nat) : Walk out a [] a
  | cons {a b : Nat} {e : Edge P} {p : List (Edge P)} (he : e ∈ out a) (hp : Walk out e.dst p b) : Walk out a (e :: p) b

/-- Total length of a list of edges. -/
def total (len : P → K) (p : List (Edge P)) : K := (p.map (fun e => len e.path)).sum

omit [LinearOrder K] in
@[simp] theorem total_nil (len : P → K) : total len ([] : List (Edge P)) = 0 := rfl
omit [LinearOrder K] in
@[simp] theorem total_cons (len : P → K) (e : Edge P) (p : List (Edge P)) : total len (e :: p) = len e.path + total len p := by
  simp [total]
omit [LinearOrder K] in
theorem total_append (len : P → K) (p q : List (Edge P)) : total len (p ++ q) = total len p + total len q := by
  simp [total]

theorem Walk.append {out : Nat → List (Edge P)} {a b c : Nat} {p q : List (Edge P)} (h1 : Walk out a p b) (h2 : Walk out b q c) :
    Walk out a (p ++ q) c := by
  induction h1 with
  | nil => exact h2
  | cons he _ ih => exact .cons he (ih h2)

theorem Walk.snoc {out : Nat → List (Edge P)} {a b : Nat} {p : List (Edge P)} {e : Edge P} (h1 : Walk out a p b) (h2 : e ∈ out b) :
    Walk out a (p ++ [e]) e.dst := h1.append (.cons h2 (.nil _))

/-- A node other than the init node, with its parent edge. -/
structure HasParent (I : Input P K) (s : State P K) (dom : List Nat) (x : Nat) (e : Edge P) : Prop where
  parent : s.parent x = some e
  src : e.src ∈ dom
  mem : e ∈ I.out e.src
  dst : e.dst = x
  cost : s.cost x = s.cost e.src + I.len e.path

/-- Invariant of the search, also during the expansion of the last closed node. -/
structure Inv (I : Input P K) (s : State P K) : Prop where
  openNodup : s.opn.Nodup
  closedNodup : s.closed.Nodup
  disjoint : ∀ x ∈ s.opn, x ∉ s.closed
  initParent : s.parent I.init = none
  initCost : s.cost I.init = 0
  started : I.init ∈ s.closed
  openParent : ∀ x ∈ s.opn, ∃ e, HasParent I s s.closed x e
  closedParent : ∀ l1 x l2, s.closed = l1 ++ x :: l2 → x = I.init ∨ ∃ e, HasParent I s l1 x e
  est : ∀ x ∈ s.opn, s.est x = s.cost x + I.heur x
  notGoal : ∀ x ∈ s.closed, isGoal I x = false

/-- Edges out of `x` have been relaxed. -/
def Relaxed (I : Input P K) (s : State P K) (x : Nat) (e : Edge P) : Prop :=
  e.dst ∈ s.closed ∨ (e.dst ∈ s.opn ∧ s.cost e.dst ≤ s.cost x + I.len e.path)

variable [IsOrderedAddMonoid K]

/-- One relaxation keeps the invariant, the relaxed edges, and relaxes its own edge; only non-closed nodes change. -/
theorem relax_inv (I : Input P K) (hsrc : ∀ n, ∀ e ∈ I.out n, e.src = n) {s : State P K} (h : Inv I s) {c : Nat}
    (hc : c ∈ s.closed) {e : Edge P} (he : e ∈ I.out c) :
    Inv I (relax I c s e) ∧ (relax I c s e).closed = s.closed ∧ (∀ x ∈ s.closed, (relax I c s e).cost x = s.cost x) ∧
    (∀ x ∈ s.opn, x ∈ (relax I c s e).opn ∧ (relax I c s e).cost x ≤ s.cost x) ∧
    (∀ x ∈ (relax I c s e).opn, x ∈ s.opn ∨ x = e.dst) ∧
    Relaxed I (relax I c s e) c e := by
  have hes := hsrc c e he
  unfold relax
  split
  · rename_i hin
    exact ⟨h, rfl, fun _ _ => rfl, fun x hx => ⟨hx, le_refl _⟩, fun x hx => Or.inl hx, Or.inl hin⟩
  · rename_i hnc
    dsimp only
    have hci : e.dst ≠ I.init := fun e0 => hnc (e0 ▸ h.started)
    have hcc : ∀ x ∈ s.closed, x ≠ e.dst := fun x hx e0 => hnc (e0 ▸ hx)
    split
    · rename_i hcond
      -- the opened list
      have hop : ∀ x, x ∈ (if decide (e.dst ∉ s.opn) then s.opn ++ [e.dst] else s.opn) ↔ x ∈ s.opn ∨ x = e.dst := by
        intro x
        by_cases hm : e.dst ∈ s.opn
        · rw [if_neg (by simpa using hm)]
          constructor
          · exact Or.inl
          · rintro (h | rfl)
            · exact h
            · exact hm
        · rw [if_pos (by simpa using hm)]; simp
      have hcsrc : ∀ x ∈ s.closed, Roadmap.set s.cost e.dst (s.cost c + I.len e.path) x = s.cost x := by
        intro x hx; simp [Roadmap.set, hcc x hx]
      have hold : ∀ (dom : List Nat) x e', (∀ y ∈ dom, y ∈ s.closed) → x ≠ e.dst → HasParent I s dom x e' →
          HasParent I { s with
            parent := Roadmap.set s.parent e.dst (some e)
            cost := Roadmap.set s.cost e.dst (s.cost c + I.len e.path)
            est := Roadmap.set s.est e.dst (s.cost c + I.len e.path + I.heur e.dst)
            opn := if decide (e.dst ∉ s.opn) then s.opn ++ [e.dst] else s.opn } dom x e' := by
        intro dom x e' hdom hx hp
        refine ⟨by simp [Roadmap.set, hx, hp.parent], hp.src, hp.mem, hp.dst, ?_⟩
        show Roadmap.set s.cost e.dst _ x = Roadmap.set s.cost e.dst _ e'.src + _
        rw [hcsrc _ (hdom _ hp.src)]
        simp [Roadmap.set, hx, hp.cost]
      refine ⟨⟨?_, h.closedNodup, ?_, ?_, ?_, h.started, ?_, ?_, ?_, h.notGoal⟩, rfl, hcsrc, ?_, ?_, ?_⟩
      · show (if decide (e.dst ∉ s.opn) then s.opn ++ [e.dst] else s.opn).Nodup
        by_cases hm : e.dst ∈ s.opn
        · rw [if_neg (by simpa using hm)]; exact h.openNodup
        · rw [if_pos (by simpa using hm)]
          rw [List.nodup_append]
          exact ⟨h.openNodup, by simp, by intro a ha b hb; rw [List.mem_singleton.1 hb]; rintro rfl; exact hm ha⟩
      · intro x hx
        rcases (hop x).1 hx with hx | rfl
        · exact h.disjoint x hx
        · exact hnc
      · simp [Roadmap.set, Ne.symm hci, h.initParent]
      · simp [Roadmap.set, Ne.symm hci, h.initCost]
      · intro x hx
        by_cases hxe : x = e.dst
        · subst hxe
          refine ⟨e, by simp [Roadmap.set], by rw [hes]; exact hc, by rw [hes]; exact he, rfl, ?_⟩
          show Roadmap.set s.cost e.dst _ e.dst = Roadmap.set s.cost e.dst _ e.src + _
          rw [hes, hcsrc c hc]; simp [Roadmap.set]
        · rcases (hop x).1 hx with hx | hx
          · obtain ⟨e', hp⟩ := h.openParent x hx
            exact ⟨e', hold _ x e' (fun y hy => hy) hxe hp⟩
          · exact absurd hx hxe
      · intro l1 x l2 hl
        have hl' : s.closed = l1 ++ x :: l2 := hl
        rcases h.closedParent l1 x l2 hl' with h1 | ⟨e', hp⟩
        · exact Or.inl h1
        · refine Or.inr ⟨e', hold l1 x e' (fun y hy => by rw [hl']; simp [hy]) (hcc x (by rw [hl']; simp)) hp⟩
      · intro x hx
        show Roadmap.set s.est e.dst _ x = Roadmap.set s.cost e.dst _ x + _
        by_cases hxe : x = e.dst
        · subst hxe; simp [Roadmap.set]
        · rcases (hop x).1 hx with hx | hx
          · simp [Roadmap.set, hxe, h.est x hx]
          · exact absurd hx hxe
      · intro x hx
        refine ⟨(hop x).2 (Or.inl hx), ?_⟩
        show Roadmap.set s.cost e.dst _ x ≤ _
        by_cases hxe : x = e.dst
        · subst hxe
          rcases hcond with hcond | hcond
          · exact absurd hx (by simpa using hcond)
          · simp [Roadmap.set]; exact le_of_lt hcond
        · simp [Roadmap.set, hxe]
      · intro x hx; exact (hop x).1 hx
      · refine Or.inr ⟨(hop e.dst).2 (Or.inr rfl), ?_⟩
        show Roadmap.set s.cost e.dst _ e.dst ≤ Roadmap.set s.cost e.dst _ c + _
        rw [hcsrc c hc]; simp [Roadmap.set]
    · rename_i hcond
      have hm : e.dst ∈ s.opn := by by_contra hm; exact hcond (Or.inl (by simpa using hm))
      have hle := not_lt.1 (fun hlt => hcond (Or.inr hlt))
      exact ⟨h, rfl, fun _ _ => rfl, fun x hx => ⟨hx, le_refl _⟩, fun x hx => Or.inl hx, Or.inr ⟨hm, hle⟩⟩

/-- Relaxing all the edges of `c`. -/
theorem relaxAll_inv (I : Input P K) (hsrc : ∀ n, ∀ e ∈ I.out n, e.src = n) {c : Nat} (es : List (Edge P)) {s : State P K}
    (h : Inv I s) (hc : c ∈ s.closed) (hes : ∀ e ∈ es, e ∈ I.out c) :
    Inv I (es.foldl (relax I c) s) ∧ (es.foldl (relax I c) s).closed = s.closed ∧
    (∀ x ∈ s.closed, ∀ e, Relaxed I s x e → Relaxed I (es.foldl (relax I c) s) x e) ∧
    (∀ x ∈ (es.foldl (relax I c) s).opn, x ∈ s.opn ∨ ∃ e ∈ es, x = e.dst) ∧
    (∀ e ∈ es, Relaxed I (es.foldl (relax I c) s) c e) ∧
    ∀ x ∈ s.closed, (es.foldl (relax I c) s).cost x = s.cost x := by
  induction es generalizing s with
  | nil => exact ⟨h, rfl, fun _ _ _ h => h, fun x hx => Or.inl hx, by simp, fun _ _ => rfl⟩
  | cons e es ih =>
    obtain ⟨k1, k2, k3, k4, k5, k6⟩ := relax_inv I hsrc h hc (hes e (by simp))
    obtain ⟨m1, m2, m3, m4, m5, m6⟩ := ih (s := relax I c s e) k1 (by rw [k2]; exact hc) (fun e he => hes e (by simp [he]))
    refine ⟨m1, m2.trans k2, ?_, ?_, ?_, fun x hx => (m6 x (by rw [k2]; exact hx)).trans (k3 x hx)⟩
    · intro x hx e' hr
      refine m3 x (by rw [k2]; exact hx) e' ?_
      rcases hr with hr | ⟨hr1, hr2⟩
      · exact Or.inl (by rw [k2]; exact hr)
      · refine Or.inr ⟨(k4 _ hr1).1, ?_⟩
        rw [k3 x hx]; exact le_trans (k4 _ hr1).2 hr2
    · intro x hx
      rcases m4 x hx with hx | ⟨e', he', rfl⟩
      · rcases k5 x hx with hx | rfl
        · exact Or.inl hx
        · exact Or.inr ⟨e, by simp, rfl⟩
      · exact Or.inr ⟨e', by simp [he'], rfl⟩
    · intro e' he'
      rcases List.mem_cons.1 he' with rfl | he'
      · exact m3 c (by rw [k2]; exact hc) _ k6
      · exact m5 e' he'

/-- Invariant at the head of the loop. -/
structure Head (I : Input P K) (V : List Nat) (s : State P K) : Prop where
  inv : Inv I s
  relaxed : ∀ x ∈ s.closed, ∀ e ∈ I.out x, Relaxed I s x e
  inV : ∀ x, x ∈ s.opn ∨ x ∈ s.closed → x ∈ V

omit [IsOrderedAddMonoid K] in
theorem sortOpen_perm (s : State P K) : (sortOpen s).Perm s.opn := List.perm_insertionSort _ _

omit [AddCommGroup K] [IsOrderedAddMonoid K] in
theorem sortOpen_min {s : State P K} {c : Nat} {rest : List Nat} (h : sortOpen s = c :: rest) : ∀ x ∈ s.opn, s.est c ≤ s.est x := by
  have hs : (sortOpen s).Pairwise (fun a b => s.est a ≤ s.est b) := by
    unfold sortOpen
    haveI : Std.Total (fun a b : Nat => s.est a ≤ s.est b) := ⟨fun a b => le_total _ _⟩
    haveI : IsTrans Nat (fun a b => s.est a ≤ s.est b) := ⟨fun a b c => le_trans⟩
    exact List.pairwise_insertionSort _ _
  rw [h, List.pairwise_cons] at hs
  intro x hx
  have : x ∈ c :: rest := by rw [← h]; exact (List.perm_insertionSort _ _).symm.subset hx
  rcases List.mem_cons.1 this with rfl | this
  · exact le_refl _
  · exact hs.1 x this

/-- Moving the head of the open list to the closed list. -/
theorem close_inv (I : Input P K) {s : State P K} (h : Inv I s) {c : Nat} {rest : List Nat} (hs : sortOpen s = c :: rest)
    (hg : isGoal I c = false) : Inv I { s with opn := rest, closed := s.closed ++ [c] } := by
  have hperm := sortOpen_perm s
  rw [hs] at hperm
  have hnd : (c :: rest).Nodup := hperm.nodup_iff.2 h.openNodup
  rw [List.nodup_cons] at hnd
  have hco : c ∈ s.opn := hperm.subset (by simp)
  have hro : ∀ x ∈ rest, x ∈ s.opn := fun x hx => hperm.subset (by simp [hx])
  have hcc := h.disjoint c hco
  have mono : ∀ (d d' : List Nat) x e, (∀ y ∈ d, y ∈ d') → HasParent I s d x e →
      HasParent I { s with opn := rest, closed := s.closed ++ [c] } d' x e :=
    fun d d' x e hd hp => ⟨hp.parent, hd _ hp.src, hp.mem, hp.dst, hp.cost⟩
  refine ⟨hnd.2, ?_, ?_, h.initParent, h.initCost, ?_, ?_, ?_, fun x hx => h.est x (hro x hx), ?_⟩
  · show (s.closed ++ [c]).Nodup
    rw [List.nodup_append]
    exact ⟨h.closedNodup, by simp, by intro a ha b hb; rw [List.mem_singleton.1 hb]; rintro rfl; exact hcc ha⟩
  · intro x hx hm
    rcases List.mem_append.1 hm with hm | hm
    · exact h.disjoint x (hro x hx) hm
    · rw [List.mem_singleton.1 hm] at hx; exact hnd.1 hx
  · exact List.mem_append.2 (Or.inl h.started)
  · intro x hx
    obtain ⟨e, hp⟩ := h.openParent x (hro x hx)
    exact ⟨e, mono _ _ x e (fun y hy => List.mem_append.2 (Or.inl hy)) hp⟩
  · intro l1 x l2 hl
    have hl' : s.closed ++ [c] = l1 ++ x :: l2 := hl
    rcases List.eq_nil_or_concat l2 with rfl | ⟨l2', y, rfl⟩
    · have := List.append_inj' hl' rfl
      obtain ⟨e1, e2⟩ := this
      simp only [List.cons.injEq, and_true] at e2
      subst e2 e1
      obtain ⟨e, hp⟩ := h.openParent c hco
      exact Or.inr ⟨e, mono _ _ c e (fun y hy => hy) hp⟩
    · rw [List.concat_eq_append] at hl'
      have h2 : s.closed ++ [c] = (l1 ++ x :: l2') ++ [y] := by simpa using hl'
      obtain ⟨e1, e2⟩ := List.append_inj' h2 rfl
      rcases h.closedParent l1 x l2' e1 with h3 | ⟨e, hp⟩
      · exact Or.inl h3
      · exact Or.inr ⟨e, mono _ _ x e (fun y hy => hy) hp⟩
  · intro x hx
    rcases List.mem_append.1 hx with hx | hx
    · exact h.notGoal x hx
    · rw [List.mem_singleton.1 hx]; exact hg

/-- One iteration of the loop from a state satisfying the invariant. -/
theorem head_step (I : Input P K) (hsrc : ∀ n, ∀ e ∈ I.out n, e.src = n) {V : List Nat} (hV : ∀ n ∈ V, ∀ e ∈ I.out n, e.dst ∈ V)
    {s : State P K} (h : Head I V s) {c : Nat} {rest : List Nat} (hs : sortOpen s = c :: rest) (hg : isGoal I c = false) :
    Head I V ((I.out c).foldl (relax I c) { s with opn := rest, closed := s.closed ++ [c] }) ∧
    ((I.out c).foldl (relax I c) { s with opn := rest, closed := s.closed ++ [c] }).closed = s.closed ++ [c] ∧
    ∀ x ∈ s.closed ++ [c], ((I.out c).foldl (relax I c) { s with opn := rest, closed := s.closed ++ [c] }).cost x = s.cost x := by
  have h1 := close_inv I h.inv hs hg
  have hperm := sortOpen_perm s
  rw [hs] at hperm
  have hco : c ∈ s.opn := hperm.subset (by simp)
  have hro : ∀ x ∈ rest, x ∈ s.opn := fun x hx => hperm.subset (by simp [hx])
  obtain ⟨m1, m2, m3, m4, m5, m6⟩ := relaxAll_inv I hsrc (c := c) (I.out c) h1 (by simp) (fun e he => he)
  refine ⟨⟨m1, ?_, ?_⟩, m2, m6⟩
  · intro x hx e he
    rw [m2] at hx
    rcases List.mem_append.1 hx with hx' | hx'
    · refine m3 x hx e ?_
      rcases h.relaxed x hx' e he with hr | ⟨hr1, hr2⟩
      · exact Or.inl (List.mem_append.2 (Or.inl hr))
      · rcases List.mem_cons.1 (hperm.symm.subset hr1) with hr3 | hr3
        · exact Or.inl (List.mem_append.2 (Or.inr (by simp [hr3])))
        · exact Or.inr ⟨hr3, hr2⟩
    · rw [List.mem_singleton.1 hx'] at he ⊢
      exact m5 e he
  · intro x hx
    rcases hx with hx | hx
    · rcases m4 x hx with hx | ⟨e, he, rfl⟩
      · exact h.inV x (Or.inl (hro x hx))
      · exact hV c (h.inV c (Or.inl hco)) e he
    · rw [m2] at hx
      rcases List.mem_append.1 hx with hx | hx
      · exact h.inV x (Or.inr hx)
      · rw [List.mem_singleton.1 hx]; exact h.inV c (Or.inl hco)

/-- The first iteration. -/
theorem first_step (I : Input P K) (hsrc : ∀ n, ∀ e ∈ I.out n, e.src = n) {V : List Nat} (hV : ∀ n ∈ V, ∀ e ∈ I.out n, e.dst ∈ V)
    (hi : I.init ∈ V) (hg : isGoal I I.init = false) :
    Head I V ((I.out I.init).foldl (relax I I.init) { start I with opn := [], closed := [I.init] }) ∧
    ((I.out I.init).foldl (relax I I.init) { start I with opn := [], closed := [I.init] }).closed = [I.init] ∧
    ∀ x ∈ [I.init], ((I.out I.init).foldl (relax I I.init) { start I with opn := [], closed := [I.init] }).cost x = 0 := by
  have h1 : Inv I { start I with opn := [], closed := [I.init] } := by
    refine ⟨by simp, by simp, by simp, rfl, rfl, by simp, by simp, ?_, by simp, by simpa using hg⟩
    intro l1 x l2 hl
    have hl' : [I.init] = l1 ++ x :: l2 := hl
    cases l1 with
    | nil => simp at hl'; exact Or.inl hl'.1.symm
    | cons a l1 => simp at hl'
  obtain ⟨m1, m2, m3, m4, m5, m6⟩ := relaxAll_inv I hsrc (c := I.init) (I.out I.init) h1 (by simp) (fun e he => he)
  refine ⟨⟨m1, ?_, ?_⟩, m2, m6⟩
  · intro x hx e he
    rw [m2] at hx
    rw [List.mem_singleton.1 hx] at he ⊢
    exact m5 e he
  · intro x hx
    rcases hx with hx | hx
    · rcases m4 x hx with hx | ⟨e, he, rfl⟩
      · simp at hx
      · exact hV _ hi e he
    · rw [m2] at hx; rw [List.mem_singleton.1 hx]; exact hi

/-- Result of the loop from a state satisfying the invariant, with enough fuel. -/
theorem loop_spec (I : Input P K) (hsrc : ∀ n, ∀ e ∈ I.out n, e.src = n) {V : List Nat} (hV : ∀ n ∈ V, ∀ e ∈ I.out n, e.dst ∈ V)
    (R : State P K → Prop) (hR : ∀ s c rest, Head I V s → R s → sortOpen s = c :: rest → isGoal I c = false →
      R ((I.out c).foldl (relax I c) { s with opn := rest, closed := s.closed ++ [c] }))
    (f : Nat) {s : State P K} (h : Head I V s) (hr : R s) (hf : V.length + 1 ≤ f + s.closed.length) :
    (∃ n s', loop I f s = .found n s' ∧ isGoal I n = true ∧ Head I V s' ∧ R s' ∧ ∃ rest, sortOpen s' = n :: rest) ∨
    (loop I f s = .failed ∧ ∃ s', Head I V s' ∧ s'.opn = []) := by
  induction f generalizing s with
  | zero =>
    have hsub : s.closed.Subperm V := List.subperm_of_subset h.inv.closedNodup (fun x hx => h.inV x (Or.inr hx))
    have := hsub.length_le
    omega
  | succ f ih =>
    unfold loop
    cases hs : sortOpen s with
    | nil =>
      refine Or.inr ⟨rfl, s, h, ?_⟩
      have := sortOpen_perm s
      rw [hs] at this
      exact List.nil_perm.1 this
    | cons c rest =>
      dsimp only
      cases hg : isGoal I c with
      | true => exact Or.inl ⟨c, s, rfl, hg, h, hr, rest, hs⟩
      | false =>
        simp only [Bool.false_eq_true, if_false]
        obtain ⟨k1, k2, _⟩ := head_step I hsrc hV h hs hg
        refine ih k1 (hR s c rest h hr hs hg) ?_
        rw [k2]
        simp; omega

/-- Result of `findPath`. -/
theorem findPath_spec (I : Input P K) (hsrc : ∀ n, ∀ e ∈ I.out n, e.src = n) {V : List Nat} (hi : I.init ∈ V)
    (hV : ∀ n ∈ V, ∀ e ∈ I.out n, e.dst ∈ V)
    (R : State P K → Prop) (hR : ∀ s c rest, Head I V s → R s → sortOpen s = c :: rest → isGoal I c = false →
      R ((I.out c).foldl (relax I c) { s with opn := rest, closed := s.closed ++ [c] }))
    (hR0 : isGoal I I.init = false → R ((I.out I.init).foldl (relax I I.init) { start I with opn := [], closed := [I.init] }))
    (f : Nat) (hf : V.length + 1 ≤ f) :
    (isGoal I I.init = true ∧ findPath I f = .found I.init (start I)) ∨
    (∃ n s, findPath I f = .found n s ∧ isGoal I n = true ∧ Head I V s ∧ R s ∧ ∃ rest, sortOpen s = n :: rest) ∨
    (findPath I f = .failed ∧ ∃ s, Head I V s ∧ s.opn = []) := by
  cases f with
  | zero => omega
  | succ f =>
    have hs : sortOpen (start I) = [I.init] := by simp [sortOpen, start]
    unfold findPath loop
    rw [hs]
    dsimp only
    cases hg : isGoal I I.init with
    | true => exact Or.inl ⟨rfl, by simp⟩
    | false =>
      simp only [Bool.false_eq_true, if_false]
      obtain ⟨k1, k2, _⟩ := first_step I hsrc hV hi hg
      have hst : ({ start I with opn := [], closed := (start I).closed ++ [I.init] } : State P K) =
          { start I with opn := [], closed := [I.init] } := by simp [start]
      rw [hst]
      refine Or.inr (loop_spec I hsrc hV R hR f k1 (hR0 hg) ?_)
      rw [k2]; simp; omega

/-- Following the parents of a closed node. -/
theorem trace_closed (I : Input P K) {s : State P K} (h : Inv I s) (m : Nat) : ∀ l1 x l2, s.closed = l1 ++ x :: l2 → l1.length < m →
    ∃ p, Walk I.out I.init p x ∧ total I.len p = s.cost x ∧ ∀ f acc, m ≤ f → trace s.parent f x acc = some (p ++ acc) := by
  induction m with
  | zero => intro l1 x l2 _ hm; omega
  | succ m ih =>
    intro l1 x l2 hl hm
    rcases h.closedParent l1 x l2 hl with rfl | ⟨e, hp⟩
    · refine ⟨[], .nil _, by simp [h.initCost], ?_⟩
      intro f acc hf
      obtain ⟨f, rfl⟩ : ∃ f', f = f' + 1 := ⟨f - 1, by omega⟩
      unfold trace; rw [h.initParent]; rfl
    · obtain ⟨a, b, hab⟩ := List.append_of_mem hp.src
      obtain ⟨p, h1, h2, h3⟩ := ih a e.src (b ++ x :: l2) (by rw [hl, hab]; simp) (by rw [hab] at hm; simp at hm; omega)
      refine ⟨p ++ [e], by have := h1.snoc hp.mem; rwa [hp.dst] at this, ?_, ?_⟩
      · rw [total_append, h2, hp.cost]; simp
      · intro f acc hf
        obtain ⟨f, rfl⟩ : ∃ f', f = f' + 1 := ⟨f - 1, by omega⟩
        unfold trace; rw [hp.parent]
        dsimp only
        rw [h3 f (e :: acc) (by omega)]; simp

theorem trace_open (I : Input P K) {s : State P K} (h : Inv I s) {x : Nat} (hx : x ∈ s.opn) :
    ∃ p, Walk I.out I.init p x ∧ total I.len p = s.cost x ∧
      ∀ f acc, s.closed.length + 1 ≤ f → trace s.parent f x acc = some (p ++ acc) := by
  obtain ⟨e, hp⟩ := h.openParent x hx
  obtain ⟨a, b, hab⟩ := List.append_of_mem hp.src
  obtain ⟨p, h1, h2, h3⟩ := trace_closed I h s.closed.length a e.src b hab (by rw [hab]; simp)
  refine ⟨p ++ [e], by have := h1.snoc hp.mem; rwa [hp.dst] at this, ?_, ?_⟩
  · rw [total_append, h2, hp.cost]; simp
  · intro f acc hf
    obtain ⟨f, rfl⟩ : ∃ f', f = f' + 1 := ⟨f - 1, by omega⟩
    unfold trace; rw [hp.parent]
    dsimp only
    rw [h3 f (e :: acc) (by omega)]; simp

/-- A walk from a closed node to a non-closed one leaves the closed set through a relaxed edge. -/
theorem walk_exit (I : Input P K) {V : List Nat} {s : State P K} (h : Head I V s) {a b : Nat} {p : List (Edge P)} (hp : Walk I.out a p b)
    (ha : a ∈ s.closed) (hb : b ∉ s.closed) :
    ∃ p1 x e q, p = p1 ++ e :: q ∧ Walk I.out a p1 x ∧ x ∈ s.closed ∧ e ∈ I.out x ∧ e.dst ∈ s.opn ∧
        s.cost e.dst ≤ s.cost x + I.len e.path ∧ Walk I.out e.dst q b := by
  induction hp with
  | nil a => exact absurd ha hb
  | @cons a b e p he hp ih =>
    by_cases hd : e.dst ∈ s.closed
    · obtain ⟨p1, x, e', q, h4, h5, h6⟩ := ih hd hb
      exact ⟨e :: p1, x, e', q, by simp [h4], .cons he h5, h6⟩
    · rcases h.relaxed a ha e he with hr | ⟨hr1, hr2⟩
      · exact absurd hr hd
      · exact ⟨[], a, e, p, by simp, .nil a, ha, he, hr1, hr2, hp⟩

theorem walk_in (I : Input P K) {V : List Nat} (hV : ∀ n ∈ V, ∀ e ∈ I.out n, e.dst ∈ V) {a b : Nat} {p : List (Edge P)}
    (hp : Walk I.out a p b) (ha : a ∈ V) : b ∈ V := by
  induction hp with
  | nil => exact ha
  | cons he _ ih => exact ih (hV _ ha _ he)

/-- A consistent estimate along a walk. -/
theorem walk_consistent (I : Input P K) {V : List Nat} (hV : ∀ n ∈ V, ∀ e ∈ I.out n, e.dst ∈ V)
    (hcons : ∀ a ∈ V, ∀ e ∈ I.out a, I.heur a ≤ I.len e.path + I.heur e.dst) {a b : Nat} {p : List (Edge P)}
    (hp : Walk I.out a p b) (ha : a ∈ V) : I.heur a ≤ total I.len p + I.heur b := by
  induction hp with
  | nil => simp
  | @cons a b e p he _ ih =>
    have h1 := hcons a ha e he
    have h2 := ih (hV a ha e he)
    rw [total_cons, add_assoc]
    exact le_trans h1 (add_le_add_right h2 _)

/-- Closed nodes have their optimal cost. -/
def Opt (I : Input P K) (s : State P K) : Prop := ∀ x ∈ s.closed, ∀ p, Walk I.out I.init p x → s.cost x ≤ total I.len p

/-- The head of the open list has the smallest estimate of all walks to a node that is not closed. -/
theorem head_best (I : Input P K) {V : List Nat} (hV : ∀ n ∈ V, ∀ e ∈ I.out n, e.dst ∈ V)
    (hcons : ∀ a ∈ V, ∀ e ∈ I.out a, I.heur a ≤ I.len e.path + I.heur e.dst) {s : State P K} (h : Head I V s) (ho : Opt I s)
    {u : Nat} {rest : List Nat} (hs : sortOpen s = u :: rest) {v : Nat} (hv : v ∉ s.closed) {p : List (Edge P)}
    (hp : Walk I.out I.init p v) : s.cost u + I.heur u ≤ total I.len p + I.heur v := by
  obtain ⟨p1, x, e, q, h1, h2, h3, h4, h5, h6, h7⟩ := walk_exit I h hp h.inv.started hv
  have hu : u ∈ s.opn := (sortOpen_perm s).subset (by rw [hs]; simp)
  have h8 := sortOpen_min hs e.dst h5
  rw [h.inv.est u hu, h.inv.est _ h5] at h8
  have h9 := ho x h3 p1 h2
  have h10 := walk_consistent I hV hcons h7 (h.inV _ (Or.inl h5))
  rw [h1, total_append, total_cons]
  have e1 : total I.len p1 + (I.len e.path + total I.len q) + I.heur v =
      (total I.len p1 + I.len e.path) + (total I.len q + I.heur v) := by abel
  rw [e1]
  refine le_trans h8 (add_le_add (le_trans h6 (add_le_add_left h9 _)) h10)

theorem opt_step (I : Input P K) (hsrc : ∀ n, ∀ e ∈ I.out n, e.src = n) {V : List Nat} (hV : ∀ n ∈ V, ∀ e ∈ I.out n, e.dst ∈ V)
    (hcons : ∀ a ∈ V, ∀ e ∈ I.out a, I.heur a ≤ I.len e.path + I.heur e.dst) :
    ∀ s c rest, Head I V s → Opt I s → sortOpen s = c :: rest → isGoal I c = false →
      Opt I ((I.out c).foldl (relax I c) { s with opn := rest, closed := s.closed ++ [c] }) := by
  intro s c rest h ho hs hg x hx p hp
  obtain ⟨_, k2, k3⟩ := head_step I hsrc hV h hs hg
  rw [k2] at hx
  rw [k3 x hx]
  rcases List.mem_append.1 hx with hx | hx
  · exact ho x hx p hp
  · rw [List.mem_singleton.1 hx] at hp ⊢
    have hc : c ∈ s.opn := (sortOpen_perm s).subset (by rw [hs]; simp)
    have := head_best I hV hcons h ho hs (h.inv.disjoint c hc) hp
    exact le_of_add_le_add_right this

theorem total_nonneg (I : Input P K) {V : List Nat} (hV : ∀ n ∈ V, ∀ e ∈ I.out n, e.dst ∈ V)
    (hnn : ∀ a ∈ V, ∀ e ∈ I.out a, 0 ≤ I.len e.path) {a b : Nat} {p : List (Edge P)}
    (hp : Walk I.out a p b) (ha : a ∈ V) : 0 ≤ total I.len p := by
  induction hp with
  | nil => simp
  | @cons a b e p he _ ih =>
    rw [total_cons]
    exact add_nonneg (hnn a ha e he) (ih (hV a ha e he))

theorem opt_first (I : Input P K) (hsrc : ∀ n, ∀ e ∈ I.out n, e.src = n) {V : List Nat} (hV : ∀ n ∈ V, ∀ e ∈ I.out n, e.dst ∈ V)
    (hi : I.init ∈ V) (hnn : ∀ a ∈ V, ∀ e ∈ I.out a, 0 ≤ I.len e.path) (hg : isGoal I I.init = false) :
    Opt I ((I.out I.init).foldl (relax I I.init) { start I with opn := [], closed := [I.init] }) := by
  intro x hx p hp
  obtain ⟨_, k2, k3⟩ := first_step I hsrc hV hi hg
  rw [k2] at hx
  rw [k3 x hx]
  exact total_nonneg I hV hnn hp hi

end Verif.AStar
