import Verif.AStar.Props
import Verif.Path.Rounding
set_option linter.unusedSectionVars false

/-!
# A* search with floating-point arithmetic (C149)

In `Verif.AStar.Model` costs are added exactly.  Here they are added by any function `add` (`relaxR`, `loopR`, `findPathR`, `solutionR`), in particular by an
addition followed by a rounding.
-/
namespace Verif.AStar
open Verif.Roadmap (Edge Env Op NodeReach run empty run_inv)

section Any
variable {Q P K : Type} [Zero K] [LinearOrder K]

/-- Reset and first insertion: src/astar.hh:99-105. -/
def startR (I : Input P K) : State P K :=
  { closed := [], opn := [I.init], cost := fun _ => 0, est := fun _ => 0, parent := fun _ => none }

/-- Body of the loop on the out edges of `current`: src/astar.hh:117-131, where numbers are added by `add`. -/
def relaxR (add : K → K → K) (I : Input P K) (current : Nat) (s : State P K) (e : Edge P) : State P K :=
  if e.dst ∈ s.closed then s
  else
    let tmpCost := add (s.cost current) (I.len e.path)
    let notOpen : Bool := decide (e.dst ∉ s.opn)
    if notOpen = true ∨ tmpCost < s.cost e.dst then
      { s with
        parent := Roadmap.set s.parent e.dst (some e)
        cost := Roadmap.set s.cost e.dst tmpCost
        est := Roadmap.set s.est e.dst (add tmpCost (I.heur e.dst))
        opn := if notOpen then s.opn ++ [e.dst] else s.opn }
    else s

/-- Loop of `findPath`: src/astar.hh:98-135. -/
def loopR (add : K → K → K) (I : Input P K) : Nat → State P K → Outcome P K
  | 0, _ => .outOfFuel
  | f + 1, s =>
    match sortOpen s with
    | [] => .failed
    | current :: rest =>
      if isGoal I current then .found current s
      else loopR add I f ((I.out current).foldl (relaxR add I current) { s with opn := rest, closed := s.closed ++ [current] })

/-- `findPath`: src/astar.hh:98-135. -/
def findPathR (add : K → K → K) (I : Input P K) (fuel : Nat) : Outcome P K := loopR add I fuel (startR I)

/-- `solution`: src/astar.hh:59-77. -/
def solutionR (add : K → K → K) (I : Input P K) (fuel : Nat) : Solution P :=
  match findPathR add I fuel with
  | .failed => .failed
  | .outOfFuel => .outOfFuel
  | .found n s =>
    match trace s.parent fuel n [] with
    | none => .outOfFuel
    | some es => .path n es

/-- Lengths added one after the other from the first one, as `PathVector::appendPath` does for the paths of the solution: src/path-vector.cc:72-78. -/
def totalR (add : K → K → K) (len : P → K) (p : List (Edge P)) : K := p.foldl (fun a e => add a (len e.path)) 0

theorem totalR_snoc (add : K → K → K) (len : P → K) (p : List (Edge P)) (e : Edge P) : totalR add len (p ++ [e]) = add (totalR add len p) (len e.path) := by
  simp [totalR]

/-- A node other than the init node, with its parent edge. -/
structure HasParentR (add : K → K → K) (I : Input P K) (s : State P K) (dom : List Nat) (x : Nat) (e : Edge P) : Prop where
  parent : s.parent x = some e
  src : e.src ∈ dom
  mem : e ∈ I.out e.src
  dst : e.dst = x
  cost : s.cost x = add (s.cost e.src) (I.len e.path)

/-- Invariant of the search, also during the expansion of the last closed node. -/
structure InvR (add : K → K → K) (I : Input P K) (s : State P K) : Prop where
  openNodup : s.opn.Nodup
  closedNodup : s.closed.Nodup
  disjoint : ∀ x ∈ s.opn, x ∉ s.closed
  initParent : s.parent I.init = none
  initCost : s.cost I.init = 0
  started : I.init ∈ s.closed
  openParent : ∀ x ∈ s.opn, ∃ e, HasParentR add I s s.closed x e
  closedParent : ∀ l1 x l2, s.closed = l1 ++ x :: l2 → x = I.init ∨ ∃ e, HasParentR add I s l1 x e
  est : ∀ x ∈ s.opn, s.est x = add (s.cost x) (I.heur x)
  notGoal : ∀ x ∈ s.closed, isGoal I x = false

/-- Edges out of `x` have been relaxed. -/
def RelaxedR (add : K → K → K) (I : Input P K) (s : State P K) (x : Nat) (e : Edge P) : Prop :=
  e.dst ∈ s.closed ∨ (e.dst ∈ s.opn ∧ s.cost e.dst ≤ add (s.cost x) (I.len e.path))

/-- One relaxation keeps the invariant, the relaxed edges, and relaxes its own edge; only non-closed nodes change. -/
theorem relax_inv_r (add : K → K → K) (I : Input P K) (hsrc : ∀ n, ∀ e ∈ I.out n, e.src = n) {s : State P K} (h : InvR add I s) {c : Nat}
    (hc : c ∈ s.closed) {e : Edge P} (he : e ∈ I.out c) :
    InvR add I (relaxR add I c s e) ∧ (relaxR add I c s e).closed = s.closed ∧ (∀ x ∈ s.closed, (relaxR add I c s e).cost x = s.cost x) ∧
    (∀ x ∈ s.opn, x ∈ (relaxR add I c s e).opn ∧ (relaxR add I c s e).cost x ≤ s.cost x) ∧
    (∀ x ∈ (relaxR add I c s e).opn, x ∈ s.opn ∨ x = e.dst) ∧
    RelaxedR add I (relaxR add I c s e) c e := by
  have hes := hsrc c e he
  unfold relaxR
  split
  · rename_i hin
    exact ⟨h, rfl, fun _ _ => rfl, fun x hx => ⟨hx, le_refl _⟩, fun x hx => Or.inl hx, Or.inl hin⟩
  · rename_i hnc
    dsimp only
    have hci : e.dst ≠ I.init := fun e0 => hnc (e0 ▸ h.started)
    have hcc : ∀ x ∈ s.closed, x ≠ e.dst := fun x hx e0 => hnc (e0 ▸ hx)
    split
    · rename_i hcond
      -- the opened list
      have hop : ∀ x, x ∈ (if decide (e.dst ∉ s.opn) then s.opn ++ [e.dst] else s.opn) ↔ x ∈ s.opn ∨ x = e.dst := by
        intro x
        by_cases hm : e.dst ∈ s.opn
        · rw [if_neg (by simpa using hm)]
          constructor
          · exact Or.inl
          · rintro (h | rfl)
            · exact h
            · exact hm
        · rw [if_pos (by simpa using hm)]; simp
      have hcsrc : ∀ x ∈ s.closed, Roadmap.set s.cost e.dst (add (s.cost c) (I.len e.path)) x = s.cost x := by
        intro x hx; simp [Roadmap.set, hcc x hx]
      have hold : ∀ (dom : List Nat) x e', (∀ y ∈ dom, y ∈ s.closed) → x ≠ e.dst → HasParentR add I s dom x e' →
          HasParentR add I { s with
            parent := Roadmap.set s.parent e.dst (some e)
            cost := Roadmap.set s.cost e.dst (add (s.cost c) (I.len e.path))
            est := Roadmap.set s.est e.dst (add (add (s.cost c) (I.len e.path)) (I.heur e.dst))
            opn := if decide (e.dst ∉ s.opn) then s.opn ++ [e.dst] else s.opn } dom x e' := by
        intro dom x e' hdom hx hp
        refine ⟨by simp [Roadmap.set, hx, hp.parent], hp.src, hp.mem, hp.dst, ?_⟩
        show Roadmap.set s.cost e.dst _ x = add (Roadmap.set s.cost e.dst _ e'.src) _
        rw [hcsrc _ (hdom _ hp.src)]
        simp [Roadmap.set, hx, hp.cost]
      refine ⟨⟨?_, h.closedNodup, ?_, ?_, ?_, h.started, ?_, ?_, ?_, h.notGoal⟩, rfl, hcsrc, ?_, ?_, ?_⟩
      · show (if decide (e.dst ∉ s.opn) then s.opn ++ [e.dst] else s.opn).Nodup
        by_cases hm : e.dst ∈ s.opn
        · rw [if_neg (by simpa using hm)]; exact h.openNodup
        · rw [if_pos (by simpa using hm)]
          rw [List.nodup_append]
          exact ⟨h.openNodup, by simp, by intro a ha b hb; rw [List.mem_singleton.1 hb]; rintro rfl; exact hm ha⟩
      · intro x hx
        rcases (hop x).1 hx with hx | rfl
        · exact h.disjoint x hx
        · exact hnc
      · simp [Roadmap.set, Ne.symm hci, h.initParent]
      · simp [Roadmap.set, Ne.symm hci, h.initCost]
      · intro x hx
        by_cases hxe : x = e.dst
        · subst hxe
          refine ⟨e, by simp [Roadmap.set], by rw [hes]; exact hc, by rw [hes]; exact he, rfl, ?_⟩
          show Roadmap.set s.cost e.dst _ e.dst = add (Roadmap.set s.cost e.dst _ e.src) _
          rw [hes, hcsrc c hc]; simp [Roadmap.set]
        · rcases (hop x).1 hx with hx | hx
          · obtain ⟨e', hp⟩ := h.openParent x hx
            exact ⟨e', hold _ x e' (fun y hy => hy) hxe hp⟩
          · exact absurd hx hxe
      · intro l1 x l2 hl
        have hl' : s.closed = l1 ++ x :: l2 := hl
        rcases h.closedParent l1 x l2 hl' with h1 | ⟨e', hp⟩
        · exact Or.inl h1
        · refine Or.inr ⟨e', hold l1 x e' (fun y hy => by rw [hl']; simp [hy]) (hcc x (by rw [hl']; simp)) hp⟩
      · intro x hx
        show Roadmap.set s.est e.dst _ x = add (Roadmap.set s.cost e.dst _ x) _
        by_cases hxe : x = e.dst
        · subst hxe; simp [Roadmap.set]
        · rcases (hop x).1 hx with hx | hx
          · simp [Roadmap.set, hxe, h.est x hx]
          · exact absurd hx hxe
      · intro x hx
        refine ⟨(hop x).2 (Or.inl hx), ?_⟩
        show Roadmap.set s.cost e.dst _ x ≤ _
        by_cases hxe : x = e.dst
        · subst hxe
          rcases hcond with hcond | hcond
          · exact absurd hx (by simpa using hcond)
          · simp [Roadmap.set]; exact le_of_lt hcond
        · simp [Roadmap.set, hxe]
      · intro x hx; exact (hop x).1 hx
      · refine Or.inr ⟨(hop e.dst).2 (Or.inr rfl), ?_⟩
        show Roadmap.set s.cost e.dst _ e.dst ≤ add (Roadmap.set s.cost e.dst _ c) _
        rw [hcsrc c hc]; simp [Roadmap.set]
    · rename_i hcond
      have hm : e.dst ∈ s.opn := by by_contra hm; exact hcond (Or.inl (by simpa using hm))
      have hle := not_lt.1 (fun hlt => hcond (Or.inr hlt))
      exact ⟨h, rfl, fun _ _ => rfl, fun x hx => ⟨hx, le_refl _⟩, fun x hx => Or.inl hx, Or.inr ⟨hm, hle⟩⟩

/-- Relaxing all the edges of `c`. -/
theorem relaxAll_inv_r (add : K → K → K) (I : Input P K) (hsrc : ∀ n, ∀ e ∈ I.out n, e.src = n) {c : Nat} (es : List (Edge P)) {s : State P K}
    (h : InvR add I s) (hc : c ∈ s.closed) (hes : ∀ e ∈ es, e ∈ I.out c) :
    InvR add I (es.foldl (relaxR add I c) s) ∧ (es.foldl (relaxR add I c) s).closed = s.closed ∧
    (∀ x ∈ s.closed, ∀ e, RelaxedR add I s x e → RelaxedR add I (es.foldl (relaxR add I c) s) x e) ∧
    (∀ x ∈ (es.foldl (relaxR add I c) s).opn, x ∈ s.opn ∨ ∃ e ∈ es, x = e.dst) ∧
    (∀ e ∈ es, RelaxedR add I (es.foldl (relaxR add I c) s) c e) ∧
    ∀ x ∈ s.closed, (es.foldl (relaxR add I c) s).cost x = s.cost x := by
  induction es generalizing s with
  | nil => exact ⟨h, rfl, fun _ _ _ h => h, fun x hx => Or.inl hx, by simp, fun _ _ => rfl⟩
  | cons e es ih =>
    obtain ⟨k1, k2, k3, k4, k5, k6⟩ := relax_inv_r add I hsrc h hc (hes e (by simp))
    obtain ⟨m1, m2, m3, m4, m5, m6⟩ := ih (s := relaxR add I c s e) k1 (by rw [k2]; exact hc) (fun e he => hes e (by simp [he]))
    refine ⟨m1, m2.trans k2, ?_, ?_, ?_, fun x hx => (m6 x (by rw [k2]; exact hx)).trans (k3 x hx)⟩
    · intro x hx e' hr
      refine m3 x (by rw [k2]; exact hx) e' ?_
      rcases hr with hr | ⟨hr1, hr2⟩
      · exact Or.inl (by rw [k2]; exact hr)
      · refine Or.inr ⟨(k4 _ hr1).1, ?_⟩
        rw [k3 x hx]; exact le_trans (k4 _ hr1).2 hr2
    · intro x hx
      rcases m4 x hx with hx | ⟨e', he', rfl⟩
      · rcases k5 x hx with hx | rfl
        · exact Or.inl hx
        · exact Or.inr ⟨e, by simp, rfl⟩
      · exact Or.inr ⟨e', by simp [he'], rfl⟩
    · intro e' he'
      rcases List.mem_cons.1 he' with rfl | he'
      · exact m3 c (by rw [k2]; exact hc) _ k6
      · exact m5 e' he'

/-- Invariant at the head of the loop. -/
structure HeadR (add : K → K → K) (I : Input P K) (V : List Nat) (s : State P K) : Prop where
  inv : InvR add I s
  relaxed : ∀ x ∈ s.closed, ∀ e ∈ I.out x, RelaxedR add I s x e
  inV : ∀ x, x ∈ s.opn ∨ x ∈ s.closed → x ∈ V

theorem sortOpen_perm_r (s : State P K) : (sortOpen s).Perm s.opn := List.perm_insertionSort _ _

/-- Moving the head of the open list to the closed list. -/
theorem close_inv_r (add : K → K → K) (I : Input P K) {s : State P K} (h : InvR add I s) {c : Nat} {rest : List Nat} (hs : sortOpen s = c :: rest)
    (hg : isGoal I c = false) : InvR add I { s with opn := rest, closed := s.closed ++ [c] } := by
  have hperm := sortOpen_perm_r s
  rw [hs] at hperm
  have hnd : (c :: rest).Nodup := hperm.nodup_iff.2 h.openNodup
  rw [List.nodup_cons] at hnd
  have hco : c ∈ s.opn := hperm.subset (by simp)
  have hro : ∀ x ∈ rest, x ∈ s.opn := fun x hx => hperm.subset (by simp [hx])
  have hcc := h.disjoint c hco
  have mono : ∀ (d d' : List Nat) x e, (∀ y ∈ d, y ∈ d') → HasParentR add I s d x e →
      HasParentR add I { s with opn := rest, closed := s.closed ++ [c] } d' x e :=
    fun d d' x e hd hp => ⟨hp.parent, hd _ hp.src, hp.mem, hp.dst, hp.cost⟩
  refine ⟨hnd.2, ?_, ?_, h.initParent, h.initCost, ?_, ?_, ?_, fun x hx => h.est x (hro x hx), ?_⟩
  · show (s.closed ++ [c]).Nodup
    rw [List.nodup_append]
    exact ⟨h.closedNodup, by simp, by intro a ha b hb; rw [List.mem_singleton.1 hb]; rintro rfl; exact hcc ha⟩
  · intro x hx hm
    rcases List.mem_append.1 hm with hm | hm
    · exact h.disjoint x (hro x hx) hm
    · rw [List.mem_singleton.1 hm] at hx; exact hnd.1 hx
  · exact List.mem_append.2 (Or.inl h.started)
  · intro x hx
    obtain ⟨e, hp⟩ := h.openParent x (hro x hx)
    exact ⟨e, mono _ _ x e (fun y hy => List.mem_append.2 (Or.inl hy)) hp⟩
  · intro l1 x l2 hl
    have hl' : s.closed ++ [c] = l1 ++ x :: l2 := hl
    rcases List.eq_nil_or_concat l2 with rfl | ⟨l2', y, rfl⟩
    · have := List.append_inj' hl' rfl
      obtain ⟨e1, e2⟩ := this
      simp only [List.cons.injEq, and_true] at e2
      subst e2 e1
      obtain ⟨e, hp⟩ := h.openParent c hco
      exact Or.inr ⟨e, mono _ _ c e (fun y hy => hy) hp⟩
    · rw [List.concat_eq_append] at hl'
      have h2 : s.closed ++ [c] = (l1 ++ x :: l2') ++ [y] := by simpa using hl'
      obtain ⟨e1, e2⟩ := List.append_inj' h2 rfl
      rcases h.closedParent l1 x l2' e1 with h3 | ⟨e, hp⟩
      · exact Or.inl h3
      · exact Or.inr ⟨e, mono _ _ x e (fun y hy => hy) hp⟩
  · intro x hx
    rcases List.mem_append.1 hx with hx | hx
    · exact h.notGoal x hx
    · rw [List.mem_singleton.1 hx]; exact hg

/-- One iteration of the loop from a state satisfying the invariant. -/
theorem head_step_r (add : K → K → K) (I : Input P K) (hsrc : ∀ n, ∀ e ∈ I.out n, e.src = n) {V : List Nat} (hV : ∀ n ∈ V, ∀ e ∈ I.out n, e.dst ∈ V)
    {s : State P K} (h : HeadR add I V s) {c : Nat} {rest : List Nat} (hs : sortOpen s = c :: rest) (hg : isGoal I c = false) :
    HeadR add I V ((I.out c).foldl (relaxR add I c) { s with opn := rest, closed := s.closed ++ [c] }) ∧
    ((I.out c).foldl (relaxR add I c) { s with opn := rest, closed := s.closed ++ [c] }).closed = s.closed ++ [c] ∧
    ∀ x ∈ s.closed ++ [c], ((I.out c).foldl (relaxR add I c) { s with opn := rest, closed := s.closed ++ [c] }).cost x = s.cost x := by
  have h1 := close_inv_r add I h.inv hs hg
  have hperm := sortOpen_perm_r s
  rw [hs] at hperm
  have hco : c ∈ s.opn := hperm.subset (by simp)
  have hro : ∀ x ∈ rest, x ∈ s.opn := fun x hx => hperm.subset (by simp [hx])
  obtain ⟨m1, m2, m3, m4, m5, m6⟩ := relaxAll_inv_r add I hsrc (c := c) (I.out c) h1 (by simp) (fun e he => he)
  refine ⟨⟨m1, ?_, ?_⟩, m2, m6⟩
  · intro x hx e he
    rw [m2] at hx
    rcases List.mem_append.1 hx with hx' | hx'
    · refine m3 x hx e ?_
      rcases h.relaxed x hx' e he with hr | ⟨hr1, hr2⟩
      · exact Or.inl (List.mem_append.2 (Or.inl hr))
      · rcases List.mem_cons.1 (hperm.symm.subset hr1) with hr3 | hr3
        · exact Or.inl (List.mem_append.2 (Or.inr (by simp [hr3])))
        · exact Or.inr ⟨hr3, hr2⟩
    · rw [List.mem_singleton.1 hx'] at he ⊢
      exact m5 e he
  · intro x hx
    rcases hx with hx | hx
    · rcases m4 x hx with hx | ⟨e, he, rfl⟩
      · exact h.inV x (Or.inl (hro x hx))
      · exact hV c (h.inV c (Or.inl hco)) e he
    · rw [m2] at hx
      rcases List.mem_append.1 hx with hx | hx
      · exact h.inV x (Or.inr hx)
      · rw [List.mem_singleton.1 hx]; exact h.inV c (Or.inl hco)

/-- The first iteration. -/
theorem first_step_r (add : K → K → K) (I : Input P K) (hsrc : ∀ n, ∀ e ∈ I.out n, e.src = n) {V : List Nat} (hV : ∀ n ∈ V, ∀ e ∈ I.out n, e.dst ∈ V)
    (hi : I.init ∈ V) (hg : isGoal I I.init = false) :
    HeadR add I V ((I.out I.init).foldl (relaxR add I I.init) { startR I with opn := [], closed := [I.init] }) ∧
    ((I.out I.init).foldl (relaxR add I I.init) { startR I with opn := [], closed := [I.init] }).closed = [I.init] ∧
    ∀ x ∈ [I.init], ((I.out I.init).foldl (relaxR add I I.init) { startR I with opn := [], closed := [I.init] }).cost x = 0 := by
  have h1 : InvR add I { startR I with opn := [], closed := [I.init] } := by
    refine ⟨by simp, by simp, by simp, rfl, rfl, by simp, by simp, ?_, by simp, by simpa using hg⟩
    intro l1 x l2 hl
    have hl' : [I.init] = l1 ++ x :: l2 := hl
    cases l1 with
    | nil => simp at hl'; exact Or.inl hl'.1.symm
    | cons a l1 => simp at hl'
  obtain ⟨m1, m2, m3, m4, m5, m6⟩ := relaxAll_inv_r add I hsrc (c := I.init) (I.out I.init) h1 (by simp) (fun e he => he)
  refine ⟨⟨m1, ?_, ?_⟩, m2, m6⟩
  · intro x hx e he
    rw [m2] at hx
    rw [List.mem_singleton.1 hx] at he ⊢
    exact m5 e he
  · intro x hx
    rcases hx with hx | hx
    · rcases m4 x hx with hx | ⟨e, he, rfl⟩
      · simp at hx
      · exact hV _ hi e he
    · rw [m2] at hx; rw [List.mem_singleton.1 hx]; exact hi

/-- Result of the loop from a state satisfying the invariant, with enough fuel. -/
theorem loop_spec_r (add : K → K → K) (I : Input P K) (hsrc : ∀ n, ∀ e ∈ I.out n, e.src = n) {V : List Nat} (hV : ∀ n ∈ V, ∀ e ∈ I.out n, e.dst ∈ V)
    (R : State P K → Prop) (hR : ∀ s c rest, HeadR add I V s → R s → sortOpen s = c :: rest → isGoal I c = false →
      R ((I.out c).foldl (relaxR add I c) { s with opn := rest, closed := s.closed ++ [c] }))
    (f : Nat) {s : State P K} (h : HeadR add I V s) (hr : R s) (hf : V.length + 1 ≤ f + s.closed.length) :
    (∃ n s', loopR add I f s = .found n s' ∧ isGoal I n = true ∧ HeadR add I V s' ∧ R s' ∧ ∃ rest, sortOpen s' = n :: rest) ∨
    (loopR add I f s = .failed ∧ ∃ s', HeadR add I V s' ∧ s'.opn = []) := by
  induction f generalizing s with
  | zero =>
    have hsub : s.closed.Subperm V := List.subperm_of_subset h.inv.closedNodup (fun x hx => h.inV x (Or.inr hx))
    have := hsub.length_le
    omega
  | succ f ih =>
    unfold loopR
    cases hs : sortOpen s with
    | nil =>
      refine Or.inr ⟨rfl, s, h, ?_⟩
      have := sortOpen_perm_r s
      rw [hs] at this
      exact List.nil_perm.1 this
    | cons c rest =>
      dsimp only
      cases hg : isGoal I c with
      | true => exact Or.inl ⟨c, s, rfl, hg, h, hr, rest, hs⟩
      | false =>
        simp only [Bool.false_eq_true, if_false]
        obtain ⟨k1, k2, _⟩ := head_step_r add I hsrc hV h hs hg
        refine ih k1 (hR s c rest h hr hs hg) ?_
        rw [k2]
        simp; omega

/-- Result of `findPath`. -/
theorem findPath_spec_r (add : K → K → K) (I : Input P K) (hsrc : ∀ n, ∀ e ∈ I.out n, e.src = n) {V : List Nat} (hi : I.init ∈ V)
    (hV : ∀ n ∈ V, ∀ e ∈ I.out n, e.dst ∈ V)
    (R : State P K → Prop) (hR : ∀ s c rest, HeadR add I V s → R s → sortOpen s = c :: rest → isGoal I c = false →
      R ((I.out c).foldl (relaxR add I c) { s with opn := rest, closed := s.closed ++ [c] }))
    (hR0 : isGoal I I.init = false → R ((I.out I.init).foldl (relaxR add I I.init) { startR I with opn := [], closed := [I.init] }))
    (f : Nat) (hf : V.length + 1 ≤ f) :
    (isGoal I I.init = true ∧ findPathR add I f = .found I.init (startR I)) ∨
    (∃ n s, findPathR add I f = .found n s ∧ isGoal I n = true ∧ HeadR add I V s ∧ R s ∧ ∃ rest, sortOpen s = n :: rest) ∨
    (findPathR add I f = .failed ∧ ∃ s, HeadR add I V s ∧ s.opn = []) := by
  cases f with
  | zero => omega
  | succ f =>
    have hs : sortOpen (startR I) = [I.init] := by simp [sortOpen, startR]
    unfold findPathR loopR
    rw [hs]
    dsimp only
    cases hg : isGoal I I.init with
    | true => exact Or.inl ⟨rfl, by simp⟩
    | false =>
      simp only [Bool.false_eq_true, if_false]
      obtain ⟨k1, k2, _⟩ := first_step_r add I hsrc hV hi hg
      have hst : ({ startR I with opn := [], closed := (startR I).closed ++ [I.init] } : State P K) =
          { startR I with opn := [], closed := [I.init] } := by simp [startR]
      rw [hst]
      refine Or.inr (loop_spec_r add I hsrc hV R hR f k1 (hR0 hg) ?_)
      rw [k2]; simp; omega

/-- Following the parents of a closed node. -/
theorem trace_closed_r (add : K → K → K) (I : Input P K) {s : State P K} (h : InvR add I s) (m : Nat) : ∀ l1 x l2, s.closed = l1 ++ x :: l2 → l1.length < m →
    ∃ p, Walk I.out I.init p x ∧ totalR add I.len p = s.cost x ∧ p.length + 1 ≤ m ∧ ∀ f acc, m ≤ f → trace s.parent f x acc = some (p ++ acc) := by
  induction m with
  | zero => intro l1 x l2 _ hm; omega
  | succ m ih =>
    intro l1 x l2 hl hm
    rcases h.closedParent l1 x l2 hl with rfl | ⟨e, hp⟩
    · refine ⟨[], .nil _, by rw [h.initCost]; rfl, by simp, ?_⟩
      intro f acc hf
      obtain ⟨f, rfl⟩ : ∃ f', f = f' + 1 := ⟨f - 1, by omega⟩
      unfold trace; rw [h.initParent]; rfl
    · obtain ⟨a, b, hab⟩ := List.append_of_mem hp.src
      obtain ⟨p, h1, h2, h0, h3⟩ := ih a e.src (b ++ x :: l2) (by rw [hl, hab]; simp) (by rw [hab] at hm; simp at hm; omega)
      refine ⟨p ++ [e], by have := h1.snoc hp.mem; rwa [hp.dst] at this, ?_, by simp; omega, ?_⟩
      · rw [totalR_snoc, h2, hp.cost]
      · intro f acc hf
        obtain ⟨f, rfl⟩ : ∃ f', f = f' + 1 := ⟨f - 1, by omega⟩
        unfold trace; rw [hp.parent]
        dsimp only
        rw [h3 f (e :: acc) (by omega)]; simp

theorem trace_open_r (add : K → K → K) (I : Input P K) {s : State P K} (h : InvR add I s) {x : Nat} (hx : x ∈ s.opn) :
    ∃ p, Walk I.out I.init p x ∧ totalR add I.len p = s.cost x ∧ p.length ≤ s.closed.length ∧
      ∀ f acc, s.closed.length + 1 ≤ f → trace s.parent f x acc = some (p ++ acc) := by
  obtain ⟨e, hp⟩ := h.openParent x hx
  obtain ⟨a, b, hab⟩ := List.append_of_mem hp.src
  obtain ⟨p, h1, h2, h0, h3⟩ := trace_closed_r add I h s.closed.length a e.src b hab (by rw [hab]; simp)
  refine ⟨p ++ [e], by have := h1.snoc hp.mem; rwa [hp.dst] at this, ?_, by simp; omega, ?_⟩
  · rw [totalR_snoc, h2, hp.cost]
  · intro f acc hf
    obtain ⟨f, rfl⟩ : ∃ f', f = f' + 1 := ⟨f - 1, by omega⟩
    unfold trace; rw [hp.parent]
    dsimp only
    rw [h3 f (e :: acc) (by omega)]; simp

/-- A walk from a closed node to a non-closed one leaves the closed set through a relaxed edge. -/
theorem walk_exit_r (add : K → K → K) (I : Input P K) {V : List Nat} {s : State P K} (h : HeadR add I V s) {a b : Nat} {p : List (Edge P)} (hp : Walk I.out a p b)
    (ha : a ∈ s.closed) (hb : b ∉ s.closed) :
    ∃ p1 x e q, p = p1 ++ e :: q ∧ Walk I.out a p1 x ∧ x ∈ s.closed ∧ e ∈ I.out x ∧ e.dst ∈ s.opn ∧
        s.cost e.dst ≤ add (s.cost x) (I.len e.path) ∧ Walk I.out e.dst q b := by
  induction hp with
  | nil a => exact absurd ha hb
  | @cons a b e p he hp ih =>
    by_cases hd : e.dst ∈ s.closed
    · obtain ⟨p1, x, e', q, h4, h5, h6⟩ := ih hd hb
      exact ⟨e :: p1, x, e', q, by simp [h4], .cons he h5, h6⟩
    · rcases h.relaxed a ha e he with hr | ⟨hr1, hr2⟩
      · exact absurd hr hd
      · exact ⟨[], a, e, p, by simp, .nil a, ha, he, hr1, hr2, hp⟩


theorem walk_in_r (I : Input P K) {V : List Nat} (hV : ∀ n ∈ V, ∀ e ∈ I.out n, e.dst ∈ V) {a b : Nat} {p : List (Edge P)}
    (hp : Walk I.out a p b) (ha : a ∈ V) : b ∈ V := by
  induction hp with
  | nil => exact ha
  | cons he _ ih => exact ih (hV _ ha _ he)

theorem isGoal_iff_r (I : Input P K) (n : Nat) : isGoal I n = true ↔ n ∈ I.goals := by
  simp [isGoal]

/-- All results on the search of one roadmap.  `R` is any invariant of the search. -/
theorem solution_spec_r (add : K → K → K) {W : List (Nat × Nat)} {r : Roadmap.Roadmap Q P} (h : Roadmap.Inv W r) {i : Nat} (hi : r.init = some i)
    (len : P → K) (heur : Nat → K) (R : State P K → Prop)
    (hR : ∀ s c rest, HeadR add (ofRoadmap r i len heur) (List.range r.configs.length) s → R s → sortOpen s = c :: rest → isGoal (ofRoadmap r i len heur) c = false →
      R ((r.out c).foldl (relaxR add (ofRoadmap r i len heur) c) { s with opn := rest, closed := s.closed ++ [c] }))
    (hR0 : isGoal (ofRoadmap r i len heur) i = false →
      R ((r.out i).foldl (relaxR add (ofRoadmap r i len heur) i) { startR (ofRoadmap r i len heur) with opn := [], closed := [i] }))
    (fuel : Nat) (hf : r.configs.length + 1 ≤ fuel) :
    (solutionR add (ofRoadmap r i len heur) fuel = .path i [] ∧ i ∈ r.goals) ∨
    (∃ g es s rest, solutionR add (ofRoadmap r i len heur) fuel = .path g es ∧ g ∈ r.goals ∧ Walk r.out i es g ∧ totalR add len es = s.cost g ∧
      HeadR add (ofRoadmap r i len heur) (List.range r.configs.length) s ∧ R s ∧ sortOpen s = g :: rest ∧ es.length ≤ r.configs.length) ∨
    (solutionR add (ofRoadmap r i len heur) fuel = .failed ∧ ∀ g ∈ r.goals, ¬ NodeReach r i g) := by
  set I := ofRoadmap r i len heur with hI
  have hsrc : ∀ n, ∀ e ∈ I.out n, e.src = n := fun n e he => (h.adj.outOk n e he).1
  have hV : ∀ n ∈ List.range r.configs.length, ∀ e ∈ I.out n, e.dst ∈ List.range r.configs.length := fun n _ e he =>
    List.mem_range.2 (h.adj.ends e (h.adj.outOk n e he).2).2
  have hiV : I.init ∈ List.range r.configs.length := List.mem_range.2 (h.init i hi)
  have hspec := findPath_spec_r add I hsrc hiV hV R hR hR0 fuel (by simpa using hf)
  rcases hspec with ⟨hg, hfound⟩ | ⟨n, s, hfound, hg, hh, ho, rest, hs⟩ | ⟨hfail, s, hh, hopn⟩
  · left
    refine ⟨?_, (isGoal_iff_r I i).1 hg⟩
    unfold solutionR
    rw [hfound]
    obtain ⟨f, rfl⟩ : ∃ f', fuel = f' + 1 := ⟨fuel - 1, by omega⟩
    simp [trace, startR, hI, ofRoadmap]
  · right; left
    have hn : n ∈ s.opn := (sortOpen_perm_r s).subset (by rw [hs]; simp)
    obtain ⟨p, h1, h2, h3, h4⟩ := trace_open_r add I hh.inv hn
    have hcl : s.closed.length ≤ r.configs.length := by
      have hsub : s.closed.Subperm (List.range r.configs.length) :=
        List.subperm_of_subset hh.inv.closedNodup (fun x hx => hh.inV x (Or.inr hx))
      simpa using hsub.length_le
    refine ⟨n, p, s, rest, ?_, (isGoal_iff_r I n).1 hg, h1, h2, hh, ho, hs, by omega⟩
    unfold solutionR
    rw [hfound]
    dsimp only
    rw [h4 fuel [] (by omega)]
    simp
  · right; right
    refine ⟨by unfold solutionR; rw [hfail], fun g hg hr => ?_⟩
    obtain ⟨p, hp⟩ := (nodeReach_iff_walk h.adj).1 hr
    have hclosed : ∀ a b p, Walk I.out a p b → a ∈ s.closed → b ∈ s.closed := by
      intro a b p hp
      induction hp with
      | nil => exact id
      | @cons a b e p he _ ih =>
        intro ha
        refine ih ?_
        rcases hh.relaxed a ha e he with hr | ⟨hr, _⟩
        · exact hr
        · rw [hopn] at hr; simp at hr
    have := hh.inv.notGoal g (hclosed i g p hp hh.inv.started)
    rw [(isGoal_iff_r I g).2 hg] at this; simp at this

end Any

section Rounded
open Verif.Rounding (Fl)
variable {Q P K : Type} [Field K] [LinearOrder K] [IsStrictOrderedRing K]

/-- Addition followed by a rounding. -/
def radd (F : Fl K) (x y : K) : K := F.rnd (x + y)

theorem radd_le (F : Fl K) {x y : K} (hx : 0 ≤ x) (hy : 0 ≤ y) : radd F x y ≤ (1 + F.u) * (x + y) := by
  have := F.err (x + y)
  rw [abs_of_nonneg (add_nonneg hx hy)] at this
  have := (abs_le.1 this).2
  unfold radd
  linarith

theorem le_radd (F : Fl K) {x y : K} (hx : 0 ≤ x) (hy : 0 ≤ y) : (1 - F.u) * (x + y) ≤ radd F x y := by
  have := F.err (x + y)
  rw [abs_of_nonneg (add_nonneg hx hy)] at this
  have := (abs_le.1 this).1
  unfold radd
  linarith

theorem radd_nonneg (F : Fl K) {x y : K} (hx : 0 ≤ x) (hy : 0 ≤ y) : 0 ≤ radd F x y := F.nonneg (add_nonneg hx hy)

/-- Factor between the computed costs and the exact ones, for each edge of a path: `u` is the relative error of additions, `η` that of the heuristic. -/
def factor (u η : K) : K := (1 + u) * (1 + u) * (1 + η) / (1 - u)

theorem factor_ge {u η : K} (hu : 0 ≤ u) (hu1 : u < 1) (hη : 0 ≤ η) : 1 + η ≤ factor u η := by
  unfold factor
  rw [le_div_iff₀ (by linarith)]
  have h1 : 1 ≤ (1 + u) * (1 + u) := by nlinarith
  have h2 : 0 ≤ 1 + η := by linarith
  nlinarith

/-- The heuristic is consistent up to a relative error. -/
structure NearCons (I : Input P K) (V : List Nat) (η : K) : Prop where
  η0 : 0 ≤ η
  len0 : ∀ a ∈ V, ∀ e ∈ I.out a, 0 ≤ I.len e.path
  heur0 : ∀ a ∈ V, 0 ≤ I.heur a
  cons : ∀ a ∈ V, ∀ e ∈ I.out a, I.heur a ≤ (1 + η) * (I.len e.path + I.heur e.dst)
  next : ∀ a ∈ V, ∀ e ∈ I.out a, e.dst ∈ V

theorem NearCons.total0 {I : Input P K} {V : List Nat} {η : K} (h : NearCons I V η) {a b : Nat} {p : List (Edge P)} (hp : Walk I.out a p b) (ha : a ∈ V) :
    0 ≤ total I.len p := total_nonneg I h.next h.len0 hp ha

theorem NearCons.walk {I : Input P K} {V : List Nat} {η : K} (h : NearCons I V η) {a b : Nat} {p : List (Edge P)} (hp : Walk I.out a p b) (ha : a ∈ V) :
    I.heur a ≤ (1 + η) ^ p.length * (total I.len p + I.heur b) := by
  have hη := h.η0
  induction hp with
  | nil => simp
  | @cons a b e p he hw ih =>
    have h1 := h.cons a ha e he
    have h2 := ih (h.next a ha e he)
    have h3 := h.len0 a ha e he
    have hq : 1 ≤ (1 + η) ^ p.length := one_le_pow₀ (by linarith)
    rw [total_cons, List.length_cons, pow_succ']
    have h4 : I.len e.path + I.heur e.dst ≤ (1 + η) ^ p.length * (I.len e.path + total I.len p + I.heur b) := by
      have := mul_le_mul_of_nonneg_right hq h3
      rw [add_assoc, mul_add]
      linarith
    calc _ ≤ _ := h1
      _ ≤ (1 + η) * ((1 + η) ^ p.length * (I.len e.path + total I.len p + I.heur b)) := mul_le_mul_of_nonneg_left h4 (by linarith)
      _ = _ := by ring

theorem totalR_nonneg {I : Input P K} {V : List Nat} {η : K} (h : NearCons I V η) (F : Fl K) {a b : Nat} {p : List (Edge P)} (hp : Walk I.out a p b) (ha : a ∈ V) :
    0 ≤ totalR (radd F) I.len p := by
  have : ∀ acc, 0 ≤ acc → 0 ≤ p.foldl (fun x e => radd F x (I.len e.path)) acc := by
    induction hp with
    | nil => intro acc h; exact h
    | @cons a b e p he _ ih => intro acc h0; exact ih (h.next a ha e he) _ (radd_nonneg F h0 (h.len0 a ha e he))
  exact this 0 le_rfl

/-- Closed nodes: the cost computed is close to the optimal one. -/
def OptR (F : Fl K) (η : K) (I : Input P K) (s : State P K) : Prop := ∀ x ∈ s.closed, ∀ p, Walk I.out I.init p x →
  s.cost x + I.heur x ≤ factor F.u η ^ p.length * (total I.len p + I.heur x)

theorem cost_nonneg {F : Fl K} {η : K} {I : Input P K} {V : List Nat} (hn : NearCons I V η) (hi : I.init ∈ V) {s : State P K} (h : HeadR (radd F) I V s)
    {x : Nat} (hx : x ∈ s.opn ∨ x ∈ s.closed) : 0 ≤ s.cost x := by
  rcases hx with hx | hx
  · obtain ⟨p, h1, h2, _⟩ := trace_open_r (radd F) I h.inv hx
    rw [← h2]; exact totalR_nonneg hn F h1 hi
  · obtain ⟨a, b, hab⟩ := List.append_of_mem hx
    obtain ⟨p, h1, h2, _⟩ := trace_closed_r (radd F) I h.inv (a.length + 1) a x b hab (by omega)
    rw [← h2]; exact totalR_nonneg hn F h1 hi

theorem sortOpen_min_r {s : State P K} {c : Nat} {rest : List Nat} (h : sortOpen s = c :: rest) : ∀ x ∈ s.opn, s.est c ≤ s.est x := sortOpen_min h

theorem head_best_r {F : Fl K} (hu : F.u < 1) {η : K} {I : Input P K} {V : List Nat} (hn : NearCons I V η) (hi : I.init ∈ V) {s : State P K}
    (h : HeadR (radd F) I V s) (ho : OptR F η I s) {c : Nat} {rest : List Nat} (hs : sortOpen s = c :: rest) {v : Nat} (hv : v ∉ s.closed) {p : List (Edge P)}
    (hp : Walk I.out I.init p v) : s.cost c + I.heur c ≤ factor F.u η ^ p.length * (total I.len p + I.heur v) := by
  obtain ⟨p1, x, e, q, h1, h2, h3, h4, h5, h6, h7⟩ := walk_exit_r (radd F) I h hp h.inv.started hv
  have hu0 := F.u0
  have hη := hn.η0
  have hc : c ∈ s.opn := (sortOpen_perm_r s).subset (by rw [hs]; simp)
  have h8 := sortOpen_min hs e.dst h5
  rw [h.inv.est c hc, h.inv.est _ h5] at h8
  have hxV := h.inV x (Or.inr h3)
  have hmV := h.inV e.dst (Or.inl h5)
  have hcV := h.inV c (Or.inl hc)
  have hvV := walk_in_r I hn.next hp hi
  have n1 := cost_nonneg hn hi h (Or.inl hc)
  have n2 := cost_nonneg hn hi h (Or.inr h3)
  have n3 := cost_nonneg hn hi h (Or.inl h5)
  have n4 := hn.len0 x hxV e h4
  have g1 := le_radd F n1 (hn.heur0 c hcV)
  have g2 := radd_le F n3 (hn.heur0 _ hmV)
  have g3 := h6.trans (radd_le F n2 n4)
  have h9 := ho x h3 p1 h2
  have c1 := hn.walk h7 hmV
  have c2 := hn.walk (.cons h4 h7) hxV
  have t1 := hn.total0 h2 hi
  have t2 := hn.total0 h7 hmV
  have hv0 := hn.heur0 v hvV
  rw [List.length_cons, total_cons] at c2
  rw [h1, total_append, total_cons, List.length_append, List.length_cons]
  have hf := factor_ge hu0 hu hη
  have hf1 : 1 ≤ factor F.u η := by linarith
  set A := factor F.u η ^ p1.length with hA
  set B := (1 + η) ^ (q.length + 1) with hB
  have hA1 : 1 ≤ A := one_le_pow₀ hf1
  have hB1 : 1 ≤ B := one_le_pow₀ (by linarith)
  -- the sum for the first open node
  set rest' := I.len e.path + total I.len q + I.heur v with hrest
  have hr0 : 0 ≤ rest' := by positivity
  have c3 : I.len e.path + I.heur e.dst ≤ B * rest' := by
    have hq1 : 1 ≤ (1 + η) ^ q.length := one_le_pow₀ (by linarith)
    have e1 : B = (1 + η) ^ q.length * (1 + η) := by rw [hB, pow_succ]
    have hle : (1 + η) ^ q.length ≤ B := by rw [e1]; nlinarith
    have k1 : (1 + η) ^ q.length * (total I.len q + I.heur v) ≤ B * (total I.len q + I.heur v) := mul_le_mul_of_nonneg_right hle (by positivity)
    have k2 : I.len e.path ≤ B * I.len e.path := by nlinarith
    rw [hrest, add_assoc, mul_add]
    linarith
  have s1 : s.cost x + I.len e.path + I.heur e.dst ≤ A * B * (total I.len p1 + rest') := by
    have k1 : s.cost x ≤ A * total I.len p1 + (A - 1) * I.heur x := by linarith
    have k2 : (A - 1) * I.heur x ≤ (A - 1) * (B * rest') := mul_le_mul_of_nonneg_left c2 (by linarith)
    have k3 : A * total I.len p1 ≤ A * B * total I.len p1 := by
      refine mul_le_mul_of_nonneg_right ?_ t1
      nlinarith
    linarith
  have s2 : s.cost e.dst + I.heur e.dst ≤ (1 + F.u) * (A * B * (total I.len p1 + rest')) := by
    have k1 := mul_le_mul_of_nonneg_left s1 (show (0 : K) ≤ 1 + F.u by linarith)
    have k2 : I.heur e.dst ≤ (1 + F.u) * I.heur e.dst := by
      have := hn.heur0 _ hmV
      nlinarith
    linarith
  have s3 : (1 - F.u) * (s.cost c + I.heur c) ≤ (1 + F.u) * ((1 + F.u) * (A * B * (total I.len p1 + rest'))) := by
    have k1 := mul_le_mul_of_nonneg_left s2 (show (0 : K) ≤ 1 + F.u by linarith)
    linarith
  have s4 : s.cost c + I.heur c ≤ (1 + F.u) * ((1 + F.u) * (A * B * (total I.len p1 + rest'))) / (1 - F.u) := by
    rw [le_div_iff₀ (by linarith)]
    linarith
  have s5 : (1 + F.u) * ((1 + F.u) * (A * B * (total I.len p1 + rest'))) / (1 - F.u) =
      A * factor F.u η * (1 + η) ^ q.length * (total I.len p1 + rest') := by
    rw [hB, pow_succ]
    unfold factor
    field_simp
  have s6 : A * factor F.u η * (1 + η) ^ q.length ≤ factor F.u η ^ (p1.length + (q.length + 1)) := by
    have k1 : (1 + η) ^ q.length ≤ factor F.u η ^ q.length := pow_le_pow_left₀ (by linarith) hf _
    rw [pow_add, pow_succ', ← hA]
    have k2 : 0 ≤ A * factor F.u η := by positivity
    calc _ ≤ A * factor F.u η * factor F.u η ^ q.length := mul_le_mul_of_nonneg_left k1 k2
      _ = _ := by ring
  have s7 := mul_le_mul_of_nonneg_right s6 (show 0 ≤ total I.len p1 + rest' by positivity)
  have e2 : total I.len p1 + (I.len e.path + total I.len q) + I.heur v = total I.len p1 + rest' := by rw [hrest]; ring
  rw [e2]
  linarith

theorem optR_step {F : Fl K} (hu : F.u < 1) {η : K} {I : Input P K} (hsrc : ∀ n, ∀ e ∈ I.out n, e.src = n) {V : List Nat} (hn : NearCons I V η) (hi : I.init ∈ V) :
    ∀ s c rest, HeadR (radd F) I V s → OptR F η I s → sortOpen s = c :: rest → isGoal I c = false →
      OptR F η I ((I.out c).foldl (relaxR (radd F) I c) { s with opn := rest, closed := s.closed ++ [c] }) := by
  intro s c rest h ho hs hg x hx p hp
  obtain ⟨_, k2, k3⟩ := head_step_r (radd F) I hsrc hn.next h hs hg
  rw [k2] at hx
  rw [k3 x hx]
  rcases List.mem_append.1 hx with hx | hx
  · exact ho x hx p hp
  · rw [List.mem_singleton.1 hx] at hp ⊢
    have hc : c ∈ s.opn := (sortOpen_perm_r s).subset (by rw [hs]; simp)
    exact head_best_r hu hn hi h ho hs (h.inv.disjoint c hc) hp

theorem optR_first {F : Fl K} (hu : F.u < 1) {η : K} {I : Input P K} (hsrc : ∀ n, ∀ e ∈ I.out n, e.src = n) {V : List Nat} (hn : NearCons I V η) (hi : I.init ∈ V)
    (hg : isGoal I I.init = false) :
    OptR F η I ((I.out I.init).foldl (relaxR (radd F) I I.init) { startR I with opn := [], closed := [I.init] }) := by
  intro x hx p hp
  obtain ⟨_, k2, k3⟩ := first_step_r (radd F) I hsrc hn.next hi hg
  rw [k2] at hx
  rw [k3 x hx]
  rw [List.mem_singleton.1 hx] at hp ⊢
  have h1 := hn.total0 hp hi
  have h2 := hn.heur0 _ hi
  have h3 : 1 ≤ factor F.u η ^ p.length := one_le_pow₀ (by linarith [factor_ge F.u0 hu hn.η0, hn.η0])
  nlinarith

/-- Rounding errors of a sum. -/
theorem totalR_ge (F : Fl K) (hu : F.u < 1) (len : P → K) (p : List (Edge P)) (h0 : ∀ e ∈ p, 0 ≤ len e.path) :
    (1 - F.u) ^ p.length * total len p ≤ totalR (radd F) len p := by
  have hu0 := F.u0
  have : ∀ acc, 0 ≤ acc → (1 - F.u) ^ p.length * (acc + total len p) ≤ p.foldl (fun x e => radd F x (len e.path)) acc := by
    induction p with
    | nil => intro acc _; simp
    | cons e p ih =>
      intro acc ha
      have he := h0 e (by simp)
      have hp0 : 0 ≤ total len p := List.sum_nonneg (by
        intro x hx
        obtain ⟨e', he', rfl⟩ := List.mem_map.1 hx
        exact h0 e' (by simp [he']))
      have h1 := ih (fun e he => h0 e (by simp [he])) _ (radd_nonneg F ha he)
      have h2 := le_radd F ha he
      rw [total_cons, List.length_cons, List.foldl_cons, pow_succ]
      refine le_trans ?_ h1
      rw [mul_assoc]
      refine mul_le_mul_of_nonneg_left ?_ (pow_nonneg (by linarith) _)
      have : (1 - F.u) * total len p ≤ total len p := by nlinarith
      linarith
  have := this 0 le_rfl
  rwa [zero_add] at this

end Rounded

/-! ## C149 -/

/-- With exact additions, the search is that of `Verif.AStar.Model`. -/
theorem solutionR_exact {P K : Type} [AddCommGroup K] [LinearOrder K] (I : Input P K) (fuel : Nat) : solutionR (· + ·) I fuel = solution I fuel := by
  have h : ∀ f s, loopR (· + ·) I f s = loop I f s := by
    intro f
    induction f with
    | zero => intro s; rfl
    | succ f ih =>
      intro s
      unfold loopR loop
      cases hs : sortOpen s with
      | nil => rfl
      | cons c rest =>
        dsimp only
        split
        · rfl
        · exact ih _
  unfold solutionR solution findPathR findPath
  rw [h]
  rfl

/-- **C149 (answers).**  Whatever the errors of additions, in the roadmap obtained by any history of calls, the search ends, throws iff no goal can be reached from the init node, and
returns otherwise a chain of edges of the roadmap from the init node to a goal. -/
theorem C149_answers {Q P K : Type} [DecidableEq Q] [AddCommGroup K] [LinearOrder K] (add : K → K → K) (E : Env Q P K) (os : List (Op Q P)) (r : Roadmap.Roadmap Q P) (hr : run E empty os = .ok r) (i : Nat) (hi : r.init = some i)
    (len : P → K) (heur : Nat → K) (fuel : Nat) (hf : r.configs.length + 1 ≤ fuel) :
    (solutionR add (ofRoadmap r i len heur) fuel = .failed ∧ ∀ g ∈ r.goals, ¬ NodeReach r i g) ∨
    ∃ g es, solutionR add (ofRoadmap r i len heur) fuel = .path g es ∧ g ∈ r.goals ∧ Chain r i es g ∧ es.length ≤ r.configs.length := by
  have hinv := run_inv E os Roadmap.Inv.empty hr
  rcases solution_spec_r add hinv hi len heur (fun _ => True) (fun _ _ _ _ _ _ _ => trivial) (fun _ => trivial) fuel hf with
    ⟨h1, h2⟩ | ⟨g, es, s, rest, h1, h2, h3, _, _, _, _, h4⟩ | ⟨h1, h2⟩
  · exact Or.inr ⟨i, [], h1, h2, rfl, by simp⟩
  · exact Or.inr ⟨g, es, h1, h2, h3.chain hinv.adj, h4⟩
  · exact Or.inl ⟨h1, h2⟩

section Near
open Verif.Rounding (Fl)
variable {Q P K : Type} [DecidableEq Q] [Field K] [LinearOrder K] [IsStrictOrderedRing K]

/-- **C149 (length).**  With additions rounded with a relative error `u`, and a heuristic that is consistent up to a relative error `η`, the length computed by the search for the path it returns,
and the exact length of this path, exceed the length of any chain of `k` edges from the init node to a goal by a factor at most `(1 + u)²(1 + η)/(1 - u)` per edge of this chain (and `1/(1 - u)` per edge of the path returned for the exact length).
Two edges between the same nodes in the same direction must have the same length (see `C14_parallel_counterexample`). -/
theorem C149_near_partial (F : Fl K) (hu : F.u < 1) (E : Env Q P K) (os : List (Op Q P)) (r : Roadmap.Roadmap Q P) (hr : run E empty os = .ok r) (i : Nat) (hi : r.init = some i)
    (len : P → K) (heur : Nat → K) (η : K) (hη : 0 ≤ η) (hlen : ∀ e ∈ r.edges, 0 ≤ len e.path) (hheur : ∀ n < r.configs.length, 0 ≤ heur n)
    (hcons : ∀ e ∈ r.edges, heur e.src ≤ (1 + η) * (len e.path + heur e.dst)) (hgoal : ∀ g ∈ r.goals, heur g = 0)
    (hpar : ∀ e ∈ r.edges, ∀ e' ∈ r.edges, e.src = e'.src → e.dst = e'.dst → len e.path = len e'.path)
    (fuel : Nat) (hf : r.configs.length + 1 ≤ fuel) (g : Nat) (es : List (Edge P)) (h : solutionR (radd F) (ofRoadmap r i len heur) fuel = .path g es)
    (g' : Nat) (hg' : g' ∈ r.goals) (p : List (Edge P)) (hp : Chain r i p g') :
    es.foldl (fun a e => F.rnd (a + len e.path)) 0 ≤ ((1 + F.u) * (1 + F.u) * (1 + η) / (1 - F.u)) ^ p.length * (p.map (fun e => len e.path)).sum ∧
    (1 - F.u) ^ es.length * (es.map (fun e => len e.path)).sum ≤
      ((1 + F.u) * (1 + F.u) * (1 + η) / (1 - F.u)) ^ p.length * (p.map (fun e => len e.path)).sum := by
  have hinv := run_inv E os Roadmap.Inv.empty hr
  obtain ⟨q, hq, hqt, hql⟩ : ∃ q, Walk r.out i q g' ∧ total len q = total len p ∧ q.length = p.length := by
    clear h hi
    induction p generalizing i with
    | nil => obtain rfl : i = g' := hp; exact ⟨[], .nil i, rfl, rfl⟩
    | cons e p ih =>
      obtain ⟨he, rfl, hc⟩ := hp
      obtain ⟨q, h1, h2, h3⟩ := ih _ hc
      obtain ⟨e', k1, _, k3, k4⟩ := hinv.adj.listed e he
      refine ⟨e' :: q, .cons k1 (by rw [k4]; exact h1), ?_, by simp [h3]⟩
      rw [total_cons, total_cons, h2, hpar e he e' (hinv.adj.outOk _ _ k1).2 k3.symm k4.symm]
  set I := ofRoadmap r i len heur with hI
  have hsrc : ∀ n, ∀ e ∈ I.out n, e.src = n := fun n e he => (hinv.adj.outOk n e he).1
  have hiV : I.init ∈ List.range r.configs.length := List.mem_range.2 (hinv.init i hi)
  have hn : NearCons I (List.range r.configs.length) η := by
    refine ⟨hη, fun a _ e he => hlen e (hinv.adj.outOk a e he).2, fun a ha => hheur a (List.mem_range.1 ha), fun a _ e he => ?_, fun a _ e he => ?_⟩
    · have := hcons e (hinv.adj.outOk a e he).2
      rw [(hinv.adj.outOk a e he).1] at this
      exact this
    · exact List.mem_range.2 (hinv.adj.ends e (hinv.adj.outOk a e he).2).2
  have key : ∀ es : List (Edge P), (∀ e ∈ es, e ∈ r.edges) → totalR (radd F) len es ≤ factor F.u η ^ q.length * total len q →
      es.foldl (fun a e => F.rnd (a + len e.path)) 0 ≤ ((1 + F.u) * (1 + F.u) * (1 + η) / (1 - F.u)) ^ p.length * (p.map (fun e => len e.path)).sum ∧
      (1 - F.u) ^ es.length * (es.map (fun e => len e.path)).sum ≤
        ((1 + F.u) * (1 + F.u) * (1 + η) / (1 - F.u)) ^ p.length * (p.map (fun e => len e.path)).sum := by
    intro es he hle
    rw [hqt, hql] at hle
    exact ⟨hle, (totalR_ge F hu len es (fun e h => hlen e (he e h))).trans hle⟩
  have hmem : ∀ {a b : Nat} {w : List (Edge P)}, Walk r.out a w b → ∀ e ∈ w, e ∈ r.edges := by
    intro a b w hw
    induction hw with
    | nil => simp
    | @cons a b e w he _ ih =>
      intro e' he'
      rcases List.mem_cons.1 he' with rfl | he'
      · exact (hinv.adj.outOk _ _ he).2
      · exact ih e' he'
  have hf0 : 0 ≤ factor F.u η ^ q.length * total len q :=
    mul_nonneg (pow_nonneg (by linarith [factor_ge F.u0 hu hη]) _) (hn.total0 hq hiV)
  rcases solution_spec_r (radd F) hinv hi len heur (OptR F η I) (optR_step hu hsrc hn hiV) (optR_first hu hsrc hn hiV) fuel hf with
    ⟨h1, h2⟩ | ⟨g1, es1, s, rest, h1, h2, h3, h4, h5, h6, h7, _⟩ | ⟨h1, _⟩
  · rw [h] at h1
    simp only [Solution.path.injEq] at h1
    obtain ⟨rfl, rfl⟩ := h1
    exact key [] (by simp) (by simpa [totalR] using hf0)
  · rw [h] at h1
    simp only [Solution.path.injEq] at h1
    obtain ⟨rfl, rfl⟩ := h1
    refine key es (hmem h3) ?_
    have hnc : g' ∉ s.closed := fun hc => by
      have := h5.inv.notGoal g' hc
      rw [(isGoal_iff_r I g').2 hg'] at this; simp at this
    have := head_best_r hu hn hiV h5 h6 h7 hnc hq
    have e1 : I.heur g = 0 := hgoal g h2
    have e2 : I.heur g' = 0 := hgoal g' hg'
    rw [e1, e2, add_zero, add_zero, ← h4] at this
    exact this
  · rw [h] at h1; simp at h1

omit [DecidableEq Q] [Field K] [IsStrictOrderedRing K] in
theorem heuristicLoop_mem (dist : Q → Q → K) (inf : K) (hinf : ∀ a b, dist a b < inf) (q : Q) (gs : List Q) (h : gs ≠ []) :
    (∃ x ∈ gs, heuristicLoop dist q gs inf = dist q x) ∧ ∀ x ∈ gs, heuristicLoop dist q gs inf ≤ dist q x := by
  obtain ⟨⟨_, h2⟩, h3⟩ := heuristicLoop_spec dist q gs inf
  refine ⟨?_, h2⟩
  rcases h3 with h3 | h3
  · obtain ⟨x, hx⟩ := List.exists_mem_of_ne_nil gs h
    have := h2 x hx
    rw [h3] at this
    exact absurd (hinf q x) (not_lt.2 this)
  · exact h3

/-- **C149 (length, with the heuristic of the code).**  The distance is computed with errors: it satisfies the triangle inequality up to a relative error `η`.  Edges are at least as long as the distance
computed between their ends.  The path vector returned, whose paths have the time ranges `rng`, has a computed length (end of its time range) within the given factor of the exact length of any chain of edges from the init node to a goal. -/
theorem C149_distance_partial (F : Fl K) (hu : F.u < 1) (E : Env Q P K) (inf : K) (hinf : ∀ a b, E.dist a b < inf) (hpos : ∀ a b, 0 ≤ E.dist a b) (hzero : ∀ a, E.dist a a = 0)
    (η : K) (hη : 0 ≤ η) (htri : ∀ a b c, E.dist a c ≤ (1 + η) * (E.dist a b + E.dist b c))
    (os : List (Op Q P)) (r : Roadmap.Roadmap Q P) (hr : run E empty os = .ok r) (i : Nat) (hi : r.init = some i) (rng : P → K × K)
    (hlen : ∀ e ∈ r.edges, ∀ a b, r.configs[e.src]? = some a → r.configs[e.dst]? = some b → E.dist a b ≤ Rounding.len F (rng e.path))
    (hpar : ∀ e ∈ r.edges, ∀ e' ∈ r.edges, e.src = e'.src → e.dst = e'.dst → Rounding.len F (rng e.path) = Rounding.len F (rng e'.path))
    (fuel : Nat) (hf : r.configs.length + 1 ≤ fuel) (g : Nat) (es : List (Edge P))
    (h : solutionR (radd F) (ofRoadmap r i (fun p => Rounding.len F (rng p)) (heuristic E.dist inf r)) fuel = .path g es)
    (g' : Nat) (hg' : g' ∈ r.goals) (p : List (Edge P)) (hp : Chain r i p g') :
    Rounding.total F (es.map fun e => rng e.path) ≤
      ((1 + F.u) * (1 + F.u) * (1 + η) / (1 - F.u)) ^ p.length * (p.map (fun e => Rounding.len F (rng e.path))).sum := by
  have hinv := run_inv E os Roadmap.Inv.empty hr
  have conf : ∀ n, n < r.configs.length → ∃ q, r.configs[n]? = some q := fun n hn => ⟨_, List.getElem?_eq_getElem hn⟩
  have hne : r.goals.filterMap (fun g => r.configs[g]?) ≠ [] := by
    obtain ⟨q, hq⟩ := conf g' (hinv.goals g' hg')
    exact List.ne_nil_of_mem (List.mem_filterMap.2 ⟨g', hg', hq⟩)
  have hloop := fun q => heuristicLoop_mem E.dist inf hinf q _ hne
  have main := C149_near_partial F hu E os r hr i hi (fun p => Rounding.len F (rng p)) (heuristic E.dist inf r) η hη ?_ ?_ ?_ ?_ hpar fuel hf g es h g' hg' p hp
  · have e1 : Rounding.total F (es.map fun e => rng e.path) = es.foldl (fun a e => F.rnd (a + Rounding.len F (rng e.path))) 0 := by
      unfold Rounding.total
      rw [List.foldl_map]
    rw [e1]
    exact main.1
  · intro e he
    obtain ⟨a, ha⟩ := conf _ (hinv.adj.ends e he).1
    obtain ⟨b, hb⟩ := conf _ (hinv.adj.ends e he).2
    exact le_trans (hpos a b) (hlen e he a b ha hb)
  · intro n hn
    obtain ⟨q, hq⟩ := conf n hn
    unfold heuristic
    rw [hq]
    obtain ⟨x, _, h1⟩ := (hloop q).1
    show 0 ≤ heuristicLoop E.dist q _ inf
    rw [h1]; exact hpos _ _
  · intro e he
    obtain ⟨a, ha⟩ := conf _ (hinv.adj.ends e he).1
    obtain ⟨b, hb⟩ := conf _ (hinv.adj.ends e he).2
    unfold heuristic
    rw [ha, hb]
    dsimp only
    obtain ⟨x, hx, h1⟩ := (hloop b).1
    have h2 := (hloop a).2 x hx
    rw [h1]
    refine le_trans h2 (le_trans (htri a b x) (mul_le_mul_of_nonneg_left (add_le_add_left (hlen e he a b ha hb) _) (by linarith)))
  · intro x hx
    obtain ⟨q, hq⟩ := conf x (hinv.goals x hx)
    unfold heuristic
    rw [hq]
    dsimp only
    have h2 := (hloop q).2 q (List.mem_filterMap.2 ⟨x, hx, hq⟩)
    rw [hzero] at h2
    obtain ⟨y, _, h1⟩ := (hloop q).1
    exact le_antisymm h2 (by rw [h1]; exact hpos _ _)

end Near

/-! ## Double precision -/

/-- Points on a line, a path is its length. -/
def ratEnv : Env ℚ ℚ ℚ := ⟨fun a b => |a - b|, id, fun _ => false⟩

/-- What the search returns at the end of a history, with numbers of type `double`: the goal, the edges and the exact length. -/
def resultR (os : List (Op ℚ ℚ)) : Option (Nat × List (Nat × Nat) × ℚ) :=
  match run ratEnv empty os with
  | .error _ => none
  | .ok r =>
    match r.init with
    | none => none
    | some i =>
      match solutionR (radd Rounding.double) (ofRoadmap r i id (heuristic ratEnv.dist 1000 r)) (r.configs.length + 1) with
      | .path g es => some (g, es.map (fun e => (e.src, e.dst)), (es.map fun e => e.path).sum)
      | _ => none

/-- From 0 to 1 through 1/2 or through 1/4: lengths 3/2 + 2⁻⁵⁴ and 3/2. -/
def twoWays : List (Op ℚ ℚ) :=
  [.initNode 0, .addNode (1 / 2), .addNode (1 / 4), .addGoalNode 1, .addEdge 0 1 1, .addEdge 0 2 (3 / 4), .addEdge 1 3 (1 / 2 + 1 / 2 ^ 54), .addEdge 2 3 (3 / 4)]

/-- **C149 (counterexample).**  With numbers of type `double` the path returned is not always a shortest one: through 1/2, the length is 3/2 + 2⁻⁵⁴, but the search finds 3/2, as through 1/4.  With exact numbers it is the other way round. -/
theorem C149_shortest_counterexample :
    resultR twoWays = some (3, [(0, 1), (1, 3)], 3 / 2 + 1 / 2 ^ 54) ∧
    (∃ r, run ratEnv empty twoWays = .ok r ∧ r.edges.map (fun e => (e.src, e.dst, e.path)) = [(0, 1, 1), (0, 2, 3 / 4), (1, 3, 1 / 2 + 1 / 2 ^ 54), (2, 3, 3 / 4)]) ∧
    (3 / 4 + 3 / 4 : ℚ) < 3 / 2 + 1 / 2 ^ 54 := by
  refine ⟨by decide +kernel, ?_, by norm_num⟩
  have h : (match run ratEnv empty twoWays with
    | .error _ => none
    | .ok r => some (r.edges.map (fun e => (e.src, e.dst, e.path)))) = some [(0, 1, 1), (0, 2, 3 / 4), (1, 3, 1 / 2 + 1 / 2 ^ 54), (2, 3, 3 / 4)] := by
    decide +kernel
  split at h
  · simp at h
  · rename_i r hr
    exact ⟨r, hr, by simpa using h⟩

/-- The hypotheses of `C149_distance_partial` on the distance, and of both theorems on the rounding, hold with numbers of type `double` and the distance on the line; a search that finds a path of two edges. -/
example : Rounding.double.u < 1 ∧ (∀ a b, 0 ≤ ratEnv.dist a b) ∧ (∀ a, ratEnv.dist a a = 0) ∧
    (∀ a b c, ratEnv.dist a c ≤ (1 + 0) * (ratEnv.dist a b + ratEnv.dist b c)) ∧
    resultR [.initNode 0, .addNode (1 / 3), .addGoalNode 1, .addEdge 0 1 (1 / 3), .addEdge 1 2 (2 / 3)] = some (2, [(0, 1), (1, 2)], 1) := by
  refine ⟨by show (2⁻¹ : ℚ) ^ 53 < 1; norm_num, fun a b => abs_nonneg _, fun a => by simp [ratEnv], fun a b c => ?_, by decide +kernel⟩
  rw [add_zero, one_mul]
  exact abs_sub_le _ _ _

/-- The factor of `C149_near_partial` for a chain of 1000 edges with numbers of type `double` and an exact heuristic: the error is less than 10⁻¹². -/
example : ((1 + Rounding.double.u) * (1 + Rounding.double.u) * (1 + 0) / (1 - Rounding.double.u)) ^ 1000 < 1 + 1 / 10 ^ 12 := by
  decide +kernel

end Verif.AStar
