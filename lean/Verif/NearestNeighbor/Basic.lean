import Mathlib.Order.Defs.LinearOrder
import Mathlib.Order.Basic
import Mathlib.Data.Nat.Basic
import Mathlib.Data.List.Perm.Basic
import Mathlib.Tactic.Common

/-!
# Linear K-nearest and ball searches (`nearestNeighbor::Basic`), C16, C17

Nodes are of an arbitrary type `N`; `dist` is the distance from the node to the query (src/nearest-neighbor/basic.cc
evaluates `dist(node->configuration(), q)`).  Distances are in a linear order (no NaN).
-/
namespace Verif.NN
variable {N K H : Type} [LinearOrder K]

/-- `std::priority_queue<DistAndNode_t, …, DistAndNodeComp_t>` (basic.cc:41-49), any implementation: a type of queues with
its operations.  Which of the elements with largest distance is on top is left open. -/
structure PQ (N K H : Type) [LinearOrder K] where
  content : H → List (K × N)
  empty : H
  push : K × N → H → H
  /-- `top()`; `none` on an empty queue, where C++ has undefined behaviour. -/
  top : H → Option (K × N)
  pop : H → H
  content_empty : content empty = []
  content_push : ∀ x h, (content (push x h)).Perm (x :: content h)
  top_none : ∀ h, top h = none ↔ content h = []
  top_pop : ∀ h x, top h = some x → (content h).Perm (x :: content (pop h))
  top_max : ∀ h x, top h = some x → ∀ y ∈ content h, y.1 ≤ x.1

/-- Loop of `Basic::KnearestSearch`: src/nearest-neighbor/basic.cc:100-110 (also 126-136, 151-160).
`none` is undefined behaviour (`top()` of an empty queue). -/
def kLoop (Q : PQ N K H) (dist : N → K) (k : Nat) : List N → H → Option H
  | [], h => some h
  | n :: ns, h =>
    if (Q.content h).length < k then kLoop Q dist k ns (Q.push (dist n, n) h)
    else
      match Q.top h with
      | none => none
      | some t =>
        if dist n < t.1 then kLoop Q dist k ns (Q.push (dist n, n) (Q.pop h))
        else kLoop Q dist k ns h

/-- `while (ns.size() > 0) { nodes.push_front(top); pop; }`: basic.cc:113-116.  The fuel is the size of the queue. -/
def drain (Q : PQ N K H) : Nat → H → List N → List N
  | 0, _, acc => acc
  | f + 1, h, acc =>
    match Q.top h with
    | none => acc
    | some t => drain Q f (Q.pop h) (t.2 :: acc)

/-- `Basic::KnearestSearch`: basic.cc:94-118 (same text 120-144, 146-168).  Returns the nodes and the
reported distance, `none` for `infinity`; outer `none` is undefined behaviour. -/
def kNearest (Q : PQ N K H) (dist : N → K) (k : Nat) (nodes : List N) : Option (List N × Option K) :=
  match kLoop Q dist k nodes Q.empty with
  | none => none
  | some h => some (drain Q (Q.content h).length h [], (Q.top h).map (·.1))

/-- Loop of `Basic::withinBall`: basic.cc:175-179. -/
def ballLoop (dist : N → K) (r : K) : List N → List N → List N
  | [], acc => acc
  | n :: ns, acc => if dist n < r then ballLoop dist r ns (acc ++ [n]) else ballLoop dist r ns acc

/-- `Basic::withinBall`: basic.cc:170-181. -/
def withinBall (dist : N → K) (r : K) (nodes : List N) : List N := ballLoop dist r nodes []

/-! ## Lemmas -/

/-- Invariant of the loop: the queue holds the `k` closest of the visited nodes. -/
structure KInv (Q : PQ N K H) (dist : N → K) (k : Nat) (done : List N) (h : H) (rest : List (K × N)) : Prop where
  perm : (Q.content h ++ rest).Perm (done.map (fun n => (dist n, n)))
  size : (Q.content h).length = min k done.length
  closer : ∀ x ∈ Q.content h, ∀ y ∈ rest, x.1 ≤ y.1

theorem kLoop_spec (Q : PQ N K H) (dist : N → K) (k : Nat) (hk : 0 < k) (ns done : List N) (h : H) (rest : List (K × N))
    (hi : KInv Q dist k done h rest) :
    ∃ h' rest', kLoop Q dist k ns h = some h' ∧ KInv Q dist k (done ++ ns) h' rest' := by
  induction ns generalizing done h rest with
  | nil => exact ⟨h, rest, rfl, by simpa using hi⟩
  | cons n ns ih =>
    have hd : done ++ n :: ns = (done ++ [n]) ++ ns := by simp
    rw [hd]
    unfold kLoop
    split
    · rename_i hlt
      refine ih (done ++ [n]) _ rest ⟨?_, ?_, ?_⟩
      · have h1 : (Q.content (Q.push (dist n, n) h) ++ rest).Perm ((dist n, n) :: (Q.content h ++ rest)) :=
          (Q.content_push _ _).append_right rest
        refine h1.trans ?_
        rw [List.map_append]
        exact ((hi.perm.cons _)).trans (by simpa using (List.perm_append_singleton (dist n, n) _).symm)
      · rw [(Q.content_push _ _).length_eq]
        have := hi.size
        simp only [List.length_cons, List.length_append, List.length_nil]
        omega
      · intro x hx y hy
        have hnil : rest = [] := by
          have h1 := hi.perm.length_eq
          rw [List.length_append, List.length_map, hi.size] at h1
          rw [hi.size] at hlt
          have : rest.length = 0 := by omega
          exact List.length_eq_zero_iff.1 this
        rw [hnil] at hy; simp at hy
    · rename_i hge
      cases ht : Q.top h with
      | none =>
        have := (Q.top_none h).1 ht
        rw [this] at hge; simp at hge; omega
      | some t =>
        dsimp only
        have hsz := hi.size
        split
        · rename_i hlt
          have hp := Q.top_pop h t ht
          refine ih (done ++ [n]) _ (t :: rest) ⟨?_, ?_, ?_⟩
          · have h1 : (Q.content (Q.push (dist n, n) (Q.pop h)) ++ t :: rest).Perm
                ((dist n, n) :: (t :: (Q.content (Q.pop h)) ++ rest)) := by
              refine ((Q.content_push _ _).append_right (t :: rest)).trans ?_
              exact (List.perm_middle).cons _
            refine h1.trans ?_
            have h2 : (t :: Q.content (Q.pop h) ++ rest).Perm (Q.content h ++ rest) := (hp.symm.append_right rest)
            rw [List.map_append]
            exact ((h2.trans hi.perm).cons _).trans (by simpa using (List.perm_append_singleton (dist n, n) _).symm)
          · rw [(Q.content_push _ _).length_eq]
            have h1 := hp.length_eq
            simp only [List.length_cons, List.length_append, List.length_nil] at h1 ⊢
            omega
          · intro x hx y hy
            have hx' := (Q.content_push _ _).subset hx
            rcases List.mem_cons.1 hx' with rfl | hx'
            · rcases List.mem_cons.1 hy with rfl | hy
              · exact le_of_lt hlt
              · exact le_trans (le_of_lt hlt) (hi.closer t (hp.symm.subset (by simp)) y hy)
            · have hxc : x ∈ Q.content h := hp.symm.subset (by simp [hx'])
              rcases List.mem_cons.1 hy with rfl | hy
              · exact Q.top_max h _ ht x hxc
              · exact hi.closer x hxc y hy
        · rename_i hlt
          refine ih (done ++ [n]) _ ((dist n, n) :: rest) ⟨?_, ?_, ?_⟩
          · rw [List.map_append]
            refine List.perm_middle.trans ?_
            exact (hi.perm.cons _).trans (by simpa using (List.perm_append_singleton (dist n, n) _).symm)
          · simp only [List.length_append, List.length_cons, List.length_nil]; omega
          · intro x hx y hy
            rcases List.mem_cons.1 hy with rfl | hy
            · exact le_trans (Q.top_max h t ht x hx) (not_lt.1 hlt)
            · exact hi.closer x hx y hy

/-- `drain` lists the content by increasing distance before what was already there. -/
theorem drain_spec (Q : PQ N K H) (dist : N → K) (f : Nat) (h : H) (acc : List N) (hf : (Q.content h).length = f)
    (hd : ∀ x ∈ Q.content h, x.1 = dist x.2)
    (hs : acc.Pairwise (fun a b => dist a ≤ dist b)) (hle : ∀ x ∈ Q.content h, ∀ a ∈ acc, x.1 ≤ dist a) :
    ((drain Q f h acc).Perm ((Q.content h).map (·.2) ++ acc)) ∧
    (drain Q f h acc).Pairwise (fun a b => dist a ≤ dist b) := by
  induction f generalizing h acc with
  | zero =>
    have : Q.content h = [] := List.length_eq_zero_iff.1 hf
    simp [drain, this, hs]
  | succ f ih =>
    unfold drain
    cases ht : Q.top h with
    | none =>
      have := (Q.top_none h).1 ht
      rw [this] at hf; simp at hf
    | some t =>
      have hp := Q.top_pop h t ht
      have htm : t ∈ Q.content h := hp.symm.subset (by simp)
      obtain ⟨k1, k2⟩ := ih (Q.pop h) (t.2 :: acc) (by have := hp.length_eq; simp at this; omega)
        (fun x hx => hd x (hp.symm.subset (by simp [hx])))
        (by
          rw [List.pairwise_cons]
          refine ⟨fun a ha => ?_, hs⟩
          rw [← hd t htm]; exact hle t htm a ha)
        (by
          intro x hx a ha
          have hxc : x ∈ Q.content h := hp.symm.subset (by simp [hx])
          rcases List.mem_cons.1 ha with rfl | ha
          · rw [← hd t htm]; exact Q.top_max h t ht x hxc
          · exact hle x hxc a ha)
      refine ⟨k1.trans ?_, k2⟩
      have h2 : ((Q.content h).map (·.2) ++ acc).Perm (t.2 :: ((Q.content (Q.pop h)).map (·.2) ++ acc)) := by
        have := (hp.map (·.2)).append_right acc
        simpa using this
      exact List.perm_middle.trans h2.symm

/-! ## C16 -/

/-- C16: for `k > 0` the search returns, whatever the implementation of the priority queue, `min k size` nodes of the list (each
occurrence used at most once: the rest `left` completes them to the whole list), sorted by increasing distance, no node left
out is strictly closer than a returned one, and the reported distance is that of the last returned node (`none`, i.e. infinity, if there
is no node). -/
theorem C16_kNearest (Q : PQ N K H) (dist : N → K) (k : Nat) (hk : 0 < k) (nodes : List N) :
    ∃ res d left, kNearest Q dist k nodes = some (res, d) ∧
      (res ++ left).Perm nodes ∧ res.length = min k nodes.length ∧
      res.Pairwise (fun a b => dist a ≤ dist b) ∧
      (∀ a ∈ res, ∀ b ∈ left, dist a ≤ dist b) ∧
      d = res.getLast?.map dist := by
  obtain ⟨h, rest, h1, h2⟩ := kLoop_spec Q dist k hk nodes [] Q.empty []
    ⟨by simp [Q.content_empty], by simp [Q.content_empty], by simp⟩
  rw [List.nil_append] at h2
  have hd : ∀ x ∈ Q.content h ++ rest, x.1 = dist x.2 := by
    intro x hx
    have := h2.perm.subset hx
    obtain ⟨n, _, rfl⟩ := List.mem_map.1 this
    rfl
  obtain ⟨k1, k2⟩ := drain_spec Q dist (Q.content h).length h [] rfl (fun x hx => hd x (List.mem_append.2 (Or.inl hx)))
    (by simp) (by simp)
  rw [List.append_nil] at k1
  refine ⟨drain Q (Q.content h).length h [], (Q.top h).map (·.1), rest.map (·.2), ?_, ?_, ?_, k2, ?_, ?_⟩
  · unfold kNearest; rw [h1]
  · have := (h2.perm.map (·.2))
    rw [List.map_append, List.map_map] at this
    refine ((k1.append_right _).trans this).trans ?_
    simp [Function.comp_def]
  · rw [k1.length_eq, List.length_map, h2.size]
  · intro a ha b hb
    have ha' := k1.subset ha
    obtain ⟨x, hx, rfl⟩ := List.mem_map.1 ha'
    obtain ⟨y, hy, rfl⟩ := List.mem_map.1 hb
    rw [← hd x (List.mem_append.2 (Or.inl hx)), ← hd y (List.mem_append.2 (Or.inr hy))]
    exact h2.closer x hx y hy
  · cases ht : Q.top h with
    | none =>
      have := (Q.top_none h).1 ht
      simp [this, drain]
    | some t =>
      have hp := Q.top_pop h t ht
      have htm : t ∈ Q.content h := hp.symm.subset (by simp)
      -- the last drained element is the top
      have hlast : (drain Q (Q.content h).length h []).getLast? = some t.2 := by
        have hgen : ∀ f (h : H) (acc : List N) (a : N), acc.getLast? = some a → (drain Q f h acc).getLast? = some a := by
          intro f
          induction f with
          | zero => intro h acc a ha; simpa [drain] using ha
          | succ f ih =>
            intro h acc a ha
            unfold drain
            split
            · exact ha
            · refine ih _ _ _ ?_
              cases acc with
              | nil => simp at ha
              | cons b acc => simpa using ha
        have hl : (Q.content h).length = (Q.content (Q.pop h)).length + 1 := by
          have := hp.length_eq; simpa using this
        rw [hl]
        unfold drain
        rw [ht]
        exact hgen _ _ _ _ (by simp)
      rw [hlast]
      simp [hd t (List.mem_append.2 (Or.inl htm))]

/-- C16 (K = 0): with at least one node, asking for zero neighbours reads the top of an empty queue (undefined behaviour). -/
theorem C16_zero_counterexample (Q : PQ N K H) (dist : N → K) (n : N) (ns : List N) :
    kNearest Q dist 0 (n :: ns) = none := by
  have : Q.top Q.empty = none := (Q.top_none _).2 Q.content_empty
  simp [kNearest, kLoop, this]

/-! ## C17 -/

/-- C17: `withinBall` returns a sub-list (same order, same multiplicities) of the nodes, holding exactly those at distance
strictly smaller than the radius. -/
theorem C17_withinBall (dist : N → K) (r : K) (nodes : List N) :
    (withinBall dist r nodes).Sublist nodes ∧ (∀ n, n ∈ withinBall dist r nodes ↔ n ∈ nodes ∧ dist n < r) ∧
    (∀ [DecidableEq N] (n : N), dist n < r → (withinBall dist r nodes).count n = nodes.count n) := by
  have key : ∀ (l acc : List N), ballLoop dist r l acc = acc ++ l.filter (fun n => dist n < r) := by
    intro l
    induction l with
    | nil => intro acc; simp [ballLoop]
    | cons n ns ih =>
      intro acc
      unfold ballLoop
      split
      · rename_i h; rw [ih]; simp [h]
      · rename_i h; rw [ih]; simp [h]
  unfold withinBall
  rw [key, List.nil_append]
  refine ⟨List.filter_sublist, fun n => by simp [List.mem_filter], fun n hn => ?_⟩
  rw [List.count_filter]
  simpa using hn

/-! ## A lawful queue (used to show that the statement is not vacuous) -/

/-- Insertion in a list sorted by decreasing distance. -/
def insertDesc (x : K × N) : List (K × N) → List (K × N)
  | [] => [x]
  | y :: l => if y.1 ≤ x.1 then x :: y :: l else y :: insertDesc x l

theorem insertDesc_perm (x : K × N) (l : List (K × N)) : (insertDesc x l).Perm (x :: l) := by
  induction l with
  | nil => exact List.Perm.refl _
  | cons y l ih =>
    unfold insertDesc
    split
    · exact List.Perm.refl _
    · exact (ih.cons y).trans (List.Perm.swap x y l)

theorem insertDesc_sorted (x : K × N) (l : List (K × N)) (h : l.Pairwise (fun a b => b.1 ≤ a.1)) :
    (insertDesc x l).Pairwise (fun a b => b.1 ≤ a.1) := by
  induction l with
  | nil => simp [insertDesc]
  | cons y l ih =>
    rw [List.pairwise_cons] at h
    unfold insertDesc
    split
    · rename_i hle
      rw [List.pairwise_cons]
      refine ⟨fun a ha => ?_, List.pairwise_cons.2 h⟩
      rcases List.mem_cons.1 ha with rfl | ha
      · exact hle
      · exact le_trans (h.1 a ha) hle
    · rename_i hle
      rw [List.pairwise_cons]
      refine ⟨fun a ha => ?_, ih h.2⟩
      rcases List.mem_cons.1 ((insertDesc_perm x l).subset ha) with rfl | ha
      · exact le_of_lt (not_le.1 hle)
      · exact h.1 a ha

/-- A priority queue as a decreasing list. -/
def sortedQueue : PQ N K {l : List (K × N) // l.Pairwise (fun a b => b.1 ≤ a.1)} where
  content h := h.1
  empty := ⟨[], List.Pairwise.nil⟩
  push x h := ⟨insertDesc x h.1, insertDesc_sorted x h.1 h.2⟩
  top h := h.1.head?
  pop h := ⟨h.1.tail, h.2.tail⟩
  content_empty := rfl
  content_push x h := insertDesc_perm x h.1
  top_none h := by simp
  top_pop h x hx := by
    obtain ⟨l, hl⟩ := h
    cases l with
    | nil => simp at hx
    | cons a l =>
      simp only [List.head?_cons, Option.some.injEq] at hx
      subst hx; exact List.Perm.refl _
  top_max h x hx y hy := by
    obtain ⟨l, hl⟩ := h
    cases l with
    | nil => simp at hx
    | cons a l =>
      simp only [List.head?_cons, Option.some.injEq] at hx
      subst hx
      rcases List.mem_cons.1 hy with rfl | hy
      · exact le_refl _
      · exact (List.pairwise_cons.1 hl).1 y hy

example : kNearest sortedQueue (fun n : Nat => (n - 10) + (10 - n)) 3 [3, 9, 30, 12, 10, 8] = some ([10, 9, 12], some 2) := by decide
example : withinBall (fun n : Nat => (n - 10) + (10 - n)) 3 [3, 9, 30, 12, 13, 10] = [9, 12, 10] := by decide

end Verif.NN
