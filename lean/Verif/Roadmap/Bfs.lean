import Verif.Roadmap.Model
import Mathlib.Logic.Relation
import Mathlib.Data.List.Perm.Subperm

/-! Correctness of the breadth first searches of connected-component.cc (helper lemmas). -/
namespace Verif.Roadmap
open Relation

/-- One step of a successor function, as a relation. -/
def StepRel (next : Nat → List Nat) (a b : Nat) : Prop := b ∈ next a

theorem set_eq {α : Type} (f : Nat → α) (i : Nat) (v : α) : set f i v i = v := by simp [set]
theorem set_ne {α : Type} (f : Nat → α) {i j : Nat} (v : α) (h : j ≠ i) : set f i v j = f j := by
  simp [set, h]

theorem clean_apply (s : List Nat) (f : Nat → Bool) (x : Nat) :
    clean s f x = (if x ∈ s then false else f x) := by
  induction s generalizing f with
  | nil => simp [clean]
  | cons c cs ih =>
    have : clean (c :: cs) f = clean cs (set f c false) := rfl
    rw [this, ih]
    by_cases hx : x ∈ cs
    · simp [hx]
    · by_cases hc : x = c
      · subst hc; simp [hx, set]
      · simp [hx, set, hc]

/-- Invariant of the breadth first searches; `done` lists the components already popped. -/
structure BInv (next : Nat → List Nat) (start stop : Nat) (done : List Nat) (b : Bfs) : Prop where
  seen_eq : b.seen = done ++ b.queue
  nodup : b.seen.Nodup
  flag : ∀ x, b.flags x = true ↔ x ∈ b.seen
  closed : ∀ x ∈ done, x ≠ stop → ∀ y ∈ next x, y ∈ b.seen
  reach : ∀ x ∈ b.seen, ReflTransGen (StepRel next) start x
  start : start ∈ b.seen

theorem pushChildren_spec (cs : List Nat) (b : Bfs) (hn : b.seen.Nodup)
    (hf : ∀ x, b.flags x = true ↔ x ∈ b.seen) :
    ∃ new, (pushChildren cs b).seen = b.seen ++ new ∧ (pushChildren cs b).queue = b.queue ++ new ∧
      (pushChildren cs b).seen.Nodup ∧
      (∀ x, (pushChildren cs b).flags x = true ↔ x ∈ (pushChildren cs b).seen) ∧
      (∀ c ∈ cs, c ∈ (pushChildren cs b).seen) ∧ (∀ x ∈ new, x ∈ cs) := by
  induction cs generalizing b with
  | nil => exact ⟨[], by simp [pushChildren], by simp [pushChildren], hn, hf, by simp, by simp⟩
  | cons c cs ih =>
    unfold pushChildren
    by_cases hc : b.flags c = true
    · simp only [hc, if_true]
      obtain ⟨new, h1, h2, h3, h4, h5, h6⟩ := ih b hn hf
      refine ⟨new, h1, h2, h3, h4, ?_, fun x hx => List.mem_cons_of_mem _ (h6 x hx)⟩
      intro x hx
      rcases List.mem_cons.1 hx with rfl | hx
      · rw [h1]; exact List.mem_append_left _ ((hf x).1 hc)
      · exact h5 x hx
    · have hc' : b.flags c = false := by simpa using hc
      have hcs : c ∉ b.seen := fun h => hc ((hf c).2 h)
      simp only [hc', Bool.false_eq_true, if_false]
      have hn' : (b.seen ++ [c]).Nodup := by
        rw [List.nodup_append]
        refine ⟨hn, by simp, ?_⟩
        intro a ha b' hb'
        simp only [List.mem_singleton] at hb'
        subst hb'
        intro h; subst h; exact hcs ha
      have hf' : ∀ x, (set b.flags c true) x = true ↔ x ∈ b.seen ++ [c] := by
        intro x
        by_cases hx : x = c
        · subst hx; simp [set]
        · simp [set, hx, hf x]
      obtain ⟨new, h1, h2, h3, h4, h5, h6⟩ := ih ⟨set b.flags c true, b.seen ++ [c], b.queue ++ [c]⟩ hn' hf'
      refine ⟨c :: new, ?_, ?_, h3, h4, ?_, ?_⟩
      · rw [h1]; simp
      · rw [h2]; simp
      · intro x hx
        rcases List.mem_cons.1 hx with rfl | hx
        · rw [h1]; simp
        · exact h5 x hx
      · intro x hx
        rcases List.mem_cons.1 hx with rfl | hx
        · simp
        · exact List.mem_cons_of_mem _ (h6 x hx)

theorem BInv.init (next : Nat → List Nat) (start stop : Nat) (flags : Nat → Bool)
    (h : ∀ x, flags x = false) : BInv next start stop [] ⟨set flags start true, [start], [start]⟩ where
  seen_eq := rfl
  nodup := by simp
  flag := by
    intro x
    by_cases hx : x = start
    · subst hx; simp [set]
    · simp [set, hx, h x]
  closed := by simp
  reach := by
    intro x hx
    have : x = start := by simpa using hx
    rw [this]
  start := by simp

theorem BInv.pop {next : Nat → List Nat} {start stop : Nat} {done : List Nat} {b : Bfs} {cur : Nat}
    {q : List Nat} (h : BInv next start stop done b) (hq : b.queue = cur :: q) :
    BInv next start stop (done ++ [cur]) (pushChildren (next cur) { b with queue := q }) := by
  obtain ⟨new, h1, h2, h3, h4, h5, h6⟩ :=
    pushChildren_spec (next cur) { b with queue := q } h.nodup h.flag
  have hcur : cur ∈ b.seen := by rw [h.seen_eq, hq]; simp
  constructor
  · rw [h1, h2]
    show b.seen ++ new = done ++ [cur] ++ (q ++ new)
    rw [h.seen_eq, hq]; simp
  · exact h3
  · exact h4
  · intro x hx hs y hy
    rcases List.mem_append.1 hx with hx | hx
    · rw [h1]; exact List.mem_append_left _ (h.closed x hx hs y hy)
    · have : x = cur := by simpa using hx
      subst this; exact h5 y hy
  · intro x hx
    rw [h1] at hx
    rcases List.mem_append.1 hx with hx | hx
    · exact h.reach x hx
    · exact (h.reach cur hcur).tail (h6 x hx)
  · rw [h1]; exact List.mem_append_left _ h.start

theorem BInv.popStop {next : Nat → List Nat} {start stop : Nat} {done : List Nat} {b : Bfs}
    {q : List Nat} (h : BInv next start stop done b) (hq : b.queue = stop :: q) :
    BInv next start stop (done ++ [stop]) { b with queue := q } := by
  constructor
  · show b.seen = done ++ [stop] ++ q
    rw [h.seen_eq, hq]; simp
  · exact h.nodup
  · exact h.flag
  · intro x hx hs y hy
    rcases List.mem_append.1 hx with hx | hx
    · exact h.closed x hx hs y hy
    · exact absurd (by simpa using hx) hs
  · exact h.reach
  · exact h.start

/-- At the end of a search (empty queue) the seen components are those reachable without passing beyond `stop`. -/
theorem BInv.complete {next : Nat → List Nat} {start stop : Nat} {done : List Nat} {b : Bfs}
    (h : BInv next start stop done b) (hq : b.queue = []) {x : Nat}
    (hx : ReflTransGen (StepRel next) start x) :
    x ∈ b.seen ∨ (stop ∈ b.seen ∧ ReflTransGen (StepRel next) stop x) := by
  have hs : b.seen = done := by rw [h.seen_eq, hq]; simp
  induction hx with
  | refl => exact Or.inl h.start
  | @tail y z _ hyz ih =>
    rcases ih with ih | ⟨ih1, ih2⟩
    · by_cases hy : y = stop
      · subst hy; exact Or.inr ⟨ih, ReflTransGen.single hyz⟩
      · exact Or.inl (h.closed y (hs ▸ ih) hy z hyz)
    · exact Or.inr ⟨ih1, ih2.tail hyz⟩

theorem BInv.length_done {next : Nat → List Nat} {start stop : Nat} {done : List Nat} {b : Bfs}
    (h : BInv next start stop done b) {B : Nat}
    (hB : ∀ l : List Nat, l.Nodup → (∀ x ∈ l, ReflTransGen (StepRel next) start x) → l.length ≤ B) :
    done.length + b.queue.length ≤ B := by
  have := hB b.seen h.nodup h.reach
  rw [h.seen_eq, List.length_append] at this
  exact this

theorem exploreLoop_spec {next : Nat → List Nat} {start stop : Nat} {B : Nat}
    (hB : ∀ l : List Nat, l.Nodup → (∀ x ∈ l, ReflTransGen (StepRel next) start x) → l.length ≤ B)
    (f : Nat) (found : Bool) (done : List Nat) (b : Bfs) (h : BInv next start stop done b)
    (hf : B + 1 ≤ f + done.length) (hfound : found = true ↔ stop ∈ done) :
    ∃ found' done' b', exploreLoop next stop f found b = some (found', b') ∧
      BInv next start stop done' b' ∧ b'.queue = [] ∧ (found' = true ↔ stop ∈ b'.seen) := by
  induction f generalizing found done b with
  | zero =>
    exfalso
    have := h.length_done hB
    omega
  | succ f ih =>
    unfold exploreLoop
    match hq : b.queue with
    | [] =>
      refine ⟨found, done, b, by simp, h, hq, ?_⟩
      rw [h.seen_eq, hq, List.append_nil]; exact hfound
    | cur :: q =>
      by_cases hc : cur = stop
      · subst hc
        simp only [if_true]
        have hcur : cur ∈ b.seen := by rw [h.seen_eq, hq]; simp
        have hin : sInsert cur b.seen = b.seen := by simp [sInsert, hcur]
        rw [hin]
        exact ih true (done ++ [cur]) _ (h.popStop hq) (by simp; omega) (by simp)
      · simp only [hc, if_false]
        refine ih found (done ++ [cur]) _ (h.pop hq) (by simp; omega) ?_
        rw [hfound]; simp [Ne.symm hc]

theorem canReachLoop_spec {next : Nat → List Nat} {start target : Nat} {B : Nat}
    (hB : ∀ l : List Nat, l.Nodup → (∀ x ∈ l, ReflTransGen (StepRel next) start x) → l.length ≤ B)
    (f : Nat) (done : List Nat) (b : Bfs) (h : BInv next start target done b)
    (hf : B + 1 ≤ f + done.length) (hnot : target ∉ done) :
    ∃ ans b', canReachLoop next target f b = some (ans, b') ∧
      (∀ x, b'.flags x = true ↔ x ∈ b'.seen) ∧
      (ans = true ↔ ReflTransGen (StepRel next) start target) := by
  induction f generalizing done b with
  | zero =>
    exfalso
    have := h.length_done hB
    omega
  | succ f ih =>
    unfold canReachLoop
    match hq : b.queue with
    | [] =>
      refine ⟨false, b, by simp, h.flag, ?_⟩
      simp only [Bool.false_eq_true, false_iff]
      intro hr
      have hs : b.seen = done := by rw [h.seen_eq, hq]; simp
      rcases h.complete hq hr with h1 | ⟨h1, _⟩ <;> exact hnot (hs ▸ h1)
    | cur :: q =>
      by_cases hc : cur = target
      · subst hc
        have hcur : cur ∈ b.seen := by rw [h.seen_eq, hq]; simp
        exact ⟨true, { b with queue := q }, by simp, h.flag, by simp [h.reach cur hcur]⟩
      · simp only [hc, if_false]
        exact ih (done ++ [cur]) _ (h.pop hq) (by simp; omega) (by simp [hnot, Ne.symm hc])

end Verif.Roadmap
