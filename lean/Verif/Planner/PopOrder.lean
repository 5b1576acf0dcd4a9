import Verif.Planner.ShortestTree

/-!
# The order of extraction of `computeParentMap` (C84)

`C84` holds for every order of extraction, so it says nothing on the order of the code.  It is specified here.
-/

namespace Verif.Planner.Star
open Verif.Roadmap Verif.Planner

variable {P K : Type} [LinearOrder K]

/-- C84, the order of the code (bi-rrt-star.cc:126): the first element among those of greatest cost is extracted, and the others keep their order. -/
theorem C84_pop (q : List (WNode P K)) (w : WNode P K) (q' : List (WNode P K)) :
    popMax q = some (w, q') ↔ ∃ l1 l2, q = l1 ++ w :: l2 ∧ q' = l1 ++ l2 ∧ (∀ x ∈ l1, x.cost < w.cost) ∧ ∀ x ∈ l2, x.cost ≤ w.cost := by
  have uniq : ∀ (l1 m1 l2 m2 : List (WNode P K)) (w v : WNode P K), l1 ++ w :: l2 = m1 ++ v :: m2 → (∀ x ∈ l1, x.cost < w.cost) → (∀ x ∈ l2, x.cost ≤ w.cost) →
      (∀ x ∈ m1, x.cost < v.cost) → (∀ x ∈ m2, x.cost ≤ v.cost) → l1 = m1 ∧ w = v ∧ l2 = m2 := by
    intro l1
    induction l1 with
    | nil =>
      intro m1 l2 m2 w v e _ h2 h3 _
      cases m1 with
      | nil => simp only [List.nil_append, List.cons.injEq] at e; exact ⟨rfl, e.1, e.2⟩
      | cons y m1 =>
        simp only [List.nil_append, List.cons_append, List.cons.injEq] at e
        have := h3 y (by simp)
        rw [← e.1] at this
        exact absurd (h2 v (by rw [e.2]; simp)) (not_le.2 this)
    | cons y l1 ih =>
      intro m1 l2 m2 w v e h1 h2 h3 h4
      cases m1 with
      | nil =>
        simp only [List.nil_append, List.cons_append, List.cons.injEq] at e
        have := h1 y (by simp)
        rw [e.1] at this
        exact absurd (h4 w (by rw [← e.2]; simp)) (not_le.2 this)
      | cons z m1 =>
        simp only [List.cons_append, List.cons.injEq] at e
        obtain ⟨a, b, c⟩ := ih m1 l2 m2 w v e.2 (fun x hx => h1 x (by simp [hx])) h2 (fun x hx => h3 x (by simp [hx])) h4
        exact ⟨by rw [e.1, a], b, c⟩
  have fwd : ∀ (q : List (WNode P K)), q ≠ [] → ∃ w l1 l2, popMax q = some (w, l1 ++ l2) ∧ q = l1 ++ w :: l2 ∧ (∀ x ∈ l1, x.cost < w.cost) ∧ ∀ x ∈ l2, x.cost ≤ w.cost := by
    intro q
    induction q with
    | nil => intro h; exact absurd rfl h
    | cons y q ih =>
      intro _
      by_cases hq : q = []
      · subst hq; exact ⟨y, [], [], rfl, rfl, by simp, by simp⟩
      · obtain ⟨w, l1, l2, h1, h2, h3, h4⟩ := ih hq
        by_cases hc : y.cost < w.cost
        · refine ⟨w, y :: l1, l2, by simp [popMax, h1, hc], by simp [h2], ?_, h4⟩
          intro x hx
          rcases List.mem_cons.1 hx with rfl | hx
          · exact hc
          · exact h3 x hx
        · refine ⟨y, [], q, by simp [popMax, h1, hc], rfl, by simp, ?_⟩
          intro x hx
          have hw := not_lt.1 hc
          rw [h2] at hx
          rcases List.mem_append.1 hx with hx | hx
          · exact (h3 x hx).le.trans hw
          · rcases List.mem_cons.1 hx with rfl | hx
            · exact hw
            · exact (h4 x hx).trans hw
  constructor
  · intro h
    have hq : q ≠ [] := by rintro rfl; simp [popMax] at h
    obtain ⟨v, l1, l2, h1, h2, h3, h4⟩ := fwd q hq
    rw [h1] at h
    simp only [Option.some.injEq, Prod.mk.injEq] at h
    obtain ⟨rfl, rfl⟩ := h
    exact ⟨l1, l2, h2, rfl, h3, h4⟩
  · rintro ⟨l1, l2, h2, rfl, h3, h4⟩
    obtain ⟨v, m1, m2, g1, g2, g3, g4⟩ := fwd q (by rw [h2]; simp)
    obtain ⟨rfl, rfl, rfl⟩ := uniq _ _ _ _ _ _ (h2.symm.trans g2) h3 h4 g3 g4
    exact g1

/-- Two elements of greatest cost: the first one is extracted. -/
example : popMax ([⟨0, none, 1⟩, ⟨1, none, 4⟩, ⟨2, none, 3⟩, ⟨3, none, 4⟩] : List (WNode Unit Int)) = some (⟨1, none, 4⟩, [⟨0, none, 1⟩, ⟨2, none, 3⟩, ⟨3, none, 4⟩]) :=
  (C84_pop _ _ _).2 ⟨[⟨0, none, 1⟩], [⟨2, none, 3⟩, ⟨3, none, 4⟩], rfl, rfl, by simp, by simp⟩

end Verif.Planner.Star
