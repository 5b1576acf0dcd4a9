import Verif.Roadmap.Bfs
import Mathlib.Tactic.Common
import Mathlib.Tactic.Tauto

/-! Structural invariant of the roadmap and effect of merging components (helper lemmas). -/
namespace Verif.Roadmap
open Relation
variable {Q P K : Type}

theorem mem_sInsert {x y : Nat} {l : List Nat} : y ∈ sInsert x l ↔ y = x ∨ y ∈ l := by
  unfold sInsert
  split
  · constructor
    · exact Or.inr
    · rintro (rfl | h) <;> assumption
  · simp; tauto

theorem mem_sErase {x y : Nat} {l : List Nat} : y ∈ sErase x l ↔ y ≠ x ∧ y ∈ l := by
  simp [sErase]; tauto

theorem mem_sUnion {y : Nat} {a b : List Nat} : y ∈ sUnion a b ↔ y ∈ a ∨ y ∈ b := by
  simp [sUnion]
  by_cases h : y ∈ a <;> simp [h]

/-- Structural invariant: partition of the nodes, well formed component graph, clean marks. -/
structure Wf (r : Roadmap Q P) : Prop where
  cc_live : ∀ n, n < r.configs.length → r.cc n ∈ r.live
  mem : ∀ n, n < r.configs.length → n ∈ (r.comp (r.cc n)).nodes
  owned : ∀ c ∈ r.live, ∀ n ∈ (r.comp c).nodes, n < r.configs.length ∧ r.cc n = c
  nodup : ∀ c ∈ r.live, (r.comp c).nodes.Nodup
  nonempty : ∀ c ∈ r.live, (r.comp c).nodes ≠ []
  live_sorted : r.live.Pairwise (· < ·)
  live_lt : ∀ c ∈ r.live, c < r.nextCC
  to_live : ∀ c ∈ r.live, ∀ d ∈ (r.comp c).tos, d ∈ r.live ∧ d ≠ c ∧ c ∈ (r.comp d).frms
  frm_live : ∀ c ∈ r.live, ∀ d ∈ (r.comp c).frms, d ∈ r.live ∧ d ≠ c ∧ c ∈ (r.comp d).tos
  unexplored : ∀ x, r.explored x = false

theorem Wf.live_nodup {r : Roadmap Q P} (h : Wf r) : r.live.Nodup :=
  h.live_sorted.imp (fun h => Nat.ne_of_lt h)

theorem retag_apply (c : Nat) (l : List Nat) (f : Nat → Nat) (n : Nat) :
    retag c l f n = if n ∈ l then c else f n := by
  induction l generalizing f with
  | nil => simp [retag]
  | cons m ms ih =>
    rw [retag, ih]
    by_cases h : n ∈ ms
    · simp [h]
    · by_cases h' : n = m
      · subst h'; simp [h, set]
      · simp [h, h', set]

theorem replaceFrm_spec {this other : Nat} (l : List Nat) (m : Nat → Comp) (y : Nat) :
    (replaceFrm this other l m y).nodes = (m y).nodes ∧ (replaceFrm this other l m y).tos = (m y).tos ∧
    ∀ z, z ∈ (replaceFrm this other l m y).frms ↔
      (if y ∈ l then z = this ∨ (z ≠ other ∧ z ∈ (m y).frms) else z ∈ (m y).frms) := by
  induction l generalizing m with
  | nil => simp [replaceFrm]
  | cons w ws ih =>
    rw [replaceFrm]
    obtain ⟨h1, h2, h3⟩ := ih (set m w { m w with frms := sInsert this (sErase other (m w).frms) })
    by_cases hw : y = w
    · subst hw
      rw [set_eq] at h1 h2 h3
      refine ⟨h1, h2, fun z => ?_⟩
      rw [h3 z]
      simp only [mem_sInsert, mem_sErase, List.mem_cons, true_or, if_true]
      split <;> tauto
    · rw [set_ne _ _ hw] at h1 h2 h3
      refine ⟨h1, h2, fun z => ?_⟩
      rw [h3 z]
      simp [hw]

theorem replaceTo_spec {this other : Nat} (l : List Nat) (m : Nat → Comp) (y : Nat) :
    (replaceTo this other l m y).nodes = (m y).nodes ∧ (replaceTo this other l m y).frms = (m y).frms ∧
    ∀ z, z ∈ (replaceTo this other l m y).tos ↔
      (if y ∈ l then z = this ∨ (z ≠ other ∧ z ∈ (m y).tos) else z ∈ (m y).tos) := by
  induction l generalizing m with
  | nil => simp [replaceTo]
  | cons w ws ih =>
    rw [replaceTo]
    obtain ⟨h1, h2, h3⟩ := ih (set m w { m w with tos := sInsert this (sErase other (m w).tos) })
    by_cases hw : y = w
    · subst hw
      rw [set_eq] at h1 h2 h3
      refine ⟨h1, h2, fun z => ?_⟩
      rw [h3 z]
      simp only [mem_sInsert, mem_sErase, List.mem_cons, true_or, if_true]
      split <;> tauto
    · rw [set_ne _ _ hw] at h1 h2 h3
      refine ⟨h1, h2, fun z => ?_⟩
      rw [h3 z]
      simp [hw]

/-- The memory of components after `ConnectedComponent::merge`. -/
theorem mergeComp_comp (r : Roadmap Q P) (this other : Nat) (hne : this ≠ other)
    (hto : other ∉ (r.comp other).tos) (hfrm : other ∉ (r.comp other).frms) (y : Nat) :
    ((mergeComp r this other).comp y).nodes =
        (if y = this then (r.comp this).nodes ++ (r.comp other).nodes else (r.comp y).nodes) ∧
    (∀ z, z ∈ ((mergeComp r this other).comp y).tos ↔
      (if y = this then z ≠ this ∧ z ≠ other ∧ (z ∈ (r.comp this).tos ∨ z ∈ (r.comp other).tos)
       else if y ∈ (r.comp other).frms then z = this ∨ (z ≠ other ∧ z ∈ (r.comp y).tos)
       else z ∈ (r.comp y).tos)) ∧
    (∀ z, z ∈ ((mergeComp r this other).comp y).frms ↔
      (if y = this then z ≠ this ∧ z ≠ other ∧ (z ∈ (r.comp this).frms ∨ z ∈ (r.comp other).frms)
       else if y ∈ (r.comp other).tos then z = this ∨ (z ≠ other ∧ z ∈ (r.comp y).frms)
       else z ∈ (r.comp y).frms)) := by
  simp only [mergeComp]
  generalize hm1 : set r.comp this { r.comp this with nodes := (r.comp this).nodes ++ (r.comp other).nodes } = m1
  have m1o : m1 other = r.comp other := by rw [← hm1, set_ne _ _ (Ne.symm hne)]
  have m1t : m1 this = { r.comp this with nodes := (r.comp this).nodes ++ (r.comp other).nodes } := by
    rw [← hm1, set_eq]
  have m1y : ∀ y, y ≠ this → m1 y = r.comp y := fun y hy => by rw [← hm1, set_ne _ _ hy]
  have m1to : ∀ y, (m1 y).tos = (r.comp y).tos := by
    intro y; by_cases hy : y = this
    · subst hy; rw [m1t]
    · rw [m1y y hy]
  have m1frm : ∀ y, (m1 y).frms = (r.comp y).frms := by
    intro y; by_cases hy : y = this
    · subst hy; rw [m1t]
    · rw [m1y y hy]
  rw [m1o]
  generalize hm2 : replaceFrm this other (r.comp other).tos m1 = m2
  have s2 : ∀ y, (m2 y).nodes = (m1 y).nodes ∧ (m2 y).tos = (m1 y).tos ∧
      ∀ z, z ∈ (m2 y).frms ↔ (if y ∈ (r.comp other).tos then z = this ∨ (z ≠ other ∧ z ∈ (m1 y).frms)
        else z ∈ (m1 y).frms) := fun y => by rw [← hm2]; exact replaceFrm_spec _ _ y
  have m2of : ∀ z, z ∈ (m2 other).frms ↔ z ∈ (r.comp other).frms := by
    intro z; rw [(s2 other).2.2 z, if_neg hto, m1o]
  generalize hm3 : replaceTo this other (m2 other).frms m2 = m3
  have s3 : ∀ y, (m3 y).nodes = (m2 y).nodes ∧ (m3 y).frms = (m2 y).frms ∧
      ∀ z, z ∈ (m3 y).tos ↔ (if y ∈ (m2 other).frms then z = this ∨ (z ≠ other ∧ z ∈ (m2 y).tos)
        else z ∈ (m2 y).tos) := fun y => by rw [← hm3]; exact replaceTo_spec _ _ y
  have m3to : ∀ y z, z ∈ (m3 y).tos ↔ (if y ∈ (r.comp other).frms then z = this ∨ (z ≠ other ∧ z ∈ (r.comp y).tos)
        else z ∈ (r.comp y).tos) := by
    intro y z
    have h := (s3 y).2.2 z
    simp only [m2of, (s2 y).2.1, m1to] at h
    exact h
  have m3frm : ∀ y z, z ∈ (m3 y).frms ↔ (if y ∈ (r.comp other).tos then z = this ∨ (z ≠ other ∧ z ∈ (r.comp y).frms)
        else z ∈ (r.comp y).frms) := by
    intro y z
    rw [(s3 y).2.1]
    have h := (s2 y).2.2 z
    simp only [m1frm] at h
    exact h
  have m3n : ∀ y, (m3 y).nodes = (m1 y).nodes := fun y => by rw [(s3 y).1, (s2 y).1]
  by_cases hy : y = this
  · subst hy
    simp only [set_eq, if_true]
    refine ⟨?_, ?_, ?_⟩
    · rw [m3n, m1t]
    · intro z
      rw [mem_sErase, mem_sErase, mem_sUnion, m3to, m3to, if_neg hfrm]
      split <;> tauto
    · intro z
      rw [mem_sErase, mem_sErase, mem_sUnion]
      rw [set_ne _ _ (Ne.symm hne)]
      rw [m3frm y, m3frm other, if_neg hto]
      split <;> tauto
  · simp only [set_ne _ _ hy, if_neg hy]
    refine ⟨?_, m3to y, m3frm y⟩
    rw [m3n, m1y y hy]

/-- Collapse of a set of components to one. -/
def collapse (c1 : Nat) (cs : List Nat) (x : Nat) : Nat := if x ∈ cs then c1 else x

/-- What merging the components of `cs` into `c1` does to the roadmap. -/
structure Merged (r r' : Roadmap Q P) (c1 : Nat) (cs : List Nat) : Prop where
  wf : Wf r'
  configs : r'.configs = r.configs
  edges : r'.edges = r.edges
  out : r'.out = r.out
  inn : r'.inn = r.inn
  init : r'.init = r.init
  goals : r'.goals = r.goals
  nextCC : r'.nextCC = r.nextCC
  cc : ∀ n, n < r.configs.length → r'.cc n = collapse c1 cs (r.cc n)
  live : ∀ c, c ∈ r'.live ↔ c ∈ r.live ∧ (c ∈ cs → c = c1)
  tos : ∀ p ∈ r'.live, ∀ q, q ∈ (r'.comp p).tos ↔
    p ≠ q ∧ ∃ p0 ∈ r.live, ∃ q0 ∈ (r.comp p0).tos, collapse c1 cs p0 = p ∧ collapse c1 cs q0 = q

theorem Merged.one {r : Roadmap Q P} (h : Wf r) {c1 c : Nat} (hc1 : c1 ∈ r.live) (hc : c ∈ r.live)
    (hne : c ≠ c1) :
    Merged r { mergeComp r c1 c with live := sErase c (mergeComp r c1 c).live } c1 [c] := by
  have hto : c ∉ (r.comp c).tos := fun hx => (h.to_live c hc c hx).2.1 rfl
  have hfrm : c ∉ (r.comp c).frms := fun hx => (h.frm_live c hc c hx).2.1 rfl
  have hm := mergeComp_comp r c1 c (Ne.symm hne) hto hfrm
  have hlive : ∀ x, x ∈ sErase c (mergeComp r c1 c).live ↔ x ≠ c ∧ x ∈ r.live := fun x => by
    rw [mem_sErase]; rfl
  have hcc : ∀ n, n < r.configs.length → (mergeComp r c1 c).cc n = (if r.cc n = c then c1 else r.cc n) := by
    intro n hn
    show retag c1 (r.comp c).nodes r.cc n = _
    rw [retag_apply]
    by_cases hn' : r.cc n = c
    · have := h.mem n hn
      rw [hn'] at this
      simp [this, hn']
    · have : n ∉ (r.comp c).nodes := fun hx => hn' (h.owned c hc n hx).2
      simp [this, hn']
  refine ⟨?_, rfl, rfl, rfl, rfl, rfl, rfl, rfl, ?_, ?_, ?_⟩
  · constructor
    · intro n hn
      change n < r.configs.length at hn
      show (mergeComp r c1 c).cc n ∈ sErase c (mergeComp r c1 c).live
      rw [hlive, hcc n hn]
      split
      · exact ⟨Ne.symm hne, hc1⟩
      · exact ⟨by assumption, h.cc_live n hn⟩
    · intro n hn
      change n < r.configs.length at hn
      show n ∈ ((mergeComp r c1 c).comp ((mergeComp r c1 c).cc n)).nodes
      rw [(hm _).1, hcc n hn]
      have hmem := h.mem n hn
      by_cases hn' : r.cc n = c
      · rw [hn'] at hmem; simp [hn', hmem]
      · simp only [hn', if_false]
        by_cases hn1 : r.cc n = c1
        · rw [hn1] at hmem; simp [hn1, hmem]
        · simp [hn1, hmem]
    · intro x hx n hn
      rw [hlive] at hx
      change n ∈ ((mergeComp r c1 c).comp x).nodes at hn
      show n < r.configs.length ∧ (mergeComp r c1 c).cc n = x
      rw [(hm x).1] at hn
      by_cases hx1 : x = c1
      · subst hx1
        simp only [if_true, List.mem_append] at hn
        rcases hn with hn | hn
        · obtain ⟨h1, h2⟩ := h.owned x hc1 n hn
          exact ⟨h1, by rw [hcc n h1, h2]; simp [Ne.symm hne]⟩
        · obtain ⟨h1, h2⟩ := h.owned c hc n hn
          exact ⟨h1, by rw [hcc n h1, h2]; simp⟩
      · simp only [hx1, if_false] at hn
        obtain ⟨h1, h2⟩ := h.owned x hx.2 n hn
        exact ⟨h1, by rw [hcc n h1, h2]; simp [hx.1]⟩
    · intro x hx
      rw [hlive] at hx
      show ((mergeComp r c1 c).comp x).nodes.Nodup
      rw [(hm x).1]
      by_cases hx1 : x = c1
      · subst hx1
        simp only [if_true]
        rw [List.nodup_append]
        refine ⟨h.nodup x hc1, h.nodup c hc, ?_⟩
        intro a ha b hb hab
        subst hab
        exact hne ((h.owned c hc a hb).2.symm.trans (h.owned x hc1 a ha).2)
      · simp only [hx1, if_false]; exact h.nodup x hx.2
    · intro x hx
      rw [hlive] at hx
      show ((mergeComp r c1 c).comp x).nodes ≠ []
      rw [(hm x).1]
      by_cases hx1 : x = c1
      · subst hx1; simp [h.nonempty x hc1]
      · simp only [hx1, if_false]; exact h.nonempty x hx.2
    · exact h.live_sorted.filter _
    · intro x hx
      rw [hlive] at hx
      exact h.live_lt x hx.2
    · intro x hx d hd
      rw [hlive] at hx
      change d ∈ ((mergeComp r c1 c).comp x).tos at hd
      show d ∈ sErase c (mergeComp r c1 c).live ∧ d ≠ x ∧ x ∈ ((mergeComp r c1 c).comp d).frms
      rw [hlive, (hm d).2.2]
      rw [(hm x).2.1] at hd
      by_cases hx1 : x = c1
      · subst hx1
        simp only [if_true] at hd
        obtain ⟨hd1, hd2, hd3⟩ := hd
        rw [if_neg hd1]
        rcases hd3 with hd3 | hd3
        · obtain ⟨h1, h2, h3⟩ := h.to_live x hc1 d hd3
          refine ⟨⟨hd2, h1⟩, hd1, ?_⟩
          split
          · exact Or.inl rfl
          · exact h3
        · obtain ⟨h1, h2, h3⟩ := h.to_live c hc d hd3
          refine ⟨⟨hd2, h1⟩, hd1, ?_⟩
          simp [hd3]
      · simp only [hx1, if_false] at hd
        by_cases hxf : x ∈ (r.comp c).frms
        · simp only [hxf, if_true] at hd
          rcases hd with rfl | ⟨hd1, hd2⟩
          · refine ⟨⟨Ne.symm hne, hc1⟩, Ne.symm hx1, ?_⟩
            simp only [if_true]
            exact ⟨hx1, hx.1, Or.inr hxf⟩
          · obtain ⟨h1, h2, h3⟩ := h.to_live x hx.2 d hd2
            refine ⟨⟨hd1, h1⟩, h2, ?_⟩
            by_cases hdc : d = c1
            · subst hdc; simp only [if_true]; exact ⟨hx1, hx.1, Or.inl h3⟩
            · simp only [hdc, if_false]
              split
              · exact Or.inr ⟨hx.1, h3⟩
              · exact h3
        · simp only [hxf, if_false] at hd
          obtain ⟨h1, h2, h3⟩ := h.to_live x hx.2 d hd
          have hdc' : d ≠ c := by
            intro he; subst he; exact hxf h3
          refine ⟨⟨hdc', h1⟩, h2, ?_⟩
          by_cases hdc : d = c1
          · subst hdc; simp only [if_true]; exact ⟨hx1, hx.1, Or.inl h3⟩
          · simp only [hdc, if_false]
            split
            · exact Or.inr ⟨hx.1, h3⟩
            · exact h3
    · intro x hx d hd
      rw [hlive] at hx
      change d ∈ ((mergeComp r c1 c).comp x).frms at hd
      show d ∈ sErase c (mergeComp r c1 c).live ∧ d ≠ x ∧ x ∈ ((mergeComp r c1 c).comp d).tos
      rw [hlive, (hm d).2.1]
      rw [(hm x).2.2] at hd
      by_cases hx1 : x = c1
      · subst hx1
        simp only [if_true] at hd
        obtain ⟨hd1, hd2, hd3⟩ := hd
        rw [if_neg hd1]
        rcases hd3 with hd3 | hd3
        · obtain ⟨h1, h2, h3⟩ := h.frm_live x hc1 d hd3
          refine ⟨⟨hd2, h1⟩, hd1, ?_⟩
          split
          · exact Or.inl rfl
          · exact h3
        · obtain ⟨h1, h2, h3⟩ := h.frm_live c hc d hd3
          refine ⟨⟨hd2, h1⟩, hd1, ?_⟩
          simp [hd3]
      · simp only [hx1, if_false] at hd
        by_cases hxf : x ∈ (r.comp c).tos
        · simp only [hxf, if_true] at hd
          rcases hd with rfl | ⟨hd1, hd2⟩
          · refine ⟨⟨Ne.symm hne, hc1⟩, Ne.symm hx1, ?_⟩
            simp only [if_true]
            exact ⟨hx1, hx.1, Or.inr hxf⟩
          · obtain ⟨h1, h2, h3⟩ := h.frm_live x hx.2 d hd2
            refine ⟨⟨hd1, h1⟩, h2, ?_⟩
            by_cases hdc : d = c1
            · subst hdc; simp only [if_true]; exact ⟨hx1, hx.1, Or.inl h3⟩
            · simp only [hdc, if_false]
              split
              · exact Or.inr ⟨hx.1, h3⟩
              · exact h3
        · simp only [hxf, if_false] at hd
          obtain ⟨h1, h2, h3⟩ := h.frm_live x hx.2 d hd
          have hdc' : d ≠ c := by
            intro he; subst he; exact hxf h3
          refine ⟨⟨hdc', h1⟩, h2, ?_⟩
          by_cases hdc : d = c1
          · subst hdc; simp only [if_true]; exact ⟨hx1, hx.1, Or.inl h3⟩
          · simp only [hdc, if_false]
            split
            · exact Or.inr ⟨hx.1, h3⟩
            · exact h3
    · exact h.unexplored
  · intro n hn
    show (mergeComp r c1 c).cc n = _
    rw [hcc n hn]; simp [collapse]
  · intro x
    show x ∈ sErase c (mergeComp r c1 c).live ↔ _
    rw [hlive]
    constructor
    · rintro ⟨h1, h2⟩; exact ⟨h2, fun h3 => absurd (by simpa using h3) h1⟩
    · rintro ⟨h1, h2⟩
      refine ⟨fun h3 => ?_, h1⟩
      subst h3; exact hne (h2 (by simp))
  · intro p hp q
    rw [hlive] at hp
    show q ∈ ((mergeComp r c1 c).comp p).tos ↔ _
    rw [(hm p).2.1]
    have col : ∀ x, collapse c1 [c] x = if x = c then c1 else x := fun x => by simp [collapse]
    simp only [col]
    by_cases hp1 : p = c1
    · subst hp1
      simp only [if_true]
      constructor
      · rintro ⟨h1, h2, h3 | h3⟩
        · exact ⟨Ne.symm h1, p, hc1, q, h3, by simp [Ne.symm hne], by simp [h2]⟩
        · exact ⟨Ne.symm h1, c, hc, q, h3, by simp, by simp [h2]⟩
      · rintro ⟨h1, p0, hp0, q0, hq0, h2, h3⟩
        have hq0c : q0 ≠ c := by
          intro he; subst he; simp at h3; exact h1 h3
        simp only [hq0c, if_false] at h3
        subst h3
        refine ⟨Ne.symm h1, hq0c, ?_⟩
        by_cases hp0c : p0 = c
        · subst hp0c; exact Or.inr hq0
        · simp only [hp0c, if_false] at h2; subst h2; exact Or.inl hq0
    · simp only [hp1, if_false]
      constructor
      · intro hq
        by_cases hpf : p ∈ (r.comp c).frms
        · simp only [hpf, if_true] at hq
          rcases hq with rfl | ⟨hq1, hq2⟩
          · exact ⟨hp1, p, hp.2, c, (h.frm_live c hc p hpf).2.2, by simp [hp.1], by simp⟩
          · exact ⟨Ne.symm (h.to_live p hp.2 q hq2).2.1, p, hp.2, q, hq2, by simp [hp.1], by simp [hq1]⟩
        · simp only [hpf, if_false] at hq
          have hqc : q ≠ c := by
            intro he; subst he; exact hpf (h.to_live p hp.2 q hq).2.2
          exact ⟨Ne.symm (h.to_live p hp.2 q hq).2.1, p, hp.2, q, hq, by simp [hp.1], by simp [hqc]⟩
      · rintro ⟨h1, p0, hp0, q0, hq0, h2, h3⟩
        have hp0c : p0 ≠ c := by
          intro he; subst he; simp at h2; exact hp1 h2.symm
        simp only [hp0c, if_false] at h2
        subst h2
        by_cases hq0c : q0 = c
        · subst hq0c
          simp only [if_true] at h3
          subst h3
          have := (h.to_live p0 hp.2 q0 hq0).2.2
          simp [this]
        · simp only [hq0c, if_false] at h3
          subst h3
          split
          · exact Or.inr ⟨hq0c, hq0⟩
          · exact hq0

theorem Merged.nil {r : Roadmap Q P} (h : Wf r) (c1 : Nat) : Merged r r c1 [] where
  wf := h
  configs := rfl
  edges := rfl
  out := rfl
  inn := rfl
  init := rfl
  goals := rfl
  nextCC := rfl
  cc := fun n _ => by simp [collapse]
  live := fun c => by simp
  tos := fun p hp q => by
    simp only [collapse, List.not_mem_nil, if_false]
    constructor
    · intro hq; exact ⟨Ne.symm (h.to_live p hp q hq).2.1, p, hp, q, hq, rfl, rfl⟩
    · rintro ⟨_, p0, _, q0, hq0, rfl, rfl⟩; exact hq0

theorem mergeAll_spec (c1 : Nat) (cs : List Nat) (r : Roadmap Q P) (h : Wf r) (hc1 : c1 ∈ r.live)
    (hcs : ∀ c ∈ cs, c ∈ r.live) (hn : cs.Nodup) : Merged r (mergeAll c1 cs r) c1 cs := by
  induction cs generalizing r with
  | nil => exact Merged.nil h c1
  | cons c cs ih =>
    rw [mergeAll]
    have hc : c ∈ r.live := hcs c (by simp)
    have hnc : c ∉ cs := (List.nodup_cons.1 hn).1
    have hn' := (List.nodup_cons.1 hn).2
    by_cases hcc1 : c = c1
    · subst hcc1
      simp only [ne_eq, not_true, if_false]
      have hM := ih r h hc1 (fun x hx => hcs x (List.mem_cons_of_mem _ hx)) hn'
      have col : ∀ x, collapse c (c :: cs) x = collapse c cs x := by
        intro x; simp only [collapse, List.mem_cons]
        by_cases hx : x = c
        · subst hx; simp
        · simp [hx]
      refine ⟨hM.wf, hM.configs, hM.edges, hM.out, hM.inn, hM.init, hM.goals, hM.nextCC, ?_, ?_, ?_⟩
      · intro n hnn; rw [hM.cc n hnn, col]
      · intro x; rw [hM.live x]
        simp only [List.mem_cons]
        tauto
      · intro p hp q
        rw [hM.tos p hp q]
        simp only [col]
    · simp only [ne_eq, hcc1, not_false_eq_true, if_true]
      have h1 := Merged.one h hc1 hc hcc1
      generalize hr1 : ({ mergeComp r c1 c with live := sErase c (mergeComp r c1 c).live } : Roadmap Q P) = r1 at h1
      have hM := ih r1 h1.wf ((h1.live c1).2 ⟨hc1, fun _ => rfl⟩)
        (fun x hx => (h1.live x).2 ⟨hcs x (List.mem_cons_of_mem _ hx), fun hx' => by
          have : x = c := by simpa using hx'
          subst this; exact absurd hx hnc⟩) hn'
      have col : ∀ x, collapse c1 (c :: cs) x = collapse c1 cs (collapse c1 [c] x) := by
        intro x
        simp only [collapse, List.mem_cons, List.not_mem_nil, or_false]
        by_cases hx : x = c
        · subst hx; simp
        · simp [hx]
      refine ⟨hM.wf, hM.configs.trans h1.configs, hM.edges.trans h1.edges, hM.out.trans h1.out,
        hM.inn.trans h1.inn, hM.init.trans h1.init, hM.goals.trans h1.goals, hM.nextCC.trans h1.nextCC,
        ?_, ?_, ?_⟩
      · intro n hnn
        rw [hM.cc n (by rw [h1.configs]; exact hnn), h1.cc n hnn, col]
      · intro x
        rw [hM.live x, h1.live x]
        simp only [List.mem_cons, List.not_mem_nil, or_false]
        tauto
      · intro p hp q
        rw [hM.tos p hp q]
        simp only [col]
        constructor
        · rintro ⟨hpq, p1, hp1, q1, hq1, e1, e2⟩
          obtain ⟨_, p0, hp0, q0, hq0, e3, e4⟩ := (h1.tos p1 hp1 q1).1 hq1
          exact ⟨hpq, p0, hp0, q0, hq0, by rw [e3, e1], by rw [e4, e2]⟩
        · rintro ⟨hpq, p0, hp0, q0, hq0, e1, e2⟩
          have hp1 : collapse c1 [c] p0 ∈ r1.live := by
            rw [h1.live]
            simp only [collapse, List.mem_cons, List.not_mem_nil, or_false]
            by_cases hx : p0 = c
            · simp [hx, hc1]
            · simp [hx, hp0]
          refine ⟨hpq, _, hp1, collapse c1 [c] q0, ?_, e1, e2⟩
          rw [h1.tos _ hp1]
          refine ⟨fun he => hpq ?_, p0, hp0, q0, hq0, rfl, rfl⟩
          rw [← e1, ← e2, he]

end Verif.Roadmap
