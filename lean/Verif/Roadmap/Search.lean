import Verif.Roadmap.Merge
import Mathlib.Order.Basic
import Mathlib.Order.Defs.LinearOrder

/-! The linear nearest neighbour search returns the first closest node (helper lemmas). -/
namespace Verif.Roadmap
variable {Q P K : Type} [LinearOrder K]

/-- Specification of a nearest neighbour search over a list of nodes: `n` is in the list, its distance is `m`, no node
of the list is closer and the nodes before it are strictly farther. -/
def FirstClosest (d : Q → K) (configs : List Q) (l : List Nat) (m : K) (n : Nat) : Prop :=
  ∃ pre post c, l = pre ++ n :: post ∧ configs[n]? = some c ∧ m = d c ∧
    (∀ x ∈ pre, ∀ y, configs[x]? = some y → m < d y) ∧ (∀ x ∈ post, ∀ y, configs[x]? = some y → m ≤ d y)

theorem searchLoop_some (d : Q → K) (configs : List Q) (ns done : List Nat) (m : K) (r : Nat)
    (h : FirstClosest d configs done m r) :
    ∃ m' r', searchLoop d configs ns (some (m, r)) = some (m', r') ∧
      FirstClosest d configs (done ++ ns) m' r' := by
  induction ns generalizing done m r with
  | nil => exact ⟨m, r, rfl, by simpa using h⟩
  | cons n ns ih =>
    obtain ⟨pre, post, c, h1, h2, h3, h4, h5⟩ := h
    have hd : done ++ n :: ns = (done ++ [n]) ++ ns := by simp
    rw [searchLoop]
    cases hn : configs[n]? with
    | none =>
      simp only
      rw [hd]
      refine ih _ _ _ ⟨pre, post ++ [n], c, by simp [h1], h2, h3, h4, ?_⟩
      intro x hx y hy
      rcases List.mem_append.1 hx with hx | hx
      · exact h5 x hx y hy
      · rw [List.mem_singleton.1 hx, hn] at hy; simp at hy
    | some cn =>
      simp only
      split
      · rename_i hlt
        rw [hd]
        refine ih _ _ _ ⟨done, [], cn, by simp, hn, rfl, ?_, by simp⟩
        intro x hx y hy
        rw [h1] at hx
        rcases List.mem_append.1 hx with hx | hx
        · exact lt_trans hlt (h4 x hx y hy)
        · rcases List.mem_cons.1 hx with rfl | hx
          · rw [h2] at hy; cases hy; rw [← h3]; exact hlt
          · exact lt_of_lt_of_le hlt (h5 x hx y hy)
      · rename_i hlt
        rw [hd]
        refine ih _ _ _ ⟨pre, post ++ [n], c, by simp [h1], h2, h3, h4, ?_⟩
        intro x hx y hy
        rcases List.mem_append.1 hx with hx | hx
        · exact h5 x hx y hy
        · rw [List.mem_singleton.1 hx, hn] at hy; cases hy; exact not_lt.1 hlt

theorem searchLoop_spec (d : Q → K) (configs : List Q) (ns : List Nat) (hne : ns ≠ [])
    (hv : ∀ n ∈ ns, n < configs.length) :
    ∃ m n, searchLoop d configs ns none = some (m, n) ∧ FirstClosest d configs ns m n := by
  cases ns with
  | nil => exact absurd rfl hne
  | cons n ns =>
    have hn := hv n (by simp)
    have hg : configs[n]? = some configs[n] := by simp [hn]
    rw [searchLoop, hg]
    simp only
    have := searchLoop_some d configs ns [n] (d configs[n]) n ⟨[], [], _, by simp, hg, rfl, by simp, by simp⟩
    simpa using this

theorem FirstClosest.mem {d : Q → K} {configs : List Q} {l : List Nat} {m : K} {n : Nat}
    (h : FirstClosest d configs l m n) : n ∈ l := by
  obtain ⟨pre, post, c, h1, _⟩ := h; simp [h1]

theorem FirstClosest.config {d : Q → K} {configs : List Q} {l : List Nat} {m : K} {n : Nat}
    (h : FirstClosest d configs l m n) : ∃ c, configs[n]? = some c ∧ m = d c := by
  obtain ⟨pre, post, c, h1, h2, h3, _⟩ := h; exact ⟨c, h2, h3⟩

theorem FirstClosest.le {d : Q → K} {configs : List Q} {l : List Nat} {m : K} {n : Nat}
    (h : FirstClosest d configs l m n) : ∀ x ∈ l, ∀ y, configs[x]? = some y → m ≤ d y := by
  obtain ⟨pre, post, c, h1, h2, h3, h4, h5⟩ := h
  intro x hx y hy
  rw [h1] at hx
  rcases List.mem_append.1 hx with hx | hx
  · exact le_of_lt (h4 x hx y hy)
  · rcases List.mem_cons.1 hx with rfl | hx
    · rw [h2] at hy; cases hy; exact le_of_eq h3
    · exact h5 x hx y hy

/-- The distance used by the searches: from the node to `q`, or from `q` to the node when `reverse`. -/
def qdist (E : Env Q P K) (q : Q) (reverse : Bool) (x : Q) : K := if reverse then E.dist q x else E.dist x q

theorem search_spec (E : Env Q P K) {r : Roadmap Q P} (h : Wf r) (q : Q) {c : Nat} (hc : c ∈ r.live) (rev : Bool) :
    ∃ m n, search E r q c rev = some (m, n) ∧
      FirstClosest (qdist E q rev) r.configs (r.comp c).nodes m n :=
  searchLoop_spec _ _ _ (h.nonempty c hc) (fun n hn => (h.owned c hc n hn).1)

/-- `n` is a closest node of all nodes. -/
def Closest (d : Q → K) (configs : List Q) (m : K) (n : Nat) : Prop :=
  (∃ c, configs[n]? = some c ∧ m = d c) ∧ ∀ y ∈ configs, m ≤ d y

theorem nearestLoop_some (E : Env Q P K) {r : Roadmap Q P} (h : Wf r) (q : Q) (rev : Bool) (cs : List Nat)
    (hcs : ∀ c ∈ cs, c ∈ r.live) (m : K) (n : Nat) (hv : ∃ c, r.configs[n]? = some c ∧ m = qdist E q rev c) :
    ∃ m' n', nearestLoop E r q rev cs (some (m, n)) = some (m', n') ∧ m' ≤ m ∧
      (∃ c, r.configs[n']? = some c ∧ m' = qdist E q rev c) ∧
      ∀ c ∈ cs, ∀ x ∈ (r.comp c).nodes, ∀ y, r.configs[x]? = some y → m' ≤ qdist E q rev y := by
  induction cs generalizing m n with
  | nil => exact ⟨m, n, rfl, le_refl _, hv, by simp⟩
  | cons c cs ih =>
    obtain ⟨d, k, h1, h2⟩ := search_spec E h q (hcs c (by simp)) rev
    unfold nearestLoop; rw [h1]
    simp only
    have hcs' : ∀ c ∈ cs, c ∈ r.live := fun c hc => hcs c (by simp [hc])
    split
    · rename_i hlt
      obtain ⟨m', n', k1, k2, k3, k4⟩ := ih hcs' d k h2.config
      refine ⟨m', n', k1, le_trans k2 (le_of_lt hlt), k3, ?_⟩
      intro c' hc' x hx y hy
      rcases List.mem_cons.1 hc' with rfl | hc'
      · exact le_trans k2 (h2.le x hx y hy)
      · exact k4 c' hc' x hx y hy
    · rename_i hlt
      obtain ⟨m', n', k1, k2, k3, k4⟩ := ih hcs' m n hv
      refine ⟨m', n', k1, k2, k3, ?_⟩
      intro c' hc' x hx y hy
      rcases List.mem_cons.1 hc' with rfl | hc'
      · exact le_trans k2 (le_trans (not_lt.1 hlt) (h2.le x hx y hy))
      · exact k4 c' hc' x hx y hy

theorem nearestNode_spec (E : Env Q P K) {r : Roadmap Q P} (h : Wf r) (q : Q) (rev : Bool)
    (hne : r.configs ≠ []) :
    ∃ m n, nearestNode E r q rev = some (m, n) ∧ Closest (qdist E q rev) r.configs m n := by
  have h0 : 0 < r.configs.length := List.length_pos_iff.2 hne
  have hl := h.cc_live 0 h0
  unfold nearestNode
  have hall : ∀ m, (∀ c ∈ r.live, ∀ x ∈ (r.comp c).nodes, ∀ y, r.configs[x]? = some y → m ≤ qdist E q rev y) →
      ∀ y ∈ r.configs, m ≤ qdist E q rev y := by
    intro m hm y hy
    obtain ⟨i, hi, rfl⟩ := List.getElem_of_mem hy
    exact hm _ (h.cc_live i hi) i (h.mem i hi) _ (by simp [hi])
  cases hlv : r.live with
  | nil => rw [hlv] at hl; simp at hl
  | cons c cs =>
    obtain ⟨d, k, h1, h2⟩ := search_spec E h q (c := c) (by simp [hlv]) rev
    unfold nearestLoop; rw [h1]
    simp only
    obtain ⟨m', n', k1, k2, k3, k4⟩ := nearestLoop_some E h q rev cs
      (fun c hc => by simp [hlv, hc]) d k h2.config
    refine ⟨m', n', k1, k3, hall m' ?_⟩
    intro c' hc' x hx y hy
    rw [hlv] at hc'
    rcases List.mem_cons.1 hc' with rfl | hc'
    · exact le_trans k2 (h2.le x hx y hy)
    · exact k4 c' hc' x hx y hy

end Verif.Roadmap
