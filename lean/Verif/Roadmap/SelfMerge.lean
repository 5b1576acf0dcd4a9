import Verif.Roadmap.Props

/-!
# Merging a roadmap with itself (C11)

`r->merge(r)` iterates on the lists of nodes and edges of `r`, which the loop itself extends.  The model of `Roadmap::merge(other)` (Model.lean) iterates on
the lists of another roadmap; here the loops look up the list at each iteration, as range-based loops on a `std::list` do.
-/
namespace Verif.Roadmap
variable {Q P K : Type}
variable [DecidableEq Q] [LinearOrder K]

/-- First loop of `Roadmap::merge(other)` when `other` is this roadmap: src/roadmap.cc:179-182; the iterator is at the node of rank `i`.  `none`: not ended
within `fuel` iterations. -/
def selfNodes (E : Env Q P K) : Nat → Nat → Roadmap Q P → List Nat → Option (Except Err (Roadmap Q P × List Nat))
  | 0, _, _, _ => none
  | fuel + 1, i, r, cn =>
    match r.configs[i]? with
    | none => some (.ok (r, cn))
    | some q =>
      match addNode E r q with
      | .error e => some (.error e)
      | .ok (r1, n) => selfNodes E fuel (i + 1) r1 (cn ++ [n])

/-- Second loop of `Roadmap::merge(other)` when `other` is this roadmap: src/roadmap.cc:183-188; the iterator is at the edge of rank `i`. -/
def selfEdges (E : Env Q P K) (cn : List Nat) : Nat → Nat → Roadmap Q P → Option (Except Err (Roadmap Q P))
  | 0, _, _ => none
  | fuel + 1, i, r =>
    match r.edges[i]? with
    | none => some (.ok r)
    | some e =>
      if E.zeroLength e.path then selfEdges E cn fuel (i + 1) r
      else
        match cn[e.src]?, cn[e.dst]? with
        | some a, some b =>
          match addEdges E r a b e.path with
          | .error er => some (.error er)
          | .ok r1 => selfEdges E cn fuel (i + 1) r1
        | _, _ => some (.error .nullPointer)

/-- `r->merge(r)`: src/roadmap.cc:177-189; each loop is given `fuel` iterations. -/
def selfMerge (E : Env Q P K) (fuel : Nat) (r : Roadmap Q P) : Option (Except Err (Roadmap Q P)) :=
  match selfNodes E fuel 0 r [] with
  | none => none
  | some (.error e) => some (.error e)
  | some (.ok (r1, cn)) => selfEdges E cn fuel 0 r1

/-! ## Proofs -/

theorem selfNodes_spec (E : Env Q P K) {V : List (Nat × Nat)} (fuel i : Nat) (r : Roadmap Q P) (cn : List Nat) (h : Inv V r) (hi : cn.length = i)
    (hle : i ≤ r.configs.length) (hcn : ∀ n ∈ cn, n < r.configs.length) :
    selfNodes E fuel i r cn = none ∨ ∃ r' cn', selfNodes E fuel i r cn = some (.ok (r', cn')) ∧ Inv V r' ∧ r'.edges = r.edges ∧
      cn'.length = r'.configs.length ∧ ∀ n ∈ cn', n < r'.configs.length := by
  induction fuel generalizing i r cn with
  | zero => exact Or.inl rfl
  | succ fuel ih =>
    rw [selfNodes]
    cases hq : r.configs[i]? with
    | none =>
      refine Or.inr ⟨r, cn, rfl, h, rfl, ?_, hcn⟩
      have := List.getElem?_eq_none_iff.1 hq
      omega
    | some q =>
      obtain ⟨r1, n, h1, h2, h3, h4, h5, -⟩ := h.addNode E q
      simp only [h1]
      have hlt : i < r.configs.length := (List.getElem?_eq_some_iff.1 hq).1
      have hlen := h4.length
      rcases ih (i + 1) r1 (cn ++ [n]) h2 (by simp [hi]) (by omega) (by
        intro x hx
        rcases List.mem_append.1 hx with hx | hx
        · exact (hcn x hx).trans_le hlen
        · rw [List.mem_singleton.1 hx]; exact (List.getElem?_eq_some_iff.1 h3).1) with k | ⟨r', cn', k1, k2, k3, k4, k5⟩
      · exact Or.inl k
      · exact Or.inr ⟨r', cn', k1, k2, k3.trans h5, k4, k5⟩

omit [DecidableEq Q] [LinearOrder K] in
theorem selfEdges_none (E : Env Q P K) {V : List (Nat × Nat)} (cn : List Nat) (fuel i : Nat) (r : Roadmap Q P) (h : Inv V r)
    (hlen : cn.length = r.configs.length) (hcn : ∀ n ∈ cn, n < r.configs.length)
    (j : Nat) (hj : i ≤ j) (e : Edge P) (he : r.edges[j]? = some e) (hz : E.zeroLength e.path = false) : selfEdges E cn fuel i r = none := by
  induction fuel generalizing i r j e with
  | zero => rfl
  | succ fuel ih =>
    rw [selfEdges]
    have hjl := (List.getElem?_eq_some_iff.1 he).1
    cases hx : r.edges[i]? with
    | none =>
      have := List.getElem?_eq_none_iff.1 hx
      omega
    | some x =>
      have hends := h.adj.ends x (List.mem_of_getElem? hx)
      by_cases hzx : E.zeroLength x.path = true
      · simp only [hzx, if_true]
        refine ih (i + 1) r h hlen hcn j ?_ e he hz
        rcases Nat.lt_or_eq_of_le hj with hlt | rfl
        · exact hlt
        · rw [hx] at he
          rw [Option.some.inj he, hz] at hzx
          cases hzx
      · simp only [hzx, Bool.false_eq_true, if_false]
        have e1 : cn[x.src]? = some (cn[x.src]'(by rw [hlen]; exact hends.1)) := List.getElem?_eq_getElem _
        have e2 : cn[x.dst]? = some (cn[x.dst]'(by rw [hlen]; exact hends.2)) := List.getElem?_eq_getElem _
        rw [e1, e2]
        obtain ⟨r1, m1, m2, m3⟩ := h.addEdges E x.path (a := cn[x.src]'(by rw [hlen]; exact hends.1)) (b := cn[x.dst]'(by rw [hlen]; exact hends.2))
          (hcn _ (List.getElem_mem _)) (hcn _ (List.getElem_mem _))
        simp only [m1]
        -- the first of the two edges that are added has the path of the edge `x`
        have hil := (List.getElem?_eq_some_iff.1 hx).1
        refine ih (i + 1) r1 m2 (by rw [m3.configs]; exact hlen) (by rw [m3.configs]; exact hcn) r.edges.length (by omega) _
          (by rw [m3.edges, List.getElem?_append_right le_rfl, Nat.sub_self]; rfl) ?_
        simpa using hzx

/-- C11: false when a roadmap is merged with itself.  For every roadmap reachable by a history that has an edge of positive length, `r->merge(r)` does not
end: each edge that is read adds two edges at the end of the list that is read. -/
theorem C11_self_counterexample (E : Env Q P K) (os : List (Op Q P)) (r : Roadmap Q P) (hr : run E empty os = .ok r) (e : Edge P) (he : e ∈ r.edges)
    (hz : E.zeroLength e.path = false) (fuel : Nat) : selfMerge E fuel r = none := by
  have h := run_inv E os Inv.empty hr
  unfold selfMerge
  rcases selfNodes_spec E fuel 0 r [] h rfl (Nat.zero_le _) (by simp) with k | ⟨r', cn, k1, k2, k3, k4, k5⟩
  · simp only [k]
  · simp only [k1]
    obtain ⟨j, hj, hje⟩ := List.getElem_of_mem he
    exact selfEdges_none E cn fuel 0 r' k2 k4 k5 j (Nat.zero_le _) e (by rw [k3, List.getElem?_eq_getElem hj, hje]) hz

omit [DecidableEq Q] [LinearOrder K] in
theorem selfEdges_zero (E : Env Q P K) (cn : List Nat) (i : Nat) (r : Roadmap Q P) (hz : ∀ e ∈ r.edges, E.zeroLength e.path = true) (fuel : Nat)
    (hf : r.edges.length - i < fuel) : selfEdges E cn fuel i r = some (.ok r) := by
  induction fuel generalizing i with
  | zero => omega
  | succ fuel ih =>
    rw [selfEdges]
    cases hx : r.edges[i]? with
    | none => rfl
    | some x =>
      have := (List.getElem?_eq_some_iff.1 hx).1
      simp only [hz x (List.mem_of_getElem? hx), if_true]
      exact ih (i + 1) (by omega)

theorem selfNodes_same (E : Env Q P K) (hE : Separates E) (os : List (Op Q P)) (r : Roadmap Q P) (hr : run E empty os = .ok r) (i : Nat) (cn : List Nat)
    (fuel : Nat) (hf : r.configs.length - i < fuel) : ∃ cn', selfNodes E fuel i r cn = some (.ok (r, cn')) := by
  induction fuel generalizing i cn with
  | zero => omega
  | succ fuel ih =>
    rw [selfNodes]
    cases hx : r.configs[i]? with
    | none => exact ⟨cn, rfl⟩
    | some q =>
      have := (List.getElem?_eq_some_iff.1 hx).1
      obtain ⟨r', n, h1, -, h2, -⟩ := C07_addNode E hE os r hr q
      rw [h2 (List.mem_of_getElem? hx)] at h1
      simp only [h1]
      exact ih (i + 1) _ (by omega)

/-- C11: merging a roadmap with itself ends if and only if no edge has a positive length, and then changes nothing (the distance separates the
configurations). -/
theorem C11_self_partial (E : Env Q P K) (hE : Separates E) (os : List (Op Q P)) (r : Roadmap Q P) (hr : run E empty os = .ok r) :
    (∀ e ∈ r.edges, E.zeroLength e.path = true) ↔ ∃ fuel, selfMerge E fuel r = some (.ok r) := by
  constructor
  · intro hz
    refine ⟨r.configs.length + r.edges.length + 1, ?_⟩
    obtain ⟨cn, h⟩ := selfNodes_same E hE os r hr 0 [] (r.configs.length + r.edges.length + 1) (by omega)
    unfold selfMerge
    simp only [h]
    exact selfEdges_zero E cn 0 r hz _ (by omega)
  · rintro ⟨fuel, hs⟩ e he
    by_contra hz
    rw [C11_self_counterexample E os r hr e he (by simpa using hz) fuel] at hs
    cases hs

/-- non-vacuous: two nodes and an edge -/
example : ∃ r, run lineEnv empty [.addNode 0, .addNode 7, .addEdge 0 1 ()] = .ok r ∧ ∀ fuel, selfMerge lineEnv fuel r = none := by
  have h : observe (fun r => r.edges.map (fun e => (e.src, e.dst))) [.addNode 0, .addNode 7, .addEdge 0 1 ()] = some [(0, 1)] := by decide +kernel
  obtain ⟨r, h1, h2⟩ := observe_some h
  cases he : r.edges with
  | nil => rw [he] at h2; cases h2
  | cons e l => exact ⟨r, h1, C11_self_counterexample lineEnv _ r h1 e (by rw [he]; simp) rfl⟩

end Verif.Roadmap
