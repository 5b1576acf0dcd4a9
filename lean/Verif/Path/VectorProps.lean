import Verif.Path.VectorLemmas

/-! # Properties of path vectors: C19-C22 -/
set_option linter.unusedSectionVars false

namespace Verif.PathV
variable {K C P : Type} [Field K] [LinearOrder K] [IsStrictOrderedRing K]

/-! ## C19: evaluation -/

/-- Applying the constraints of a path to a result, at a parameter. -/
def constrained (c : Option (Cst K C)) (s : K) (r : Except Err C) : Except Err C :=
  match r with
  | .error e => .error e
  | .ok q => match c with
    | none => .ok q
    | some c => c s q

/-- **C19**: for every vector with at least one piece and every parameter of its range, `rankAtParam` returns the index of an existing
piece and a parameter in the range of this piece, such that the lengths of the previous pieces plus the local offset give the parameter;
the value of the vector is that of the piece at the local parameter, to which the constraints of the vector are applied. -/
theorem C19_eval (O : Ops K C P) (v : Vec K C P) (hne : v.paths ≠ []) (hlen : ∀ p ∈ v.paths, O.lo p ≤ O.hi p) (s : K) (h0 : 0 ≤ s)
    (h1 : s ≤ (v.paths.map (fun p => O.hi p - O.lo p)).sum) :
    ∃ (i : Nat) (p : P) (l : K), rankAtParam O v s = .ok (i, l) ∧ v.paths[i]? = some p ∧ O.lo p ≤ l ∧ l ≤ O.hi p ∧
      ((v.paths.take i).map (fun p => O.hi p - O.lo p)).sum + (l - O.lo p) = s ∧ (i = 0 ∨ O.lo p < l) ∧
      evalV O v s = constrained v.cons s (O.eval p l) := by
  obtain ⟨A, p, B, u, e, a1, a2, a3, a4⟩ := exists_pos O v.paths hne s h0 h1
  have hl : ∀ p ∈ A, 0 ≤ O.len p := fun q hq => sub_nonneg.2 (hlen q (by rw [e]; simp [hq]))
  have hr := rank_at O v A B p u e hl a3 a2
  rw [← a4] at hr
  have ha : v.paths[A.length]? = some p := by rw [e]; simp
  refine ⟨A.length, p, u + O.lo p, hr, ha, by linarith, ?_, ?_, ?_, ?_⟩
  · unfold Ops.len at a2; linarith
  · have : v.paths.take A.length = A := by rw [e]; simp
    rw [this, a4]
    show total O A + _ = _
    ring
  · rcases a3 with rfl | a3
    · exact Or.inl rfl
    · exact Or.inr (by linarith)
  · unfold evalV
    rw [hr]
    simp only [at', ha, constrained]
    cases O.eval p (u + O.lo p) <;> rfl

/-- **C19**: `rankAtParam` throws exactly when the vector is empty (for parameters in range or not), and never returns an index
outside the vector. -/
theorem C19_throws (O : Ops K C P) (v : Vec K C P) (hlen : ∀ p ∈ v.paths, O.lo p ≤ O.hi p) (s : K) :
    ((∃ e, rankAtParam O v s = .error e) ↔ v.paths = []) ∧ ∀ i l, rankAtParam O v s = .ok (i, l) → i < v.paths.length := by
  by_cases hne : v.paths = []
  · have : rankAtParam O v s = .error .emptyVector := by unfold rankAtParam; rw [if_pos hne]
    rw [this]; simp [hne]
  · have hl : ∀ p ∈ v.paths, 0 ≤ O.len p := fun q hq => sub_nonneg.2 (hlen q hq)
    have key : ∃ i l, rankAtParam O v s = .ok (i, l) ∧ i < v.paths.length := by
      rcases lt_or_ge s 0 with hs | hs
      · obtain ⟨p, B, e⟩ := List.exists_cons_of_ne_nil hne
        have := rank_at O v [] B p s (by simpa using e) (by simp) (Or.inl rfl) (le_trans (le_of_lt hs) (hl p (by rw [e]; simp)))
        simp only [total_nil, zero_add] at this
        exact ⟨_, _, this, by rw [e]; simp⟩
      · rcases le_or_gt s (total O v.paths) with h1 | h1
        · obtain ⟨A, p, B, u, e, a1, a2, a3, a4⟩ := exists_pos O v.paths hne s hs h1
          have hr := rank_at O v A B p u e (fun q hq => hl q (by rw [e]; simp [hq])) a3 a2
          rw [← a4] at hr
          exact ⟨_, _, hr, by rw [e]; simp⟩
        · obtain ⟨A, p, e⟩ : ∃ A p, v.paths = A ++ [p] := ⟨_, _, (List.dropLast_append_getLast hne).symm⟩
          rw [e] at h1
          simp only [total_append, total_cons, total_nil, add_zero] at h1
          have hr := rank_beyond O v A p (s - total O A) e (fun q hq => hl q (by rw [e]; simp [hq])) (hl p (by rw [e]; simp))
            (by linarith)
          rw [add_sub_cancel] at hr
          exact ⟨_, _, hr, by rw [e]; simp⟩
    obtain ⟨i, l, hr, hi⟩ := key
    rw [hr]
    refine ⟨by simp [hne], ?_⟩
    intro j m hjm
    simp only [Except.ok.injEq, Prod.mk.injEq] at hjm
    rw [← hjm.1]; exact hi

/-! ## C20: length -/

/-- The ways of building a vector of paths: creation with or without constraints, appending, concatenation. -/
inductive Built (O : Ops K C P) : Vec K C P → Prop
  | create (c) : Built O (create c)
  | append (v p) : Built O v → Built O (appendPath O v p)
  | concat (v w r) : Built O v → Built O w → concatenate O v w = .ok r → Built O r

/-- A loop over the indices is a loop over the pieces. -/
theorem range_foldlM {α β : Type} (h : β → Nat → Except Err β) (g : β → α → Except Err β) (L : List α)
    (hg : ∀ i p acc, L[i]? = some p → h acc i = g acc p) (acc : β) : (List.range L.length).foldlM h acc = L.foldlM g acc := by
  have key : ∀ (M A : List α) (acc : β), L = A ++ M → (List.range' A.length M.length).foldlM h acc = M.foldlM g acc := by
    intro M
    induction M with
    | nil => intro A acc _; rfl
    | cons m M ih =>
      intro A acc e
      rw [List.length_cons, List.range'_succ, List.foldlM_cons, List.foldlM_cons]
      rw [hg A.length m acc (by rw [e]; simp)]
      congr 1
      funext acc'
      have := ih (A ++ [m]) acc' (by rw [e]; simp)
      rw [List.length_append, List.length_singleton] at this
      exact this
  have := key L [] acc rfl
  rwa [List.length_nil, ← List.range_eq_range'] at this

/-- What `pathAtRank` does to a piece. -/
def push (O : Ops K C P) (c : Option (Cst K C)) (p : P) : Except Err P :=
  match c with
  | none => .ok p
  | some c =>
    match O.constraints p with
    | some _ => .error .bothConstrained
    | none => .ok (O.copyWith c p)

theorem pathAtRank_eq (O : Ops K C P) (v : Vec K C P) (i : Nat) (p : P) (h : v.paths[i]? = some p) :
    pathAtRank O v i = push O v.cons p := by
  unfold pathAtRank at' push
  rw [h]
  rfl

/-- Append the piece with the constraints. -/
def pushStep (O : Ops K C P) (c : Option (Cst K C)) (acc : Vec K C P) (p : P) : Except Err (Vec K C P) :=
  match push O c p with
  | .error e => .error e
  | .ok p => .ok (appendPath O acc p)

theorem concatenate_eq (O : Ops K C P) (v w : Vec K C P) : concatenate O v w = w.paths.foldlM (pushStep O w.cons) v := by
  unfold concatenate
  refine range_foldlM _ _ w.paths (fun i p acc h => ?_) v
  rw [pathAtRank_eq O w i p h]
  rfl

theorem foldlM_push (O : Ops K C P) (c : Option (Cst K C)) (L : List P) (acc r : Vec K C P)
    (h : L.foldlM (pushStep O c) acc = .ok r) :
    ∃ Rs, List.Forall₂ (fun p r => push O c p = .ok r) L Rs ∧ r = Rs.foldl (appendPath O) acc := by
  induction L generalizing acc with
  | nil =>
    have : acc = r := by simpa [pure, Except.pure] using h
    exact ⟨[], .nil, this.symm⟩
  | cons p L ih =>
    rw [List.foldlM_cons] at h
    unfold pushStep at h
    cases hr : push O c p with
    | error e => rw [hr] at h; exact absurd h (by simp [bind, Except.bind])
    | ok p' =>
      rw [hr] at h
      obtain ⟨Rs, h1, h2⟩ := ih (appendPath O acc p') h
      exact ⟨p' :: Rs, .cons hr h1, h2⟩

/-- **C20**: after any sequence of creations, appends and concatenations, the range of a vector is `[0, sum of the lengths]`. -/
theorem C20_length (O : Ops K C P) (v : Vec K C P) (h : Built O v) :
    v.tr = (0, (v.paths.map (fun p => O.hi p - O.lo p)).sum) := by
  induction h with
  | create c => rfl
  | append v p _ ih => simp [appendPath, ih, Ops.len]
  | concat v w r _ _ hc ihv _ =>
    rw [concatenate_eq] at hc
    obtain ⟨Rs, _, rfl⟩ := foldlM_push O w.cons w.paths v r hc
    rw [appendAll, ihv]
    simp [total]
    rfl

/-- **C20**: concatenating appends the pieces (with the constraints of the second vector). -/
theorem C20_concatenate (O : Ops K C P) (v w r : Vec K C P) (h : concatenate O v w = .ok r) :
    ∃ Rs, List.Forall₂ (fun p q => push O w.cons p = .ok q) w.paths Rs ∧ r.paths = v.paths ++ Rs := by
  rw [concatenate_eq] at h
  obtain ⟨Rs, h1, rfl⟩ := foldlM_push O w.cons w.paths v r h
  exact ⟨Rs, h1, by rw [appendAll]⟩

/-! ### Flattening -/

/-- A constraint set that does not depend on the parameter. -/
def ConstC (c : Cst K C) : Prop := ∀ s s' q, c s q = c s' q

/-- Law of `copy(constraints)` on primitive paths. -/
structure LawfulCopy (O : Ops K C P) : Prop where
  lo : ∀ c p, O.lo (O.copyWith c p) = O.lo p
  hi : ∀ c p, O.hi (O.copyWith c p) = O.hi p
  eval : ∀ c p t s, ConstC c → O.constraints p = none → O.eval (O.copyWith c p) t = constrained (some c) s (O.eval p t)

/-- Consistent nested vectors: ranges computed by `appendPath`, no empty vector, constraints independent of the parameter. -/
def NestWF (O : Ops K C P) : (d : Nat) → Nest K C P d → Prop
  | 0, p => O.lo p ≤ O.hi p
  | _ + 1, .inl p => O.lo p ≤ O.hi p
  | d + 1, .inr v => v.tr = (0, total (nestOps O d) v.paths) ∧ v.paths ≠ [] ∧ (∀ c, v.cons = some c → ConstC c) ∧
      ∀ x ∈ v.paths, NestWF O d x

/-- Same condition for a vector. -/
def VecWF (O : Ops K C P) (d : Nat) (v : Vec K C (Nest K C P d)) : Prop :=
  v.tr = (0, total (nestOps O d) v.paths) ∧ v.paths ≠ [] ∧ (∀ c, v.cons = some c → ConstC c) ∧ ∀ x ∈ v.paths, NestWF O d x

theorem nestWF_len (O : Ops K C P) (d : Nat) (x : Nest K C P d) (h : NestWF O d x) : 0 ≤ (nestOps O d).len x := by
  induction d with
  | zero => exact sub_nonneg.2 h
  | succ d ih =>
    match x, h with
    | .inl p, h => exact sub_nonneg.2 h
    | .inr v, ⟨h1, _, _, h4⟩ =>
      show 0 ≤ v.tr.2 - v.tr.1
      rw [h1]
      simpa using total_nonneg (nestOps O d) v.paths (fun y hy => ih y (h4 y hy))

/-- `copy(constraints)` for nested vectors. -/
theorem nest_copy (O : Ops K C P) (L : LawfulCopy O) : ∀ d, LawfulCopy (nestOps O d)
  | 0 => L
  | d + 1 => by
    refine ⟨fun c x => ?_, fun c x => ?_, fun c x t s hc hx => ?_⟩
    · cases x with
      | inl p => exact L.lo c p
      | inr v => rfl
    · cases x with
      | inl p => exact L.hi c p
      | inr v => rfl
    · cases x with
      | inl p => exact L.eval c p t s hc hx
      | inr v =>
        have hv : v.cons = none := hx
        show evalV (nestOps O d) { v with cons := some c } t = constrained (some c) s (evalV (nestOps O d) v t)
        unfold evalV
        simp only [hv]
        have : rankAtParam (nestOps O d) { v with cons := some c } t = rankAtParam (nestOps O d) v t := rfl
        rw [this]
        cases rankAtParam (nestOps O d) v t with
        | error e => rfl
        | ok r =>
          have : ∀ i, at' { v with cons := some c } i = at' v i := fun _ => rfl
          simp only [this]
          cases at' v r.1 with
          | error e => rfl
          | ok p =>
            simp only
            cases (nestOps O d).eval p r.2 with
            | error e => rfl
            | ok q => exact hc t s q

/-- `Q` is a flat version of the piece `x` under constraints `c`. -/
def Flat (O : Ops K C P) (d : Nat) (c : Option (Cst K C)) (x : Nest K C P d) (Q : List P) : Prop :=
  Q ≠ [] ∧ (∀ p ∈ Q, 0 ≤ O.len p) ∧ total O Q = (nestOps O d).len x ∧
    ∀ u s, 0 ≤ u → u ≤ (nestOps O d).len x → evalU O Q u = constrained c s ((nestOps O d).eval x ((nestOps O d).lo x + u))

theorem evalU_block (O : Ops K C P) (A Q B : List P) (hlen : ∀ p ∈ A ++ Q ++ B, 0 ≤ O.len p) (hQ : Q ≠ []) (u : K) (h0 : 0 ≤ u)
    (h1 : u ≤ total O Q) (hA : A = [] ∨ 0 < u) : evalU O (A ++ Q ++ B) (total O A + u) = evalU O Q u := by
  obtain ⟨A', p, B', u', rfl, a1, a2, a3, rfl⟩ := exists_pos O Q hQ u h0 h1
  rw [evalU_at O A' B' p u' (fun q hq => hlen q (by simp [hq])) a3 a2]
  have := evalU_at O (A ++ A') (B' ++ B) p u' (fun q hq => hlen q (by
    rcases List.mem_append.1 hq with hq | hq <;> simp [hq])) (by
      rcases a3 with rfl | a3
      · rcases hA with rfl | hA
        · exact Or.inl rfl
        · exact Or.inr (by simpa using hA)
      · exact Or.inr a3) a2
  rw [← this]
  congr 1
  · simp
  · simp [add_assoc]

theorem forall₂_split {α β : Type} {R : α → β → Prop} {A : List α} {x : α} {B : List α} {Qs : List β}
    (h : List.Forall₂ R (A ++ x :: B) Qs) : ∃ QA q QB, Qs = QA ++ q :: QB ∧ List.Forall₂ R A QA ∧ R x q ∧ List.Forall₂ R B QB := by
  induction A generalizing Qs with
  | nil =>
    cases h with
    | cons h1 h2 => exact ⟨[], _, _, rfl, .nil, h1, h2⟩
  | cons a A ih =>
    cases h with
    | cons h1 h2 =>
      obtain ⟨QA, q, QB, rfl, k1, k2, k3⟩ := ih h2
      exact ⟨_ :: QA, q, QB, rfl, .cons h1 k1, k2, k3⟩

theorem flat_total (O : Ops K C P) (d : Nat) (c : Option (Cst K C)) (L : List (Nest K C P d)) (Qs : List (List P))
    (h : List.Forall₂ (Flat O d c) L Qs) : total O Qs.flatten = total (nestOps O d) L ∧ (∀ p ∈ Qs.flatten, 0 ≤ O.len p) ∧
      (L ≠ [] → Qs.flatten ≠ []) ∧ (L = [] → Qs = []) := by
  induction h with
  | nil => simp
  | cons h1 _ ih =>
    obtain ⟨a1, a2, a3, a4⟩ := h1
    refine ⟨by simp [a3, ih.1], ?_, by simp [a1], by simp⟩
    intro p hp
    rw [List.flatten_cons, List.mem_append] at hp
    rcases hp with hp | hp
    · exact a2 p hp
    · exact ih.2.1 p hp

/-- Flattened pieces evaluate as the vector. -/
theorem flat_eval (O : Ops K C P) (d : Nat) (v : Vec K C (Nest K C P d)) (h : VecWF O d v) (Qs : List (List P))
    (hQ : List.Forall₂ (Flat O d v.cons) v.paths Qs) (s : K) (h0 : 0 ≤ s) (h1 : s ≤ total (nestOps O d) v.paths) :
    evalU O Qs.flatten s = evalV (nestOps O d) v s := by
  obtain ⟨A, x, B, u, e, a1, a2, a3, a4⟩ := exists_pos (nestOps O d) v.paths h.2.1 s h0 h1
  have hlen : ∀ y ∈ A, 0 ≤ (nestOps O d).len y := fun y hy => nestWF_len O d y (h.2.2.2 y (by rw [e]; simp [hy]))
  rw [e] at hQ
  obtain ⟨QA, q, QB, rfl, k1, k2, k3⟩ := forall₂_split hQ
  obtain ⟨t1, t2, t3, t4⟩ := flat_total O d v.cons A QA k1
  obtain ⟨_, t2', _, _⟩ := flat_total O d v.cons B QB k3
  obtain ⟨q1, q2, q3, q4⟩ := k2
  have hb := evalU_block O QA.flatten q QB.flatten (by
    intro p hp
    rcases List.mem_append.1 hp with hp | hp
    · rcases List.mem_append.1 hp with hp | hp
      · exact t2 p hp
      · exact q2 p hp
    · exact t2' p hp) q1 u a1 (by rw [q3]; exact a2) (by
      rcases a3 with rfl | a3
      · exact Or.inl (by rw [t4 rfl]; rfl)
      · exact Or.inr a3)
  rw [t1, ← a4] at hb
  rw [List.flatten_append, List.flatten_cons, ← List.append_assoc, hb, q4 u s a1 a2]
  have hr := rank_at (nestOps O d) v A B x u e hlen a3 a2
  rw [← a4] at hr
  have ha : v.paths[A.length]? = some x := by rw [e]; simp
  unfold evalV
  rw [hr]
  simp only [at', ha, constrained]
  rw [add_comm]
  rfl

theorem flatten_zero (O : Ops K C P) (v : Vec K C (Nest K C P 0)) (acc : Vec K C P) :
    flatten O 0 v acc = v.paths.foldlM (pushStep O v.cons) acc := concatenate_eq O acc v

/-- Body of the loop of `flatten`. -/
def flatStep (O : Ops K C P) (d : Nat) (c : Option (Cst K C)) (acc : Vec K C P) (p : Nest K C P (d + 1)) : Except Err (Vec K C P) :=
  match push (nestOps O (d + 1)) c p with
  | .error e => .error e
  | .ok (.inl p) => .ok (appendPath O acc p)
  | .ok (.inr w) => flatten O d w acc

theorem flatten_succ (O : Ops K C P) (d : Nat) (v : Vec K C (Nest K C P (d + 1))) (acc : Vec K C P) :
    flatten O (d + 1) v acc = v.paths.foldlM (flatStep O d v.cons) acc := by
  unfold flatten
  refine range_foldlM _ _ v.paths (fun i p acc h => ?_) acc
  rw [pathAtRank_eq (nestOps O (d + 1)) v i p h]
  rfl

theorem flatten_spec (O : Ops K C P) (L : LawfulCopy O) (d : Nat) (v : Vec K C (Nest K C P d)) (h : VecWF O d v)
    (acc r : Vec K C P) (hr : flatten O d v acc = .ok r) :
    ∃ Qs, List.Forall₂ (Flat O d v.cons) v.paths Qs ∧ r = Qs.flatten.foldl (appendPath O) acc := by
  induction d generalizing acc r with
  | zero =>
    rw [flatten_zero] at hr
    obtain ⟨Rs, k1, rfl⟩ := foldlM_push O v.cons v.paths acc r hr
    refine ⟨Rs.map (fun p => [p]), ?_, ?_⟩
    · rw [List.forall₂_map_right_iff]
      have hw := h.2.2.2
      have hcc := h.2.2.1
      clear hr h
      generalize v.paths = ps at k1 hw
      induction k1 with
      | nil => exact .nil
      | @cons p q ps qs hp _ ih =>
        refine .cons ?_ (ih (fun x hx => hw x (by simp [hx])))
        have hp0 : O.lo p ≤ O.hi p := hw p (by simp)
        have hcases : (v.cons = none ∧ q = p) ∨ ∃ c, v.cons = some c ∧ O.constraints p = none ∧ q = O.copyWith c p := by
          unfold push at hp
          cases hc : v.cons with
          | none => rw [hc] at hp; exact Or.inl ⟨rfl, (Except.ok.inj hp).symm⟩
          | some c =>
            rw [hc] at hp
            cases hcp : O.constraints p with
            | none => rw [hcp] at hp; simp at hp; exact Or.inr ⟨c, rfl, rfl, hp.symm⟩
            | some c' => rw [hcp] at hp; simp at hp
        have elo : O.lo q = O.lo p := by
          rcases hcases with ⟨_, rfl⟩ | ⟨c, _, _, rfl⟩
          · rfl
          · exact L.lo c p
        have ehi : O.hi q = O.hi p := by
          rcases hcases with ⟨_, rfl⟩ | ⟨c, _, _, rfl⟩
          · rfl
          · exact L.hi c p
        have elen : O.len q = O.len p := by unfold Ops.len; rw [elo, ehi]
        refine ⟨by simp, ?_, ?_, ?_⟩
        · intro z hz
          rw [List.mem_singleton.1 hz, elen]; exact sub_nonneg.2 hp0
        · simp only [total_cons, total_nil, add_zero]; exact elen
        · intro u s u0 u1
          have u1' : u ≤ O.len q := by rw [elen]; exact u1
          have := evalU_at O [] [] q u (by simp) (Or.inl rfl) u1'
          simp only [total_nil, zero_add, List.nil_append] at this
          rw [this, elo]
          show O.eval q (O.lo p + u) = constrained v.cons s (O.eval p (O.lo p + u))
          rcases hcases with ⟨hc, rfl⟩ | ⟨c, hc, hcp, rfl⟩
          · rw [hc]; unfold constrained; cases O.eval q (O.lo q + u) <;> rfl
          · rw [hc]; exact L.eval c p _ s (hcc c hc) hcp
    · congr 1
      clear k1 hr
      induction Rs with
      | nil => rfl
      | cons a Rs ih => simp [← ih]
  | succ d ih =>
    rw [flatten_succ] at hr
    have hw := h.2.2.2
    have hcc := h.2.2.1
    have LN := nest_copy O L (d + 1)
    clear h
    generalize hps : v.paths = ps at hr hw
    clear hps
    induction ps generalizing acc with
    | nil =>
      have : acc = r := by simpa [pure, Except.pure] using hr
      exact ⟨[], .nil, this.symm⟩
    | cons x ps ih2 =>
      rw [List.foldlM_cons] at hr
      unfold flatStep at hr
      have hx := hw x (by simp)
      cases hp : push (nestOps O (d + 1)) v.cons x with
      | error e => rw [hp] at hr; exact absurd hr (by simp [bind, Except.bind])
      | ok y =>
        rw [hp] at hr
        have hcases : (v.cons = none ∧ y = x) ∨ ∃ c, v.cons = some c ∧ (nestOps O (d + 1)).constraints x = none ∧
            y = (nestOps O (d + 1)).copyWith c x := by
          unfold push at hp
          cases hc : v.cons with
          | none => rw [hc] at hp; exact Or.inl ⟨rfl, (Except.ok.inj hp).symm⟩
          | some c =>
            rw [hc] at hp
            cases hcp : (nestOps O (d + 1)).constraints x with
            | none => rw [hcp] at hp; simp at hp; exact Or.inr ⟨c, rfl, rfl, hp.symm⟩
            | some c' => rw [hcp] at hp; simp at hp
        have elo : (nestOps O (d + 1)).lo y = (nestOps O (d + 1)).lo x := by
          rcases hcases with ⟨_, rfl⟩ | ⟨c, _, _, rfl⟩
          · rfl
          · exact LN.lo c x
        have ehi : (nestOps O (d + 1)).hi y = (nestOps O (d + 1)).hi x := by
          rcases hcases with ⟨_, rfl⟩ | ⟨c, _, _, rfl⟩
          · rfl
          · exact LN.hi c x
        have elen : (nestOps O (d + 1)).len y = (nestOps O (d + 1)).len x := by unfold Ops.len; rw [elo, ehi]
        have eev : ∀ t s, (nestOps O (d + 1)).eval y t = constrained v.cons s ((nestOps O (d + 1)).eval x t) := by
          intro t s
          rcases hcases with ⟨hc, rfl⟩ | ⟨c, hc, hcp, rfl⟩
          · rw [hc]; unfold constrained; cases (nestOps O (d + 1)).eval y t <;> rfl
          · rw [hc]; exact LN.eval c x _ s (hcc c hc) hcp
        have hl := nestWF_len O (d + 1) x hx
        match y, hr, elo, elen, eev, hcases with
        | .inl p, hr, elo, elen, eev, _ =>
          have hpl : O.len p = (nestOps O (d + 1)).len x := elen
          obtain ⟨Qs, k1, k2⟩ := ih2 (appendPath O acc p) hr (fun z hz => hw z (by simp [hz]))
          refine ⟨[p] :: Qs, .cons ⟨by simp, ?_, ?_, ?_⟩ k1, by rw [k2]; rfl⟩
          · intro z hz; rw [List.mem_singleton.1 hz, hpl]; exact hl
          · simp only [total_cons, total_nil, add_zero]; exact hpl
          · intro u s u0 u1
            have := evalU_at O [] [] p u (by simp) (Or.inl rfl) (by rw [hpl]; exact u1)
            simp only [total_nil, zero_add, List.nil_append] at this
            rw [this, ← elo]
            exact eev _ s
        | .inr w, hr, elo, elen, eev, hcases =>
          have ww : VecWF O d w := by
            rcases hcases with ⟨_, rfl⟩ | ⟨c, hc, hcp, hy⟩
            · exact hx
            · match x, hx, hy with
              | .inl p, _, hy => cases hy
              | .inr w', hx, hy =>
                have hy : w = { w' with cons := some c } := by
                  exact Sum.inr.inj hy
                subst hy
                exact ⟨hx.1, hx.2.1, fun c' hc' => by simp at hc'; rw [← hc']; exact hcc c hc, hx.2.2.2⟩
          cases hf : flatten O d w acc with
          | error e => simp only [hf] at hr; exact absurd hr (by simp [bind, Except.bind])
          | ok acc' =>
            simp only [hf] at hr
            obtain ⟨Ws, m1, m2⟩ := ih w ww acc acc' hf
            obtain ⟨Qs, k1, k2⟩ := ih2 acc' hr (fun z hz => hw z (by simp [hz]))
            obtain ⟨t1, t2, t3, _⟩ := flat_total O d w.cons w.paths Ws m1
            have wl : (nestOps O (d + 1)).len (.inr w) = total (nestOps O d) w.paths := by
              show w.tr.2 - w.tr.1 = _
              rw [ww.1]; simp
            refine ⟨Ws.flatten :: Qs, .cons ⟨t3 ww.2.1, t2, ?_, ?_⟩ k1, by rw [k2, m2, List.flatten_cons, List.foldl_append]⟩
            · rw [t1, ← wl]; exact elen
            · intro u s u0 u1
              rw [flat_eval O d w ww Ws m1 u u0 (by rw [← wl, elen]; exact u1), ← elo, ← eev _ s]
              show _ = evalV (nestOps O d) w (w.tr.1 + u)
              rw [ww.1]; simp

/-- **C20**: `flatten` of any nesting of vectors (none of them empty, constraints not depending on the parameter), appended to an empty
vector, gives a vector of primitive paths with the same length and the same value at every parameter. -/
theorem C20_flatten (O : Ops K C P) (L : LawfulCopy O) (d : Nat) (v : Vec K C (Nest K C P d)) (h : VecWF O d v) (r : Vec K C P)
    (hr : flatten O d v (create none) = .ok r) :
    r.tr = v.tr ∧ r.tr = (0, (r.paths.map (fun p => O.hi p - O.lo p)).sum) ∧
    ∀ s, 0 ≤ s → s ≤ v.tr.2 → evalV O r s = evalV (nestOps O d) v s := by
  obtain ⟨Qs, k1, rfl⟩ := flatten_spec O L d v h (create none) r hr
  obtain ⟨t1, _⟩ := flat_total O d v.cons v.paths Qs k1
  have e2 : v.tr = (0, total (nestOps O d) v.paths) := h.1
  rw [appendAll]
  refine ⟨by simp [create, e2, t1], by simp only [create, total, zero_add, List.nil_append]; rfl, fun s s0 s1 => ?_⟩
  rw [evalV_none O _ rfl]
  simp only [create, List.nil_append]
  exact flat_eval O d v h Qs k1 s s0 (by rw [e2] at s1; exact s1)

end Verif.PathV
