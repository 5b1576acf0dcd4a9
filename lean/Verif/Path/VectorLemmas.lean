import Verif.Path.Vector
import Mathlib.Data.List.Forall2
import Mathlib.Data.List.Chain
import Mathlib.Data.List.Induction

/-! # Lemmas about path vectors -/
set_option linter.unusedSectionVars false

namespace Verif.PathV
variable {K C P : Type} [Field K] [LinearOrder K] [IsStrictOrderedRing K]

/-- Sum of lengths. -/
def total (O : Ops K C P) (ps : List P) : K := (ps.map O.len).sum

omit [LinearOrder K] [IsStrictOrderedRing K] in
@[simp] theorem total_nil (O : Ops K C P) : total O [] = 0 := rfl
omit [LinearOrder K] [IsStrictOrderedRing K] in
@[simp] theorem total_cons (O : Ops K C P) (p : P) (ps : List P) : total O (p :: ps) = O.len p + total O ps := rfl
omit [LinearOrder K] [IsStrictOrderedRing K] in
@[simp] theorem total_append (O : Ops K C P) (ps qs : List P) : total O (ps ++ qs) = total O ps + total O qs := by
  simp [total]

theorem total_nonneg (O : Ops K C P) (ps : List P) (h : ∀ p ∈ ps, 0 ≤ O.len p) : 0 ≤ total O ps := by
  induction ps with
  | nil => simp
  | cons p ps ih =>
    have := h p (by simp)
    have := ih (fun q hq => h q (by simp [hq]))
    simp; linarith

omit [LinearOrder K] [IsStrictOrderedRing K] in
theorem total_reverse (O : Ops K C P) (ps : List P) : total O ps.reverse = total O ps := by
  induction ps with
  | nil => rfl
  | cons p ps ih => simp [ih, add_comm]

/-! ## Rank -/

theorem rankLoop_at (O : Ops K C P) (A B : List P) (p : P) (u : K) (hlen : ∀ p ∈ A, 0 ≤ O.len p) (hA : A = [] ∨ 0 < u)
    (hu : B ≠ [] → u ≤ O.len p) (res : Nat) : rankLoop O (A ++ p :: B) res (total O A + u) = (res + A.length, u) := by
  induction A generalizing res with
  | nil =>
    cases B with
    | nil => simp [rankLoop]
    | cons b B =>
      have := hu (by simp)
      simp [rankLoop, not_lt.2 this]
  | cons a A ih =>
    have h0 : 0 < u := by simpa using hA
    have hn := total_nonneg O A (fun q hq => hlen q (by simp [hq]))
    have e : ∃ q rest, A ++ p :: B = q :: rest := by
      cases A with
      | nil => exact ⟨p, B, rfl⟩
      | cons a A => exact ⟨a, A ++ p :: B, rfl⟩
    obtain ⟨q, rest, e⟩ := e
    have ih' := ih (fun q hq => hlen q (by simp [hq])) (Or.inr h0) (res + 1)
    rw [List.cons_append, e]
    rw [e] at ih'
    have ea : total O (a :: A) + u - O.len a = total O A + u := by simp; ring
    have hlt : O.len a < total O (a :: A) + u := by rw [total_cons]; linarith
    rw [rankLoop, if_pos hlt, ea, ih']
    simp; omega

/-- The rank and local parameter at a given position. -/
theorem rank_at (O : Ops K C P) (v : Vec K C P) (A B : List P) (p : P) (u : K) (hv : v.paths = A ++ p :: B)
    (hlen : ∀ p ∈ A, 0 ≤ O.len p) (hA : A = [] ∨ 0 < u) (hu : u ≤ O.len p) :
    rankAtParam O v (total O A + u) = .ok (A.length, u + O.lo p) := by
  unfold rankAtParam
  rw [if_neg (by rw [hv]; simp), hv, rankLoop_at O A B p u hlen hA (fun _ => hu)]
  simp [not_lt.2 hu]

/-- Beyond the end: the end of the last piece. -/
theorem rank_beyond (O : Ops K C P) (v : Vec K C P) (A : List P) (p : P) (u : K) (hv : v.paths = A ++ [p])
    (hlen : ∀ p ∈ A, 0 ≤ O.len p) (hp : 0 ≤ O.len p) (hu : O.len p < u) :
    rankAtParam O v (total O A + u) = .ok (A.length, O.hi p) := by
  unfold rankAtParam
  rw [if_neg (by rw [hv]; simp), hv, rankLoop_at O A [] p u hlen (Or.inr (lt_of_le_of_lt hp hu)) (by simp)]
  simp [hu]

/-- Every parameter in range has a position. -/
theorem exists_pos (O : Ops K C P) (ps : List P) (hne : ps ≠ []) (s : K) (h0 : 0 ≤ s) (h1 : s ≤ total O ps) :
    ∃ A p B u, ps = A ++ p :: B ∧ 0 ≤ u ∧ u ≤ O.len p ∧ (A = [] ∨ 0 < u) ∧ s = total O A + u := by
  induction ps generalizing s with
  | nil => exact absurd rfl hne
  | cons p ps ih =>
    by_cases h : s ≤ O.len p
    · exact ⟨[], p, ps, s, rfl, h0, h, Or.inl rfl, by simp⟩
    · have h := not_le.1 h
      have hps : ps ≠ [] := by rintro rfl; simp at h1; linarith
      simp only [total_cons] at h1
      obtain ⟨A, q, B, u, e, a1, a2, a3, a4⟩ := ih hps (s - O.len p) (by linarith) (by linarith)
      refine ⟨p :: A, q, B, u, by rw [e]; rfl, a1, a2, Or.inr ?_, ?_⟩
      · rcases a3 with rfl | a3
        · simp at a4; linarith
        · exact a3
      · simp only [total_cons]; linarith

/-- Evaluation of the pieces, without the constraints of the vector. -/
def evalU (O : Ops K C P) (ps : List P) (s : K) : Except Err C := evalV O ⟨none, (0, 0), ps⟩ s

omit [IsStrictOrderedRing K] in
theorem evalV_none (O : Ops K C P) (v : Vec K C P) (h : v.cons = none) (s : K) : evalV O v s = evalU O v.paths s := by
  obtain ⟨c, tr, ps⟩ := v
  simp only at h; subst h
  rfl

theorem evalU_at (O : Ops K C P) (A B : List P) (p : P) (u : K) (hlen : ∀ p ∈ A, 0 ≤ O.len p) (hA : A = [] ∨ 0 < u)
    (hu : u ≤ O.len p) : evalU O (A ++ p :: B) (total O A + u) = O.eval p (O.lo p + u) := by
  unfold evalU evalV
  rw [rank_at O ⟨none, (0, 0), A ++ p :: B⟩ A B p u rfl hlen hA hu]
  simp only [at', List.getElem?_append_right (le_refl _), Nat.sub_self, List.getElem?_cons_zero]
  rw [add_comm]
  cases O.eval p (O.lo p + u) <;> rfl

/-- Consecutive pieces agree at their junction. -/
def Chained (O : Ops K C P) (ps : List P) : Prop := ps.IsChain (fun p q => O.eval p (O.hi p) = O.eval q (O.lo q))

theorem chained_at (O : Ops K C P) (A B : List P) (p : P) (u : K) (hlen : ∀ p ∈ A, 0 ≤ O.len p) (hc : Chained O (A ++ p :: B))
    (h0 : 0 ≤ u) (hu : u ≤ O.len p) : evalU O (A ++ p :: B) (total O A + u) = O.eval p (O.lo p + u) := by
  induction A using List.reverseRecOn generalizing B p u with
  | nil => exact evalU_at O [] B p u (by simp) (Or.inl rfl) hu
  | append_singleton A a ih =>
    rcases lt_or_eq_of_le h0 with h0 | h0
    · exact evalU_at O _ B p u hlen (Or.inr h0) hu
    · subst h0
      have ha := hlen a (by simp)
      have e : A ++ [a] ++ p :: B = A ++ a :: (p :: B) := by simp
      rw [e] at hc ⊢
      have := ih (p :: B) a (O.len a) (fun q hq => hlen q (by simp [hq])) hc ha (le_refl _)
      simp only [total_append, total_cons, total_nil, add_zero]
      rw [this]
      have hj : O.eval a (O.hi a) = O.eval p (O.lo p) := by
        have h2 := List.IsChain.right_of_append hc
        exact (List.isChain_cons_cons.1 h2).1
      rw [show O.lo a + O.len a = O.hi a by unfold Ops.len; ring, hj]

/-! ## Traversals -/

/-- From position `pos`, piece `r` runs along `F`; at its start only if `Z`. -/
def Seg (O : Ops K C P) (Z : Prop) (F : K → Except Err C) (pos : K) (r : P) : Prop :=
  0 ≤ O.len r ∧ ∀ x, 0 ≤ x → x ≤ O.len r → (Z ∨ 0 < x) → O.eval r (O.lo r + x) = F (pos + x)

/-- A list of pieces runs along `F`. -/
def Trav (O : Ops K C P) (Z : Prop) (F : K → Except Err C) : K → List P → Prop
  | _, [] => True
  | pos, r :: rs => Seg O Z F pos r ∧ Trav O Z F (pos + O.len r) rs

theorem trav_append (O : Ops K C P) (Z : Prop) (F : K → Except Err C) (pos : K) (rs qs : List P) :
    Trav O Z F pos (rs ++ qs) ↔ Trav O Z F pos rs ∧ Trav O Z F (pos + total O rs) qs := by
  induction rs generalizing pos with
  | nil => simp [Trav]
  | cons r rs ih =>
    simp only [List.cons_append, Trav, ih, total_cons, add_assoc, and_assoc]

theorem Seg.weaken {O : Ops K C P} {Z Z' : Prop} {F : K → Except Err C} {pos : K} {r : P} (h : Seg O Z F pos r) (hz : Z' → Z) :
    Seg O Z' F pos r := ⟨h.1, fun x a b c => h.2 x a b (c.imp hz id)⟩

theorem Trav.weaken {O : Ops K C P} {Z Z' : Prop} {F : K → Except Err C} {pos : K} {rs : List P} (h : Trav O Z F pos rs) (hz : Z' → Z) :
    Trav O Z' F pos rs := by
  induction rs generalizing pos with
  | nil => trivial
  | cons r rs ih => exact ⟨h.1.weaken hz, ih h.2⟩

theorem trav_mem {O : Ops K C P} {Z : Prop} {F : K → Except Err C} {pos : K} {A B : List P} {r : P} (h : Trav O Z F pos (A ++ r :: B)) :
    Seg O Z F (pos + total O A) r := ((trav_append O Z F pos A (r :: B)).1 h).2.1

theorem trav_nonneg {O : Ops K C P} {Z : Prop} {F : K → Except Err C} {pos : K} {rs : List P} (h : Trav O Z F pos rs) :
    ∀ r ∈ rs, 0 ≤ O.len r := by
  intro r hr
  obtain ⟨A, B, rfl⟩ := List.append_of_mem hr
  exact (trav_mem h).1

/-- Evaluating the concatenation of pieces that run along `F` gives `F`. -/
theorem trav_eval (O : Ops K C P) (F : K → Except Err C) (r : P) (rs : List P) (h0 : Seg O True F 0 r)
    (h : Trav O False F (O.len r) rs) (x : K) (hx0 : 0 ≤ x) (hx : x ≤ O.len r + total O rs) : evalU O (r :: rs) x = F x := by
  obtain ⟨A, p, B, u, e, a1, a2, a3, a4⟩ := exists_pos O (r :: rs) (by simp) x hx0 (by simpa using hx)
  have hT : Trav O False F 0 (r :: rs) := ⟨h0.weaken (by simp), by simpa using h⟩
  have hlen := trav_nonneg hT
  rw [a4]
  conv_lhs => rw [e]
  rw [evalU_at O A B p u (fun q hq => hlen q (by rw [e]; simp [hq])) a3 a2]
  rcases a3 with rfl | a3
  · simp only [List.nil_append, List.cons.injEq] at e
    obtain ⟨rfl, rfl⟩ := e
    simpa using h0.2 u a1 a2 (Or.inl trivial)
  · rw [e] at hT
    simpa using (trav_mem hT).2 u a1 a2 (Or.inr a3)

theorem trav_chained (O : Ops K C P) (F : K → Except Err C) (pos : K) (rs : List P) (h : Trav O True F pos rs) : Chained O rs := by
  induction rs generalizing pos with
  | nil => exact .nil
  | cons r rs ih =>
    cases rs with
    | nil => exact .singleton _
    | cons q rs =>
      refine List.isChain_cons_cons.2 ⟨?_, ih _ h.2⟩
      have h1 := h.1.2 (O.len r) h.1.1 (le_refl _) (Or.inl trivial)
      have h2 := h.2.1.2 0 (le_refl _) h.2.1.1 (Or.inl trivial)
      rw [add_zero, add_zero] at h2
      rw [show O.lo r + O.len r = O.hi r by unfold Ops.len; ring] at h1
      rw [h1, h2]

/-- The pieces of a list run along its evaluation. -/
theorem trav_self (O : Ops K C P) (Z : Prop) (A M B : List P) (hlen : ∀ p ∈ A ++ M ++ B, 0 ≤ O.len p) (hc : Z → Chained O (A ++ M ++ B))
    (a : K) (F : K → Except Err C) (hF : ∀ y, F y = evalU O (A ++ M ++ B) (a + y)) : Trav O Z F (total O A - a) M := by
  induction M generalizing A with
  | nil => trivial
  | cons m M ih =>
    have e : A ++ m :: M ++ B = A ++ [m] ++ M ++ B := by simp
    have e' : A ++ m :: M ++ B = A ++ m :: (M ++ B) := by simp
    refine ⟨⟨hlen m (by simp), fun x h1 h2 h3 => ?_⟩, ?_⟩
    · rw [hF, show a + (total O A - a + x) = total O A + x by ring, e']
      rcases h3 with h3 | h3
      · exact (chained_at O A (M ++ B) m x (fun q hq => hlen q (by simp [hq])) (by rw [← e']; exact hc h3) h1 h2).symm
      · exact (evalU_at O A (M ++ B) m x (fun q hq => hlen q (by simp [hq])) (Or.inr h3) h2).symm
    · have := ih (A ++ [m]) (by rw [← e]; exact hlen) (by rw [← e]; exact hc) (by rw [← e]; exact hF)
      simp only [total_append, total_cons, total_nil, add_zero] at this
      rwa [show total O A - a + O.len m = total O A + O.len m - a by ring]

/-! ## Laws of pieces -/

/-- What is expected of a class of paths `G` with its extraction and reversal. -/
structure Lawful (O : Ops K C P) (G : P → Prop) : Prop where
  nonneg : ∀ p, G p → 0 ≤ O.len p
  fwd : ∀ p a b r, G p → O.lo p ≤ a → a ≤ b → b ≤ O.hi p → O.extract p a b = .ok r →
    G r ∧ O.len r = b - a ∧ ∀ x, 0 ≤ x → x ≤ b - a → O.eval r (O.lo r + x) = O.eval p (a + x)
  bwd : ∀ p a b r, G p → O.lo p ≤ b → b < a → a ≤ O.hi p → O.extract p a b = .ok r →
    G r ∧ O.len r = a - b ∧ ∀ x, 0 ≤ x → x ≤ a - b → O.eval r (O.lo r + x) = O.eval p (a - x)
  rev : ∀ p r, G p → O.reverse p = .ok r →
    G r ∧ O.len r = O.len p ∧ ∀ x, 0 ≤ x → x ≤ O.len p → O.eval r (O.lo r + x) = O.eval p (O.hi p - x)

/-- The part of it about extraction in the same direction. -/
structure LawfulF (O : Ops K C P) (G : P → Prop) : Prop where
  nonneg : ∀ p, G p → 0 ≤ O.len p
  fwd : ∀ p a b r, G p → O.lo p ≤ a → a ≤ b → b ≤ O.hi p → O.extract p a b = .ok r →
    G r ∧ O.len r = b - a ∧ ∀ x, 0 ≤ x → x ≤ b - a → O.eval r (O.lo r + x) = O.eval p (a + x)

theorem Lawful.forward {O : Ops K C P} {G : P → Prop} (L : Lawful O G) : LawfulF O G := ⟨L.nonneg, L.fwd⟩

theorem Lawful.bwd' {O : Ops K C P} {G : P → Prop} (L : Lawful O G) (p : P) (a b : K) (r : P) (hp : G p) (h1 : O.lo p ≤ b) (h2 : b ≤ a)
    (h3 : a ≤ O.hi p) (h : O.extract p a b = .ok r) :
    G r ∧ O.len r = a - b ∧ ∀ x, 0 ≤ x → x ≤ a - b → O.eval r (O.lo r + x) = O.eval p (a - x) := by
  rcases lt_or_eq_of_le h2 with h2 | h2
  · exact L.bwd p a b r hp h1 h2 h3 h
  · subst h2
    obtain ⟨k1, k2, k3⟩ := L.fwd p b b r hp h1 (le_refl _) h3 h
    refine ⟨k1, k2, fun x x0 x1 => ?_⟩
    have : x = 0 := le_antisymm (by simpa using x1) x0
    subst this
    simpa using k3 0 x0 x1

/-- A path vector made of good pieces, with a consistent time range. -/
def WF (O : Ops K C P) (G : P → Prop) (v : Vec K C P) : Prop :=
  v.tr = (0, total O v.paths) ∧ ∀ p ∈ v.paths, G p

/-! ## Building vectors -/

theorem appendPath_wf (O : Ops K C P) (G : P → Prop) (v : Vec K C P) (p : P) (h : WF O G v) (hp : G p) : WF O G (appendPath O v p) := by
  obtain ⟨h1, h2⟩ := h
  refine ⟨?_, ?_⟩
  · simp [appendPath, h1]
  · intro q hq
    rcases List.mem_append.1 hq with hq | hq
    · exact h2 q hq
    · rw [List.mem_singleton.1 hq]; exact hp

omit [LinearOrder K] [IsStrictOrderedRing K] in
/-- Appending a list. -/
theorem appendAll (O : Ops K C P) (v : Vec K C P) (ps : List P) :
    ps.foldl (appendPath O) v = { v with paths := v.paths ++ ps, tr := (v.tr.1, v.tr.2 + total O ps) } := by
  induction ps generalizing v with
  | nil => simp
  | cons p ps ih => rw [List.foldl_cons, ih]; simp [appendPath, add_assoc]

/-! ## Loops -/

theorem midLoop_fwd (O : Ops K C P) (v : Vec K C P) (L M : List P) (q : P) (B : List P) (hv : v.paths = L ++ M ++ q :: B) (f : Nat)
    (hf : M.length ≤ f) (acc : Vec K C P) :
    midLoop O v false (L.length + M.length) f L.length acc = .ok (M.foldl (appendPath O) acc) := by
  induction M generalizing L f acc with
  | nil => cases f <;> simp [midLoop]
  | cons m M ih =>
    cases f with
    | zero => simp at hf
    | succ f =>
      unfold midLoop
      rw [if_pos (by simp)]
      have : at' v L.length = .ok m := by simp [at', hv]
      rw [this]
      simp only [Bool.false_eq_true, if_false]
      have := ih (L ++ [m]) (by rw [hv]; simp) f (by simpa using hf) (appendPath O acc m)
      simp only [List.length_append, List.length_singleton] at this
      rw [show L.length + (m :: M).length = L.length + 1 + M.length by simp; omega]
      exact this

/-- Step of the loops that append reversed pieces. -/
def revStep (O : Ops K C P) (acc : Vec K C P) (p : P) : Except Err (Vec K C P) :=
  match O.reverse p with
  | .error e => .error e
  | .ok p' => .ok (appendPath O acc p')

theorem midLoop_bwd (O : Ops K C P) (v : Vec K C P) (A M B : List P) (q : P) (hv : v.paths = A ++ q :: (M ++ B)) (f : Nat)
    (hf : M.length ≤ f) (acc : Vec K C P) :
    midLoop O v true A.length f (A.length + M.length) acc = M.reverse.foldlM (revStep O) acc := by
  induction M using List.reverseRecOn generalizing B f acc with
  | nil => cases f <;> simp [midLoop] <;> rfl
  | append_singleton M m ih =>
    cases f with
    | zero => simp at hf
    | succ f =>
      unfold midLoop
      rw [if_pos (by simp)]
      have : at' v (A.length + (M ++ [m]).length) = .ok m := by
        have e : A ++ q :: (M ++ [m] ++ B) = (A ++ q :: M) ++ m :: B := by simp
        unfold at'
        rw [hv, e, List.getElem?_append_right (by simp)]
        simp
      rw [this]
      simp only [if_true, List.reverse_append, List.reverse_cons, List.reverse_nil, List.nil_append, List.singleton_append,
        List.foldlM_cons]
      unfold revStep
      cases hr : O.reverse m with
      | error e => rfl
      | ok m' =>
        have := ih (m :: B) (by rw [hv]; simp) f (by simpa using hf) (appendPath O acc m')
        simp only [List.length_append, List.length_singleton]
        rw [show A.length + (M.length + 1) - 1 = A.length + M.length by omega]
        exact this

theorem revFold (O : Ops K C P) (L : List P) (acc w : Vec K C P) (h : L.foldlM (revStep O) acc = .ok w) :
    ∃ Rs, List.Forall₂ (fun p r => O.reverse p = .ok r) L Rs ∧ w = Rs.foldl (appendPath O) acc := by
  induction L generalizing acc with
  | nil =>
    have : acc = w := by simpa [pure, Except.pure] using h
    exact ⟨[], .nil, this.symm⟩
  | cons p L ih =>
    rw [List.foldlM_cons] at h
    unfold revStep at h
    cases hr : O.reverse p with
    | error e => rw [hr] at h; exact absurd h (by simp [bind, Except.bind])
    | ok p' =>
      rw [hr] at h
      obtain ⟨Rs, h1, h2⟩ := ih (appendPath O acc p') h
      exact ⟨p' :: Rs, .cons hr h1, h2⟩

/-- Reversed pieces run backwards along the evaluation. -/
theorem trav_rev {O : Ops K C P} {G : P → Prop} (L : Lawful O G) (A M B : List P) (hG : ∀ p ∈ A ++ M ++ B, G p)
    (hc : Chained O (A ++ M ++ B)) (a : K) (F : K → Except Err C) (hF : ∀ y, F y = evalU O (A ++ M ++ B) (a - y)) (Rs : List P)
    (hR : List.Forall₂ (fun p r => O.reverse p = .ok r) M.reverse Rs) :
    Trav O True F (a - (total O A + total O M)) Rs ∧ total O Rs = total O M ∧ ∀ r ∈ Rs, G r := by
  induction M using List.reverseRecOn generalizing B Rs with
  | nil =>
    simp at hR; subst hR
    exact ⟨trivial, rfl, by simp⟩
  | append_singleton M m ih =>
    simp only [List.reverse_append, List.reverse_cons, List.reverse_nil, List.nil_append, List.singleton_append] at hR
    cases hR with
    | @cons _ r _ Rs hr hR =>
      have e : A ++ (M ++ [m]) ++ B = A ++ M ++ m :: B := by simp
      have gm : G m := hG m (by simp)
      obtain ⟨k1, k2, k3⟩ := L.rev m r gm hr
      obtain ⟨j1, j2, j3⟩ := ih (m :: B) (by rw [← e]; exact hG) (by rw [← e]; exact hc) (by rw [← e]; exact hF) Rs hR
      have hlen : ∀ p ∈ A ++ M, 0 ≤ O.len p := fun p hp => L.nonneg p (hG p (by rw [e]; exact List.mem_append_left _ hp))
      refine ⟨⟨⟨by rw [k2]; exact L.nonneg m gm, fun x x0 x1 _ => ?_⟩, ?_⟩, ?_, ?_⟩
      · rw [k3 x x0 (by rwa [k2] at x1), hF, e]
        have := chained_at O (A ++ M) B m (O.len m - x) hlen (by rw [← e]; exact hc) (by rw [k2] at x1; linarith) (by linarith)
        simp only [total_append, total_cons, total_nil, add_zero]
        rw [show a - (a - (total O A + (total O M + O.len m)) + x) = total O (A ++ M) + (O.len m - x) by
          simp only [total_append]; ring, this]
        congr 1; unfold Ops.len; ring
      · simp only [total_append, total_cons, total_nil, add_zero, k2]
        rw [show a - (total O A + (total O M + O.len m)) + O.len m = a - (total O A + total O M) by ring]
        exact j1
      · simp only [total_append, total_cons, total_nil, add_zero, j2, k2]; ring
      · intro z hz
        rcases List.mem_cons.1 hz with rfl | hz
        · exact k1
        · exact j3 z hz

/-! ## Order of positions -/

/-- If `a ≤ b` the piece at `a` is before the piece at `b`. -/
theorem pos_order (O : Ops K C P) (A B A' B' : List P) (p q : P) (u w : K) (he : A ++ p :: B = A' ++ q :: B')
    (hlen : ∀ z ∈ A ++ p :: B, 0 ≤ O.len z) (hA : A = [] ∨ 0 < u) (hw : w ≤ O.len q)
    (hab : total O A + u ≤ total O A' + w) :
    (A = A' ∧ p = q ∧ B = B' ∧ u ≤ w) ∨ ∃ M, A' = A ++ p :: M ∧ B = M ++ q :: B' := by
  rcases List.append_eq_append_iff.1 he with ⟨D, h1, h2⟩ | ⟨D, h1, h2⟩
  · cases D with
    | nil =>
      simp only [List.append_nil, List.nil_append, List.cons.injEq] at h1 h2
      subst h1
      exact Or.inl ⟨rfl, h2.1, h2.2, by linarith⟩
    | cons d D =>
      simp only [List.cons_append, List.cons.injEq] at h2
      obtain ⟨rfl, h2⟩ := h2
      exact Or.inr ⟨D, h1, h2⟩
  · cases D with
    | nil =>
      simp only [List.append_nil, List.nil_append, List.cons.injEq] at h1 h2
      subst h1
      exact Or.inl ⟨rfl, h2.1.symm, h2.2.symm, by linarith⟩
    | cons d D =>
      exfalso
      simp only [List.cons_append, List.cons.injEq] at h2
      obtain ⟨rfl, h2⟩ := h2
      have hp : 0 < u := by
        rcases hA with h | h
        · rw [h] at h1; simp at h1
        · exact h
      have hD := total_nonneg O D (fun z hz => hlen z (by rw [h1]; simp [hz]))
      rw [h1] at hab
      simp only [total_append, total_cons] at hab
      linarith

end Verif.PathV
