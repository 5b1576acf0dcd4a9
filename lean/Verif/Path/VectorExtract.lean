import Verif.Path.VectorProps
import Mathlib.Tactic.FinCases
import Mathlib.Tactic.NormNum

/-! # Extraction and reversal of path vectors: C21, C22 -/
set_option linter.unusedSectionVars false

namespace Verif.PathV
variable {K C P : Type} [Field K] [LinearOrder K] [IsStrictOrderedRing K]

theorem len_hi (O : Ops K C P) (p : P) : O.lo p + O.len p = O.hi p := by unfold Ops.len; ring

/-- A vector made of one list of pieces. -/
theorem wf_of_list (O : Ops K C P) (G : P → Prop) (rs : List P) (h : ∀ p ∈ rs, G p) :
    WF O G (rs.foldl (appendPath O) (create none)) ∧ (rs.foldl (appendPath O) (create none)).paths = rs ∧
    (rs.foldl (appendPath O) (create none : Vec K C P)).cons = none := by
  rw [appendAll]
  exact ⟨⟨by simp [create], by simpa [create] using h⟩, by simp [create], rfl⟩

/-- Statement of correctness of an extracted or reversed vector: it runs along `F` on `[0, l]`. -/
def Runs (O : Ops K C P) (G : P → Prop) (Z : Prop) (r : Vec K C P) (l : K) (F : K → Except Err C) : Prop :=
  r.cons = none ∧ WF O G r ∧ total O r.paths = l ∧ (∀ x, 0 ≤ x → x ≤ l → evalV O r x = F x) ∧ (Z → Chained O r.paths)

theorem runs_of_trav (O : Ops K C P) (G : P → Prop) (Z : Prop) (F : K → Except Err C) (r0 : P) (rs : List P) (hG : ∀ p ∈ r0 :: rs, G p)
    (h0 : Seg O True F 0 r0) (h : Trav O Z F (O.len r0) rs) :
    Runs O G Z ((r0 :: rs).foldl (appendPath O) (create none)) (O.len r0 + total O rs) F := by
  obtain ⟨k1, k2, k3⟩ := wf_of_list O G (r0 :: rs) hG
  refine ⟨k3, k1, by rw [k2]; rfl, fun x x0 x1 => ?_, fun hz => ?_⟩
  · rw [evalV_none O _ k3, k2]
    exact trav_eval O F r0 rs h0 (h.weaken (by simp)) x x0 x1
  · rw [k2]
    exact trav_chained O F 0 (r0 :: rs) ⟨h0, by simpa using h.weaken (fun _ => hz)⟩

theorem extract_fwd {O : Ops K C P} {G : P → Prop} (L : LawfulF O G) (v : Vec K C P) (hwf : WF O G v) (hn : ∀ s, evalV O v s = evalU O v.paths s)
    (a b : K) (h0 : 0 ≤ a) (hab : a ≤ b) (hb : b ≤ total O v.paths) (r : Vec K C P) (hr : extractV O v a b = .ok r) :
    Runs O G (Chained O v.paths) r (b - a) (fun x => evalV O v (a + x)) := by
  have hF : (fun x => evalV O v (a + x)) = (fun x => evalU O v.paths (a + x)) := by funext x; exact hn _
  rw [hF]
  by_cases hne : v.paths = []
  · unfold extractV rankAtParam at hr; rw [if_pos hne] at hr; simp at hr
  have hlen : ∀ p ∈ v.paths, 0 ≤ O.len p := fun p hp => L.nonneg p (hwf.2 p hp)
  obtain ⟨A, p, B, u, e, a1, a2, a3, a4⟩ := exists_pos O v.paths hne a h0 (le_trans hab hb)
  obtain ⟨A', q, B', w, e', b1, b2, b3, b4⟩ := exists_pos O v.paths hne b (le_trans h0 hab) hb
  have hra := rank_at O v A B p u e (fun z hz => hlen z (by rw [e]; simp [hz])) a3 a2
  have hrb := rank_at O v A' B' q w e' (fun z hz => hlen z (by rw [e']; simp [hz])) b3 b2
  rw [← a4] at hra
  rw [← b4] at hrb
  have hap : at' v A.length = .ok p := by unfold at'; rw [e]; simp
  have haq : at' v A'.length = .ok q := by unfold at'; rw [e']; simp
  have gp : G p := hwf.2 p (by rw [e]; simp)
  have gq : G q := hwf.2 q (by rw [e']; simp)
  have hA : ∀ z ∈ A, 0 ≤ O.len z := fun z hz => hlen z (by rw [e]; simp [hz])
  have hA' : ∀ z ∈ A', 0 ≤ O.len z := fun z hz => hlen z (by rw [e']; simp [hz])
  unfold extractV at hr
  rw [hra, hrb] at hr
  simp only [hap, haq, decide_eq_false (not_lt.2 hab), Bool.false_eq_true, if_false] at hr
  -- the first extracted piece
  have first : ∀ t r0, O.lo p + u ≤ t → t ≤ O.hi p → O.extract p (u + O.lo p) t = .ok r0 →
      G r0 ∧ O.len r0 = t - (O.lo p + u) ∧ Seg O True (fun x => evalU O v.paths (a + x)) 0 r0 := by
    intro t r0 t1 t2 he
    obtain ⟨k1, k2, k3⟩ := L.fwd p (u + O.lo p) t r0 gp (by linarith) (by linarith) t2 he
    refine ⟨k1, by rw [k2]; ring, L.nonneg r0 k1, fun x x0 x1 _ => ?_⟩
    rw [k3 x x0 (by rw [← k2]; exact x1)]
    simp only [zero_add]
    rw [a4, e, show total O A + u + x = total O A + (u + x) by ring]
    have : u + x ≤ O.len p := by rw [k2] at x1; have := len_hi O p; linarith
    rw [evalU_at O A B p (u + x) hA (a3.imp id (fun h => by linarith)) this]
    congr 1; ring
  rcases pos_order O A B A' B' p q u w (e.symm.trans e') (by rw [← e]; exact hlen) a3 b2 (by rw [← a4, ← b4]; exact hab) with
    ⟨rfl, rfl, rfl, huw⟩ | ⟨M, hM1, hM2⟩
  · rw [if_pos rfl] at hr
    cases hx : O.extract p (u + O.lo p) (w + O.lo p) with
    | error err => rw [hx] at hr; simp at hr
    | ok r0 =>
      rw [hx] at hr
      simp only [Except.ok.injEq] at hr
      subst hr
      obtain ⟨g0, l0, s0⟩ := first (w + O.lo p) r0 (by linarith) (by have := len_hi O p; linarith) hx
      have := runs_of_trav O G (Chained O v.paths) _ r0 [] (by simpa using g0) s0 trivial
      simp only [total_nil, add_zero] at this
      rw [show b - a = O.len r0 by rw [l0, a4, b4]; ring]
      exact this
  · have hl : A'.length = (A ++ [p]).length + M.length := by rw [hM1]; simp; omega
    rw [if_neg (by rw [hl]; simp; omega)] at hr
    have e2 : v.paths = (A ++ [p]) ++ M ++ q :: B' := by rw [e', hM1]; simp
    cases hx : O.extract p (u + O.lo p) (O.hi p) with
    | error err => simp only [iEnd, Bool.false_eq_true, if_false, hx] at hr; simp at hr
    | ok r0 =>
      simp only [iEnd, iInit, Bool.false_eq_true, if_false, hx] at hr
      have hmid := midLoop_fwd O v (A ++ [p]) M q B' e2 v.paths.length (by rw [e2]; simp; omega) (appendPath O (create none) r0)
      rw [← hl, List.length_append, List.length_singleton] at hmid
      rw [hmid] at hr
      simp only at hr
      cases hy : O.extract q (O.lo q) (w + O.lo q) with
      | error err => rw [hy] at hr; simp at hr
      | ok rl =>
        rw [hy] at hr
        simp only [Except.ok.injEq] at hr
        obtain ⟨g0, l0, s0⟩ := first (O.hi p) r0 (by have := len_hi O p; linarith) (le_refl _) hx
        obtain ⟨gl, ll, kl⟩ := L.fwd q (O.lo q) (w + O.lo q) rl gq (le_refl _) (by linarith) (by have := len_hi O q; linarith) hy
        have hr' : r = (r0 :: (M ++ [rl])).foldl (appendPath O) (create none) := by
          rw [← hr, List.foldl_cons, List.foldl_append]; rfl
        have htA' : total O A' = total O A + O.len p + total O M := by rw [hM1]; simp; ring
        have hmidT := trav_self O (Chained O v.paths) (A ++ [p]) M (q :: B') (by rw [← e2]; exact hlen) (by rw [← e2]; exact id) a
          (fun x => evalU O v.paths (a + x)) (by intro y; rw [e2])
        have hpos : total O (A ++ [p]) - a = O.len r0 := by
          rw [l0, a4]; simp only [total_append, total_cons, total_nil]; unfold Ops.len; ring
        rw [hpos] at hmidT
        have hT : Trav O (Chained O v.paths) (fun x => evalU O v.paths (a + x)) (O.len r0) (M ++ [rl]) := by
          rw [trav_append]
          refine ⟨hmidT, ⟨L.nonneg rl gl, fun x x0 x1 hz => ?_⟩, trivial⟩
          rw [kl x x0 (by rw [← ll]; exact x1)]
          have ex : a + (O.len r0 + total O M + x) = total O A' + x := by
            rw [l0, htA', a4]; unfold Ops.len; ring
          have hxl : x ≤ O.len q := by rw [ll] at x1; linarith
          simp only [ex]
          rcases hz with hz | hz
          · rw [e'] at hz ⊢
            exact (chained_at O A' B' q x hA' hz x0 hxl).symm
          · rw [e']
            exact (evalU_at O A' B' q x hA' (Or.inr hz) hxl).symm
        have hG : ∀ z ∈ r0 :: (M ++ [rl]), G z := by
          intro z hz
          rcases List.mem_cons.1 hz with rfl | hz
          · exact g0
          · rcases List.mem_append.1 hz with hz | hz
            · exact hwf.2 z (by rw [e2]; simp [hz])
            · rw [List.mem_singleton.1 hz]; exact gl
        have := runs_of_trav O G (Chained O v.paths) _ r0 (M ++ [rl]) hG s0 hT
        rw [← hr'] at this
        have hlen' : O.len r0 + total O (M ++ [rl]) = b - a := by
          rw [b4, htA', a4, l0]; simp only [total_append, total_cons, total_nil, ll]; unfold Ops.len; ring
        rwa [hlen'] at this

theorem extract_bwd {O : Ops K C P} {G : P → Prop} (L : Lawful O G) (v : Vec K C P) (hwf : WF O G v) (hn : ∀ s, evalV O v s = evalU O v.paths s)
    (hch : Chained O v.paths) (a b : K) (h0 : 0 ≤ b) (hab : b < a) (hb : a ≤ total O v.paths) (r : Vec K C P)
    (hr : extractV O v a b = .ok r) : Runs O G True r (a - b) (fun x => evalV O v (a - x)) := by
  have hF : (fun x => evalV O v (a - x)) = (fun x => evalU O v.paths (a - x)) := by funext x; exact hn _
  rw [hF]
  by_cases hne : v.paths = []
  · unfold extractV rankAtParam at hr; rw [if_pos hne] at hr; simp at hr
  have hlen : ∀ p ∈ v.paths, 0 ≤ O.len p := fun p hp => L.nonneg p (hwf.2 p hp)
  obtain ⟨A, p, B, u, e, a1, a2, a3, a4⟩ := exists_pos O v.paths hne a (by linarith) hb
  obtain ⟨A', q, B', w, e', b1, b2, b3, b4⟩ := exists_pos O v.paths hne b h0 (by linarith)
  have hra := rank_at O v A B p u e (fun z hz => hlen z (by rw [e]; simp [hz])) a3 a2
  have hrb := rank_at O v A' B' q w e' (fun z hz => hlen z (by rw [e']; simp [hz])) b3 b2
  rw [← a4] at hra
  rw [← b4] at hrb
  have hap : at' v A.length = .ok p := by unfold at'; rw [e]; simp
  have haq : at' v A'.length = .ok q := by unfold at'; rw [e']; simp
  have gp : G p := hwf.2 p (by rw [e]; simp)
  have gq : G q := hwf.2 q (by rw [e']; simp)
  have hA : ∀ z ∈ A, 0 ≤ O.len z := fun z hz => hlen z (by rw [e]; simp [hz])
  have hA' : ∀ z ∈ A', 0 ≤ O.len z := fun z hz => hlen z (by rw [e']; simp [hz])
  have hlp := len_hi O p
  have hlq := len_hi O q
  unfold extractV at hr
  rw [hra, hrb] at hr
  simp only [hap, haq, decide_eq_true hab] at hr
  have first : ∀ t r0, O.lo p ≤ t → t ≤ O.lo p + u → O.extract p (u + O.lo p) t = .ok r0 →
      G r0 ∧ O.len r0 = O.lo p + u - t ∧ Seg O True (fun x => evalU O v.paths (a - x)) 0 r0 := by
    intro t r0 t1 t2 he
    obtain ⟨k1, k2, k3⟩ := L.bwd' p (u + O.lo p) t r0 gp t1 (by linarith) (by linarith) he
    refine ⟨k1, by rw [k2]; ring, L.nonneg r0 k1, fun x x0 x1 _ => ?_⟩
    rw [k3 x x0 (by rw [← k2]; exact x1)]
    simp only [zero_add]
    rw [k2] at x1
    have := chained_at O A B p (u - x) hA (by rw [← e]; exact hch) (by linarith) (by linarith)
    rw [a4, show total O A + u - x = total O A + (u - x) by ring, e, this]
    congr 1; ring
  rcases pos_order O A' B' A B q p w u (e'.symm.trans e) (by rw [← e']; exact hlen) b3 a2 (by rw [← a4, ← b4]; exact le_of_lt hab) with
    ⟨rfl, rfl, rfl, huw⟩ | ⟨M, hM1, hM2⟩
  · rw [if_pos rfl] at hr
    cases hx : O.extract q (u + O.lo q) (w + O.lo q) with
    | error err => rw [hx] at hr; simp at hr
    | ok r0 =>
      rw [hx] at hr
      simp only [Except.ok.injEq] at hr
      subst hr
      obtain ⟨g0, l0, s0⟩ := first (w + O.lo q) r0 (by linarith) (by linarith) hx
      have := runs_of_trav O G True _ r0 [] (by simpa using g0) s0 trivial
      simp only [total_nil, add_zero] at this
      rw [show a - b = O.len r0 by rw [l0, a4, b4]; ring]
      exact this
  · have hl : A.length = A'.length + 1 + M.length := by rw [hM1]; simp; omega
    rw [if_neg (by omega)] at hr
    have e2 : v.paths = A' ++ q :: (M ++ p :: B) := by rw [e, hM1]; simp
    cases hx : O.extract p (u + O.lo p) (O.lo p) with
    | error err => simp only [iEnd, if_true, hx] at hr; simp at hr
    | ok r0 =>
      simp only [iEnd, iInit, if_true, hx] at hr
      have hmid := midLoop_bwd O v A' M (p :: B) q e2 v.paths.length (by rw [e2]; simp; omega) (appendPath O (create none) r0)
      rw [show A'.length + M.length = A.length - 1 by omega] at hmid
      rw [hmid] at hr
      cases hacc : M.reverse.foldlM (revStep O) (appendPath O (create none) r0) with
      | error err => rw [hacc] at hr; simp at hr
      | ok acc =>
        rw [hacc] at hr
        simp only at hr
        obtain ⟨Rs, hRs, rfl⟩ := revFold O _ _ _ hacc
        cases hy : O.extract q (O.hi q) (w + O.lo q) with
        | error err => rw [hy] at hr; simp at hr
        | ok rl =>
          rw [hy] at hr
          simp only [Except.ok.injEq] at hr
          obtain ⟨g0, l0, s0⟩ := first (O.lo p) r0 (le_refl _) (by linarith) hx
          obtain ⟨gl, ll, kl⟩ := L.bwd' q (O.hi q) (w + O.lo q) rl gq (by linarith) (by linarith) (le_refl _) hy
          have e3 : v.paths = (A' ++ [q]) ++ M ++ p :: B := by rw [e2]; simp
          obtain ⟨t1, t2, t3⟩ := trav_rev L (A' ++ [q]) M (p :: B) (by rw [← e3]; exact hwf.2) (by rw [← e3]; exact hch) a
            (fun x => evalU O v.paths (a - x)) (by intro y; rw [e3]) Rs hRs
          have htA : total O A = total O A' + O.len q + total O M := by rw [hM1]; simp; ring
          have hpos : a - (total O (A' ++ [q]) + total O M) = O.len r0 := by
            rw [l0, a4, htA]; simp only [total_append, total_cons, total_nil]; ring
          rw [hpos] at t1
          have hr' : r = (r0 :: (Rs ++ [rl])).foldl (appendPath O) (create none) := by
            rw [← hr, List.foldl_cons, List.foldl_append]; rfl
          have hT : Trav O True (fun x => evalU O v.paths (a - x)) (O.len r0) (Rs ++ [rl]) := by
            rw [trav_append]
            refine ⟨t1, ⟨L.nonneg rl gl, fun x x0 x1 _ => ?_⟩, trivial⟩
            rw [kl x x0 (by rw [← ll]; exact x1)]
            rw [ll] at x1
            have ex : a - (O.len r0 + total O Rs + x) = total O A' + (O.len q - x) := by
              rw [l0, t2, a4, htA]; ring
            simp only [ex]
            have := chained_at O A' B' q (O.len q - x) hA' (by rw [← e']; exact hch) (by linarith) (by linarith)
            rw [e', this]
            congr 1; linarith
          have hG : ∀ z ∈ r0 :: (Rs ++ [rl]), G z := by
            intro z hz
            rcases List.mem_cons.1 hz with rfl | hz
            · exact g0
            · rcases List.mem_append.1 hz with hz | hz
              · exact t3 z hz
              · rw [List.mem_singleton.1 hz]; exact gl
          have := runs_of_trav O G True _ r0 (Rs ++ [rl]) hG s0 hT
          rw [← hr'] at this
          have hlen' : O.len r0 + total O (Rs ++ [rl]) = a - b := by
            rw [b4, a4, htA, l0]; simp only [total_append, total_cons, total_nil, ll, t2]; linarith
          rwa [hlen'] at this

theorem reverse_runs {O : Ops K C P} {G : P → Prop} (L : Lawful O G) (v : Vec K C P) (hwf : WF O G v) (hn : ∀ s, evalV O v s = evalU O v.paths s)
    (hch : Chained O v.paths) (r : Vec K C P) (hr : reverseV O v = .ok r) :
    Runs O G True r (total O v.paths) (fun x => evalV O v (total O v.paths - x)) := by
  have hF : (fun x => evalV O v (total O v.paths - x)) = (fun x => evalU O v.paths (total O v.paths - x)) := by
    funext x; exact hn _
  rw [hF]
  have hr' : v.paths.reverse.foldlM (revStep O) (create none) = .ok r := hr
  obtain ⟨Rs, hRs, rfl⟩ := revFold O _ _ _ hr'
  obtain ⟨t1, t2, t3⟩ := trav_rev L [] v.paths [] (by simpa using hwf.2) (by simpa using hch) (total O v.paths)
    (fun x => evalU O v.paths (total O v.paths - x)) (by intro y; simp) Rs hRs
  simp only [total_nil, zero_add, sub_self] at t1
  cases Rs with
  | nil =>
    have hps : v.paths = [] := by simpa using hRs
    refine ⟨rfl, ⟨rfl, by simp [create]⟩, by rw [hps]; rfl, fun x x0 x1 => ?_, fun _ => .nil⟩
    rw [hps] at x1 ⊢
    have : x = 0 := le_antisymm (by simpa using x1) x0
    subst this
    simp [evalU, evalV, rankAtParam, create]
  | cons r0 Rs =>
    have := runs_of_trav O G True _ r0 Rs t3 t1.1 (by simpa using t1.2)
    rw [show O.len r0 + total O Rs = total O v.paths from t2] at this
    exact this

/-! ## Laws for vectors, and for any nesting -/

/-- Vectors that are consistent, continuous at their junctions, and whose constraints, if any, are already satisfied by the pieces. -/
def GoodVec (O : Ops K C P) (G : P → Prop) (v : Vec K C P) : Prop :=
  (∀ s, evalV O v s = evalU O v.paths s) ∧ WF O G v ∧ Chained O v.paths

/-- The class of path vectors built on a lawful class of paths is lawful. -/
theorem vec_lawful {O : Ops K C P} {G : P → Prop} (L : Lawful O G) : Lawful (vecOps O) (GoodVec O G) := by
  have hl : ∀ v, GoodVec O G v → (vecOps O).len v = total O v.paths := by
    intro v ⟨_, h, _⟩
    show v.tr.2 - v.tr.1 = _
    rw [h.1]; simp
  have use : ∀ (r : Vec K C P) l F, Runs O G True r l F → GoodVec O G r ∧ (vecOps O).len r = l ∧
      ∀ x, 0 ≤ x → x ≤ l → (vecOps O).eval r ((vecOps O).lo r + x) = F x := by
    intro r l F ⟨k1, k2, k3, k4, k5⟩
    have g : GoodVec O G r := ⟨evalV_none O r k1, k2, k5 trivial⟩
    refine ⟨g, by rw [hl r g, k3], fun x x0 x1 => ?_⟩
    show evalV O r (r.tr.1 + x) = _
    rw [k2.1, zero_add]
    exact k4 x x0 x1
  refine ⟨fun v hv => ?_, fun v a b r hv h1 h2 h3 hr => ?_, fun v a b r hv h1 h2 h3 hr => ?_, fun v r hv hr => ?_⟩
  · rw [hl v hv]; exact total_nonneg O _ (fun p hp => L.nonneg p (hv.2.1.2 p hp))
  · have e1 : v.tr.1 ≤ a := h1
    have e2 : b ≤ v.tr.2 := h3
    rw [hv.2.1.1] at e1 e2
    obtain ⟨k1, k2, k3, k4, k5⟩ := extract_fwd L.forward v hv.2.1 hv.1 a b e1 h2 e2 r hr
    exact use r _ _ ⟨k1, k2, k3, k4, fun _ => k5 hv.2.2⟩
  · have e1 : v.tr.1 ≤ b := h1
    have e2 : a ≤ v.tr.2 := h3
    rw [hv.2.1.1] at e1 e2
    exact use r _ _ (extract_bwd L v hv.2.1 hv.1 hv.2.2 a b e1 h2 e2 r hr)
  · have := use r _ _ (reverse_runs L v hv.2.1 hv.1 hv.2.2 r hr)
    refine ⟨this.1, by rw [this.2.1, hl v hv], fun x x0 x1 => ?_⟩
    rw [hl v hv] at x1
    rw [this.2.2 x x0 x1]
    show _ = evalV O v (v.tr.2 - x)
    rw [hv.2.1.1]

theorem sum_lawful {P Q : Type} {O : Ops K C P} {O' : Ops K C Q} {G : P → Prop} {G' : Q → Prop} (L : Lawful O G) (L' : Lawful O' G') :
    Lawful (sumOps O O') (Sum.elim G G') := by
  have mapOk : ∀ {α β : Type} (f : α → β) (x : Except Err α) (y : β), x.map f = .ok y → ∃ z, x = .ok z ∧ y = f z := by
    intro α β f x y h
    cases x with
    | error e => simp [Except.map] at h
    | ok z => exact ⟨z, rfl, by simpa [Except.map] using h.symm⟩
  refine ⟨fun p hp => ?_, fun p a b r hp h1 h2 h3 hr => ?_, fun p a b r hp h1 h2 h3 hr => ?_, fun p r hp hr => ?_⟩
  · cases p with
    | inl p => exact L.nonneg p hp
    | inr p => exact L'.nonneg p hp
  · cases p with
    | inl p =>
      obtain ⟨z, hz, rfl⟩ := mapOk _ _ _ hr
      exact L.fwd p a b z hp h1 h2 h3 hz
    | inr p =>
      obtain ⟨z, hz, rfl⟩ := mapOk _ _ _ hr
      exact L'.fwd p a b z hp h1 h2 h3 hz
  · cases p with
    | inl p =>
      obtain ⟨z, hz, rfl⟩ := mapOk _ _ _ hr
      exact L.bwd p a b z hp h1 h2 h3 hz
    | inr p =>
      obtain ⟨z, hz, rfl⟩ := mapOk _ _ _ hr
      exact L'.bwd p a b z hp h1 h2 h3 hz
  · cases p with
    | inl p =>
      obtain ⟨z, hz, rfl⟩ := mapOk _ _ _ hr
      exact L.rev p z hp hz
    | inr p =>
      obtain ⟨z, hz, rfl⟩ := mapOk _ _ _ hr
      exact L'.rev p z hp hz

/-- Good nested vectors. -/
def NestG (O : Ops K C P) (G : P → Prop) : (d : Nat) → Nest K C P d → Prop
  | 0 => G
  | d + 1 => Sum.elim G (GoodVec (nestOps O d) (NestG O G d))

theorem nest_lawful {O : Ops K C P} {G : P → Prop} (L : Lawful O G) : ∀ d, Lawful (nestOps O d) (NestG O G d)
  | 0 => L
  | d + 1 => sum_lawful L (vec_lawful (nest_lawful L d))

/-! ## C21 -/

/-- **C21**: extracting `[a, b]`, `a ≤ b`, from a vector whose pieces extract correctly (no continuity is needed): the result has length
`b - a` and its value at its start plus `x` is the value of the vector at `a + x`.  `hc` holds in particular when the vector has no
constraints of its own (`C21_unconstrained`); the code drops them otherwise (`C21_constraints_counterexample`). -/
theorem C21_forward_partial {O : Ops K C P} {G : P → Prop} (L : LawfulF O G) (v : Vec K C P) (hwf : WF O G v)
    (hc : ∀ s, evalV O v s = evalU O v.paths s) (a b : K) (h0 : v.tr.1 ≤ a) (hab : a ≤ b) (hb : b ≤ v.tr.2) (r : Vec K C P)
    (hr : extractV O v a b = .ok r) :
    r.tr.2 - r.tr.1 = b - a ∧ ∀ x, 0 ≤ x → x ≤ b - a → evalV O r (r.tr.1 + x) = evalV O v (a + x) := by
  rw [hwf.1] at h0 hb
  obtain ⟨_, k2, k3, k4, _⟩ := extract_fwd L v hwf hc a b h0 hab hb r hr
  rw [k2.1]
  exact ⟨by simpa using k3, fun x x0 x1 => by rw [zero_add]; exact k4 x x0 x1⟩

/-- **C21**: extracting with `a > b` traverses the vector backwards, when the pieces agree at the junctions. -/
theorem C21_backward_partial {O : Ops K C P} {G : P → Prop} (L : Lawful O G) (v : Vec K C P) (hwf : WF O G v)
    (hc : ∀ s, evalV O v s = evalU O v.paths s) (hch : Chained O v.paths) (a b : K) (h0 : v.tr.1 ≤ b) (hab : b < a) (ha : a ≤ v.tr.2)
    (r : Vec K C P) (hr : extractV O v a b = .ok r) :
    r.tr.2 - r.tr.1 = a - b ∧ ∀ x, 0 ≤ x → x ≤ a - b → evalV O r (r.tr.1 + x) = evalV O v (a - x) := by
  rw [hwf.1] at h0 ha
  obtain ⟨_, k2, k3, k4, _⟩ := extract_bwd L v hwf hc hch a b h0 hab ha r hr
  rw [k2.1]
  exact ⟨by simpa using k3, fun x x0 x1 => by rw [zero_add]; exact k4 x x0 x1⟩

theorem C21_unconstrained (O : Ops K C P) (v : Vec K C P) (h : v.cons = none) : ∀ s, evalV O v s = evalU O v.paths s :=
  evalV_none O v h

/-- **C21**: the same laws hold for any nesting of vectors, with iterated extractions and reversals (`Lawful` is closed). -/
theorem C21_nested_partial {O : Ops K C P} {G : P → Prop} (L : Lawful O G) (d : Nat) :
    Lawful (vecOps (nestOps O d)) (GoodVec (nestOps O d) (NestG O G d)) := vec_lawful (nest_lawful L d)

/-- **C21**: the extraction of a non empty vector does not fail when the extraction and reversal of its pieces do not. -/
theorem C21_defined {O : Ops K C P} (v : Vec K C P) (hne : v.paths ≠ []) (hlen : ∀ p ∈ v.paths, O.lo p ≤ O.hi p)
    (hex : ∀ p ∈ v.paths, ∀ a b, O.lo p ≤ a → a ≤ O.hi p → O.lo p ≤ b → b ≤ O.hi p → ∃ r, O.extract p a b = .ok r)
    (hrev : ∀ p ∈ v.paths, ∃ r, O.reverse p = .ok r) (a b : K) (h0 : 0 ≤ a) (h1 : a ≤ total O v.paths) (h2 : 0 ≤ b)
    (h3 : b ≤ total O v.paths) : ∃ r, extractV O v a b = .ok r := by
  have hl : ∀ p ∈ v.paths, 0 ≤ O.len p := fun p hp => sub_nonneg.2 (hlen p hp)
  obtain ⟨A, p, B, u, e, a1, a2, a3, a4⟩ := exists_pos O v.paths hne a h0 h1
  obtain ⟨A', q, B', w, e', b1, b2, b3, b4⟩ := exists_pos O v.paths hne b h2 h3
  have hra := rank_at O v A B p u e (fun z hz => hl z (by rw [e]; simp [hz])) a3 a2
  have hrb := rank_at O v A' B' q w e' (fun z hz => hl z (by rw [e']; simp [hz])) b3 b2
  rw [← a4] at hra
  rw [← b4] at hrb
  have hap : at' v A.length = .ok p := by unfold at'; rw [e]; simp
  have haq : at' v A'.length = .ok q := by unfold at'; rw [e']; simp
  have mp : p ∈ v.paths := by rw [e]; simp
  have mq : q ∈ v.paths := by rw [e']; simp
  have hlp := len_hi O p
  have hlq := len_hi O q
  have hp := hlen p mp
  have hq := hlen q mq
  unfold extractV
  rw [hra, hrb]
  simp only [hap, haq]
  by_cases hab : a ≤ b
  · simp only [decide_eq_false (not_lt.2 hab), iEnd, iInit, Bool.false_eq_true, if_false]
    rcases pos_order O A B A' B' p q u w (e.symm.trans e') (by rw [← e]; exact hl) a3 b2 (by rw [← a4, ← b4]; exact hab) with
      ⟨rfl, rfl, rfl, huw⟩ | ⟨M, hM1, hM2⟩
    · rw [if_pos rfl]
      obtain ⟨r0, hr0⟩ := hex p mp (u + O.lo p) (w + O.lo p) (by linarith) (by linarith) (by linarith) (by linarith)
      rw [hr0]; exact ⟨_, rfl⟩
    · have hl : A'.length = (A ++ [p]).length + M.length := by rw [hM1]; simp; omega
      rw [if_neg (by rw [hl]; simp; omega)]
      have e2 : v.paths = (A ++ [p]) ++ M ++ q :: B' := by rw [e', hM1]; simp
      obtain ⟨r0, hr0⟩ := hex p mp (u + O.lo p) (O.hi p) (by linarith) (by linarith) (by linarith) (by linarith)
      rw [hr0]
      have hmid := midLoop_fwd O v (A ++ [p]) M q B' e2 v.paths.length (by rw [e2]; simp; omega) (appendPath O (create none) r0)
      rw [← hl, List.length_append, List.length_singleton] at hmid
      simp only [hmid]
      obtain ⟨r1, hr1⟩ := hex q mq (O.lo q) (w + O.lo q) (by linarith) (by linarith) (by linarith) (by linarith)
      rw [hr1]; exact ⟨_, rfl⟩
  · have hba := not_le.1 hab
    simp only [decide_eq_true hba, iEnd, iInit, if_true]
    rcases pos_order O A' B' A B q p w u (e'.symm.trans e) (by rw [← e']; exact hl) b3 a2 (by rw [← a4, ← b4]; exact le_of_lt hba) with
      ⟨rfl, rfl, rfl, huw⟩ | ⟨M, hM1, hM2⟩
    · rw [if_pos rfl]
      obtain ⟨r0, hr0⟩ := hex q mq (u + O.lo q) (w + O.lo q) (by linarith) (by linarith) (by linarith) (by linarith)
      rw [hr0]; exact ⟨_, rfl⟩
    · have hl : A.length = A'.length + 1 + M.length := by rw [hM1]; simp; omega
      rw [if_neg (by omega)]
      have e2 : v.paths = A' ++ q :: (M ++ p :: B) := by rw [e, hM1]; simp
      obtain ⟨r0, hr0⟩ := hex p mp (u + O.lo p) (O.lo p) (by linarith) (by linarith) (by linarith) (by linarith)
      rw [hr0]
      have hmid := midLoop_bwd O v A' M (p :: B) q e2 v.paths.length (by rw [e2]; simp; omega) (appendPath O (create none) r0)
      rw [show A'.length + M.length = A.length - 1 by omega] at hmid
      have hfold : ∀ (L : List P) (acc : Vec K C P), (∀ z ∈ L, z ∈ v.paths) → ∃ w, L.foldlM (revStep O) acc = .ok w := by
        intro L
        induction L with
        | nil => intro acc _; exact ⟨acc, rfl⟩
        | cons z L ih =>
          intro acc hz
          obtain ⟨z', hz'⟩ := hrev z (hz z (by simp))
          obtain ⟨w, hw⟩ := ih (appendPath O acc z') (fun y hy => hz y (by simp [hy]))
          refine ⟨w, ?_⟩
          rw [List.foldlM_cons]
          unfold revStep
          rw [hz']
          exact hw
      obtain ⟨acc, hacc⟩ := hfold M.reverse (appendPath O (create none) r0) (fun z hz => by rw [e2]; simp at hz; simp [hz])
      simp only [hmid, hacc]
      obtain ⟨r1, hr1⟩ := hex q mq (O.hi q) (w + O.lo q) (by linarith) (by linarith) (by linarith) (by linarith)
      rw [hr1]; exact ⟨_, rfl⟩

/-! ## C22 -/

/-- **C22**: the reverse of a vector has the same length and the same values in the opposite order. -/
theorem C22_reverse_partial {O : Ops K C P} {G : P → Prop} (L : Lawful O G) (v : Vec K C P) (hwf : WF O G v)
    (hc : ∀ s, evalV O v s = evalU O v.paths s) (hch : Chained O v.paths) (r : Vec K C P) (hr : reverseV O v = .ok r) :
    r.tr.2 - r.tr.1 = v.tr.2 - v.tr.1 ∧ ∀ x, 0 ≤ x → x ≤ v.tr.2 - v.tr.1 → evalV O r (r.tr.1 + x) = evalV O v (v.tr.2 - x) := by
  obtain ⟨_, k2, k3, k4, _⟩ := reverse_runs L v hwf hc hch r hr
  rw [k2.1, hwf.1]
  exact ⟨by simpa using k3, fun x x0 x1 => by rw [zero_add]; exact k4 x x0 (by simpa using x1)⟩

/-- **C22**: reversing twice gives back the same values. -/
theorem C22_involution_partial {O : Ops K C P} {G : P → Prop} (L : Lawful O G) (v : Vec K C P) (hwf : WF O G v)
    (hc : ∀ s, evalV O v s = evalU O v.paths s) (hch : Chained O v.paths) (r r' : Vec K C P) (hr : reverseV O v = .ok r)
    (hr' : reverseV O r = .ok r') :
    r'.tr = v.tr ∧ ∀ x, 0 ≤ x → x ≤ v.tr.2 → evalV O r' x = evalV O v x := by
  obtain ⟨k1, k2, k3, k4, k5⟩ := reverse_runs L v hwf hc hch r hr
  obtain ⟨j1, j2, j3, j4, j5⟩ := reverse_runs L r k2 (evalV_none O r k1) (k5 trivial) r' hr'
  refine ⟨by rw [j2.1, hwf.1, j3, k3], fun x x0 x1 => ?_⟩
  rw [hwf.1] at x1
  rw [k3] at j3 j4
  have hx1 : x ≤ total O v.paths := x1
  rw [j4 x x0 hx1]
  simp only
  rw [k4 _ (by linarith) (by linarith)]
  simp only [k3, sub_sub_cancel]

/-! ## A class of primitive paths: affine functions of one variable -/

/-- An affine path on `[lo, hi]`, possibly constrained. -/
structure Lin (K : Type) where
  lo : K
  hi : K
  c : K
  m : K
  cons : Option (Cst K K)

def linOps : Ops K K (Lin K) where
  lo p := p.lo
  hi p := p.hi
  eval p t := constrained p.cons t (.ok (p.c + p.m * t))
  extract p a b := if a ≤ b then .ok ⟨a, b, p.c, p.m, p.cons⟩ else .ok ⟨0, a - b, p.c + p.m * a, -p.m, p.cons⟩
  reverse p := .ok ⟨0, p.hi - p.lo, p.c + p.m * p.hi, -p.m, p.cons⟩
  constraints p := p.cons
  copyWith c p := { p with cons := some c }

theorem lin_lawful : Lawful (linOps (K := K)) (fun p => p.lo ≤ p.hi ∧ p.cons = none) := by
  refine ⟨fun p hp => sub_nonneg.2 hp.1, fun p a b r hp h1 h2 h3 hr => ?_, fun p a b r hp h1 h2 h3 hr => ?_, fun p r hp hr => ?_⟩
  · simp only [linOps, if_pos h2, Except.ok.injEq] at hr
    subst hr
    exact ⟨⟨h2, hp.2⟩, rfl, fun x _ _ => by simp [linOps, hp.2]⟩
  · simp only [linOps, if_neg (not_le.2 h2), Except.ok.injEq] at hr
    subst hr
    refine ⟨⟨by simpa using le_of_lt h2, hp.2⟩, by simp [linOps, Ops.len], fun x _ _ => ?_⟩
    simp only [linOps, hp.2, constrained]
    congr 1; ring
  · simp only [linOps, Except.ok.injEq] at hr
    subst hr
    refine ⟨⟨by simpa using hp.1, hp.2⟩, by simp [linOps, Ops.len], fun x _ _ => ?_⟩
    simp only [linOps, hp.2, constrained]
    congr 1; ring

theorem lin_copy : LawfulCopy (linOps (K := K)) :=
  ⟨fun _ _ => rfl, fun _ _ => rfl, fun c p t s hc hp => by
    have hp : p.cons = none := hp
    simp only [linOps, hp, constrained]
    exact hc t s _⟩

/-- Three pieces, the middle one of zero length, with ranges that do not start at 0. -/
def exVec : Vec ℚ ℚ (Lin ℚ) :=
  [(⟨1, 3, 0, 1, none⟩ : Lin ℚ), ⟨5, 5, -2, 1, none⟩, ⟨2, 4, 5, -1, none⟩].foldl (appendPath linOps) (create none)

theorem exVec_wf : WF linOps (fun p => p.lo ≤ p.hi ∧ p.cons = none) exVec :=
  (wf_of_list linOps _ _ (by intro p hp; fin_cases hp <;> exact ⟨by norm_num, rfl⟩)).1

theorem exVec_chained : Chained linOps exVec.paths := by
  show List.IsChain _ [(⟨1, 3, 0, 1, none⟩ : Lin ℚ), ⟨5, 5, -2, 1, none⟩, ⟨2, 4, 5, -1, none⟩]
  refine .cons_cons ?_ (.cons_cons ?_ (.singleton _)) <;> simp [linOps, constrained] <;> norm_num

/-- The hypotheses of C21 and C22 are met and the results are non trivial: `extract(3/2, 3)`, `extract(3, 3/2)`, `reverse()`. -/
example : (∀ s, evalV linOps exVec s = evalU linOps exVec.paths s) ∧
    ((extractV linOps exVec (3/2) 3).toOption.map (fun r => (r.tr, r.paths.length, (evalV linOps r 1).toOption))) =
      some ((0, 3/2), 3, some (5/2)) ∧
    ((extractV linOps exVec 3 (3/2)).toOption.map (fun r => (r.tr, r.paths.length, (evalV linOps r (1/4)).toOption))) =
      some ((0, 3/2), 3, some (9/4)) ∧
    ((reverseV linOps exVec).toOption.map (fun r => (r.tr, (evalV linOps r (1/4)).toOption))) = some ((0, 4), some (5/4)) := by
  refine ⟨evalV_none _ _ rfl, ?_, ?_, ?_⟩ <;> decide +kernel

/-- A vector of one piece with constraints (here the constraint doubles the configuration). -/
def exConstrained : Vec ℚ ℚ (Lin ℚ) := appendPath linOps (create (some (fun _ q => .ok (2 * q)))) ⟨0, 1, 1, 0, none⟩

/-- `extract` and `reverse` drop the constraints of the vector: the values change. -/
theorem C21_constraints_counterexample :
    (evalV linOps exConstrained (1/2)).toOption = some 2 ∧
    ((extractV linOps exConstrained 0 1).toOption.map (fun r => (evalV linOps r (1/2)).toOption)) = some (some 1) ∧
    ((reverseV linOps exConstrained).toOption.map (fun r => (evalV linOps r (1/2)).toOption)) = some (some 1) := by
  refine ⟨?_, ?_, ?_⟩ <;> decide +kernel

/-- A vector with a constraint that depends on the parameter (right hand side varying along the path): after `flatten` the constraint
is applied at the local parameter of each piece, the values change. -/
def exVarying : Vec ℚ ℚ (Lin ℚ) :=
  [(⟨0, 1, 0, 0, none⟩ : Lin ℚ), ⟨0, 1, 0, 0, none⟩].foldl (appendPath linOps) (create (some (fun s q => .ok (q + s))))

theorem C20_varying_counterexample :
    (evalV linOps exVarying (3/2)).toOption = some (3/2) ∧
    ((flatten linOps 0 exVarying (create none)).toOption.map (fun r => (evalV linOps r (3/2)).toOption)) = some (some (1/2)) := by
  refine ⟨?_, ?_⟩ <;> decide +kernel

/-- A nested example for `flatten`: a vector inside a vector, each with its own (constant) constraints on disjoint branches. -/
def exInner : Vec ℚ ℚ (Nest ℚ ℚ (Lin ℚ) 0) := ([(⟨0, 1, 2, 1, none⟩ : Lin ℚ), ⟨0, 1, 3, 1, none⟩] : List (Lin ℚ)).foldl (appendPath linOps)
  (create (some (fun _ q => .ok (2 * q))))
def exNested : Vec ℚ ℚ (Nest ℚ ℚ (Lin ℚ) 1) :=
  ([.inl (⟨0, 1, 5, 1, none⟩ : Lin ℚ), .inr exInner] : List (Nest ℚ ℚ (Lin ℚ) 1)).foldl (appendPath (nestOps linOps 1)) (create none)

example : VecWF linOps 1 exNested ∧
    ((flatten linOps 1 exNested (create none)).toOption.map (fun r => (r.tr, r.paths.length, (evalV linOps r (5/2)).toOption))) =
      some ((0, 3), 3, some 7) ∧ (evalV (nestOps linOps 1) exNested (5/2)).toOption = some 7 := by
  refine ⟨⟨?_, ?_, ?_, ?_⟩, ?_, ?_⟩
  · decide +kernel
  · exact List.cons_ne_nil _ _
  · intro c hc; exact absurd (show (none : Option (Cst ℚ ℚ)) = some c from hc) (by simp)
  · intro x hx
    have hx : x ∈ [(Sum.inl (⟨0, 1, 5, 1, none⟩ : Lin ℚ) : Nest ℚ ℚ (Lin ℚ) 1), .inr exInner] := hx
    rcases List.mem_cons.1 hx with rfl | hx
    · show (0 : ℚ) ≤ 1; norm_num
    · rw [List.mem_singleton.1 hx]
      refine ⟨by decide +kernel, List.cons_ne_nil _ _, ?_, ?_⟩
      · intro c hc
        have : some (fun (_ : ℚ) (q : ℚ) => (Except.ok (2 * q) : Except Err ℚ)) = some c := hc
        rw [← Option.some.inj this]
        intro s s' q; rfl
      · intro y hy
        have hy : y ∈ [(⟨0, 1, 2, 1, none⟩ : Lin ℚ), ⟨0, 1, 3, 1, none⟩] := hy
        have : y.lo = 0 ∧ y.hi = 1 := by
          rcases List.mem_cons.1 hy with rfl | hy
          · exact ⟨rfl, rfl⟩
          · rw [List.mem_singleton.1 hy]; exact ⟨rfl, rfl⟩
        show y.lo ≤ y.hi
        rw [this.1, this.2]; norm_num
  · decide +kernel
  · decide +kernel

/-! ## Concatenating a vector to itself -/

/-- `v->concatenate(v)`: path-vector.cc:98-102 where `path` is the object itself; `numberPaths()` is read again at each iteration. -/
def concatSelf (O : Ops K C P) : Nat → Nat → Vec K C P → Option (Except Err (Vec K C P))
  | 0, _, _ => none
  | f + 1, i, v =>
    if i < v.paths.length then
      match pathAtRank O v i with
      | .error e => some (.error e)
      | .ok p => concatSelf O f (i + 1) (appendPath O v p)
    else some (.ok v)

/-- **C20**: concatenating a non empty, unconstrained vector to itself never terminates. -/
theorem C20_self_counterexample (O : Ops K C P) (v : Vec K C P) (hne : v.paths ≠ []) (hc : v.cons = none) (fuel : Nat) :
    concatSelf O fuel 0 v = none := by
  have key : ∀ fuel i (v : Vec K C P), v.cons = none → i < v.paths.length → concatSelf O fuel i v = none := by
    intro fuel
    induction fuel with
    | zero => intros; rfl
    | succ f ih =>
      intro i v hc hi
      unfold concatSelf
      rw [if_pos hi]
      have : pathAtRank O v i = .ok v.paths[i] := by
        unfold pathAtRank at'
        rw [List.getElem?_eq_getElem hi]
        simp [hc]
      rw [this]
      exact ih (i + 1) _ hc (by simp [appendPath]; omega)
  exact key fuel 0 v hc (List.length_pos_iff.2 hne)

example : exVec.paths ≠ [] ∧ exVec.cons = none := ⟨by simp [exVec, appendPath], rfl⟩

end Verif.PathV
