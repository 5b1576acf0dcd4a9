import Verif.Planner.Trajectory
set_option linter.unusedSectionVars false

/-!
# Time parameterization of vectors of paths of any kind

The proof of `Planner/Trajectory.lean` that a vector with a new time parameterization of each piece is the same path run forward, for paths of any kind (used by C165).
-/
namespace Verif.Retime
open Verif.PathV Verif.TimeParam
open Verif.Turns (eval_first eval_next_chained law_lip RunForward)
open Set (Icc)

variable {C P : Type}

/-- A path with a polynomial time parameterization on `[0, T]`. -/
structure Timed (P : Type) where
  path : P
  law : Law

/-- Such a path seen through the interface of `Path`: path.hh:128-138, 193-195, 225-229, `eval` at the parameter given by the time parameterization (path.hh:305-325).  Extraction and
reversal of time-parameterized paths are the subject of C62 and not used here. -/
noncomputable def timed (O : Ops ℝ C P) : Ops ℝ C (Timed P) where
  lo _ := 0
  hi o := o.law.T
  eval o t := O.eval o.path (val o.law.a t)
  extract _ _ _ := .error .outOfRange
  reverse _ := .error .outOfRange
  constraints o := O.constraints o.path
  copyWith c o := { o with path := O.copyWith c o.path }

/-- The pieces of the result, in relation with those of the input: pieces with an empty range are left out, the others have a new law. -/
inductive Laws (O : Ops ℝ C P) (R : P → Law → Prop) : List P → List (Timed P) → Prop
  | nil : Laws O R [] []
  | skip (p : P) (l os) : O.lo p = O.hi p → Laws O R l os → Laws O R (p :: l) os
  | take (p : P) (law : Law) (l os) : R p law → Laws O R l os → Laws O R (p :: l) (⟨p, law⟩ :: os)

theorem Laws.mem {O : Ops ℝ C P} {R : P → Law → Prop} {l : List P} {os : List (Timed P)} (h : Laws O R l os) : ∀ o ∈ os, o.path ∈ l ∧ R o.path o.law := by
  induction h with
  | nil => simp
  | skip p l os _ _ ih => exact fun o ho => ⟨List.mem_cons_of_mem _ (ih o ho).1, (ih o ho).2⟩
  | take p law l os hr _ ih =>
    intro o ho
    rcases List.mem_cons.1 ho with rfl | ho
    · exact ⟨List.mem_cons_self .., hr⟩
    · exact ⟨List.mem_cons_of_mem _ (ih o ho).1, (ih o ho).2⟩

/-- The result is the input run forward, and its pieces are chained. -/
theorem run {O : Ops ℝ C P} {R : P → Law → Prop} (hR : ∀ p law, R p law → ∃ B, Good law (O.lo p) (O.hi p) B) {l : List P} {os : List (Timed P)} (h : Laws O R l os)
    (hb : ∀ p ∈ l, O.lo p = 0 ∧ 0 ≤ O.hi p) (hc : Chained O l) :
    (os ≠ [] → RunForward (evalU O l) (total O l) (evalU (timed O) os) (total (timed O) os)) ∧ (os = [] → total O l = 0) ∧ (∀ o ∈ os, 0 < (timed O).len o) ∧ Chained (timed O) os := by
  have hlen : ∀ l : List P, (∀ p ∈ l, O.lo p = 0 ∧ 0 ≤ O.hi p) → ∀ p ∈ l, 0 ≤ O.len p := by
    intro l hb p hp
    show 0 ≤ O.hi p - O.lo p
    rw [(hb p hp).1, sub_zero]; exact (hb p hp).2
  induction h with
  | nil => exact ⟨fun h => absurd rfl h, fun _ => rfl, by simp, List.IsChain.nil⟩
  | skip p l os hr h ih =>
    have hb' : ∀ q ∈ l, O.lo q = 0 ∧ 0 ≤ O.hi q := fun q hq => hb q (by simp [hq])
    have hl0 : O.len p = 0 := sub_eq_zero.2 hr.symm
    obtain ⟨i1, i2, i3, i4⟩ := ih hb' (List.IsChain.tail hc)
    refine ⟨fun hne => ?_, fun e => by rw [total_cons, hl0, i2 e, add_zero], i3, i4⟩
    obtain ⟨σ, M, s1, s2, s3, s4, s5⟩ := i1 hne
    refine ⟨σ, M, s1, s2, s3, by rw [total_cons, hl0, zero_add, s4], fun t ht => ?_⟩
    rw [s5 t ht]
    cases l with
    | nil => cases h; exact absurd rfl hne
    | cons q l =>
      have hT : (0 : ℝ) ≤ total (timed O) os := ht.1.trans ht.2
      have := eval_next_chained O p q l hl0.ge (hlen _ hb') (List.isChain_cons_cons.1 hc).1 (s := σ t)
        (by rw [← s3]; exact s1 ⟨le_rfl, hT⟩ ht ht.1) (by rw [← s4]; exact s1 ht ⟨hT, le_rfl⟩ ht.2)
      rw [hl0, zero_add] at this
      exact this.symm
  | take p law l os hs h ih =>
    have hb' : ∀ q ∈ l, O.lo q = 0 ∧ 0 ≤ O.hi q := fun q hq => hb q (by simp [hq])
    have hp := hb p (by simp)
    obtain ⟨i1, i2, i3, i4⟩ := ih hb' (List.IsChain.tail hc)
    obtain ⟨B, hg⟩ := hR _ _ hs
    have hT0 : 0 < law.T := hg.pos
    have h0 : O.lo p = 0 := hp.1
    have v0 : val law.a 0 = 0 := hg.start.trans h0
    have v1 : val law.a law.T = O.hi p := hg.stop
    have hmono : MonotoneOn (val law.a) (Icc 0 law.T) := hg.mono
    have hlip : ∀ s ∈ Icc 0 law.T, ∀ t ∈ Icc 0 law.T, s ≤ t → val law.a t - val law.a s ≤ B * (t - s) := by
      intro s hs t ht hst
      have := law_lip (l := law) 1 B (fun x hx => by
        obtain ⟨v, -, k1, k2, k3⟩ := hg.speed x hx
        exact ⟨v, k1, by rw [mul_one, abs_of_nonneg k2]; exact k3⟩) s hs t ht hst
      rw [mul_one] at this
      exact (le_abs_self _).trans this
    have lenT : (timed O).len ⟨p, law⟩ = law.T := sub_zero _
    have lenL : O.len p = O.hi p := by show O.hi p - O.lo p = _; rw [h0, sub_zero]
    have first : ∀ t ∈ Icc 0 law.T, evalU (timed O) (⟨p, law⟩ :: os) t = evalU O (p :: l) (val law.a t) := by
      intro t ht
      rw [eval_first _ _ _ (ht.2.trans lenT.ge), eval_first _ _ _ (show val law.a t ≤ _ by
        rw [lenL, ← v1]; exact hmono ht ⟨hT0.le, le_rfl⟩ ht.2)]
      show O.eval p (val law.a (0 + t)) = O.eval p (O.lo p + val law.a t)
      rw [h0, zero_add, zero_add]
    have pos : ∀ o ∈ (⟨p, law⟩ : Timed P) :: os, 0 < (timed O).len o := by
      intro o ho
      rcases List.mem_cons.1 ho with rfl | ho
      · rw [lenT]; exact hT0
      · exact i3 o ho
    cases os with
    | nil =>
      have hz := i2 rfl
      refine ⟨fun _ => ⟨val law.a, B, ?_, ?_, v0, ?_, ?_⟩, fun e => absurd e (by simp), pos, by simp [Chained]⟩
      · rw [total_cons, total_nil, add_zero, lenT]; exact hmono
      · rw [total_cons, total_nil, add_zero, lenT]; exact hlip
      · rw [total_cons, total_nil, add_zero, lenT, total_cons, hz, add_zero, lenL]; exact v1
      · rw [total_cons, total_nil, add_zero, lenT]; exact first
    | cons o os =>
      obtain ⟨σ, M, s1, s2, s3, s4, s5⟩ := i1 (by simp)
      have hT1 : 0 ≤ total (timed O) (o :: os) := total_nonneg _ _ fun x hx => (i3 x hx).le
      have hσ0 : ∀ t ∈ Icc 0 (total (timed O) (o :: os)), 0 ≤ σ t := fun t ht => by rw [← s3]; exact s1 ⟨le_rfl, hT1⟩ ht ht.1
      have hσ1 : ∀ t ∈ Icc 0 (total (timed O) (o :: os)), σ t ≤ total O l := fun t ht => by rw [← s4]; exact s1 ht ⟨hT1, le_rfl⟩ ht.2
      have hl : ∃ q l', l = q :: l' := by
        cases l with
        | nil => cases h
        | cons q l' => exact ⟨q, l', rfl⟩
      obtain ⟨q, l, rfl⟩ := hl
      have nextL : ∀ t ∈ Icc 0 (total (timed O) (o :: os)), evalU O (p :: q :: l) (O.hi p + σ t) = evalU O (q :: l) (σ t) := by
        intro t ht
        have := eval_next_chained O p q l (by rw [lenL]; exact hp.2) (hlen _ hb') (List.isChain_cons_cons.1 hc).1 (hσ0 t ht) (hσ1 t ht)
        rwa [lenL] at this
      have join : (timed O).eval ⟨p, law⟩ ((timed O).hi ⟨p, law⟩) = (timed O).eval o ((timed O).lo o) := by
        have e1 := s5 0 ⟨le_rfl, hT1⟩
        rw [← nextL 0 ⟨le_rfl, hT1⟩, s3, add_zero, eval_first _ _ _ (i3 o (by simp)).le, add_zero, eval_first _ _ _ lenL.ge] at e1
        rw [e1]
        show O.eval p (val law.a law.T) = O.eval p (O.lo p + O.hi p)
        rw [v1, h0, zero_add]
      have nextT : ∀ t ∈ Icc 0 (total (timed O) (o :: os)), evalU (timed O) (⟨p, law⟩ :: o :: os) (law.T + t) = evalU (timed O) (o :: os) t := by
        intro t ht
        have := eval_next_chained (timed O) ⟨p, law⟩ o os (by rw [lenT]; exact hT0.le) (fun x hx => (i3 x hx).le) join ht.1 ht.2
        rwa [lenT] at this
      have tot : total (timed O) (⟨p, law⟩ :: o :: os) = law.T + total (timed O) (o :: os) := by rw [total_cons, lenT]
      have hB : 0 ≤ B := by
        obtain ⟨v, -, -, k2, k3⟩ := hg.speed 0 ⟨le_rfl, hT0.le⟩
        exact k2.trans k3
      refine ⟨fun _ => ⟨fun t => if t ≤ law.T then val law.a t else O.hi p + σ (t - law.T), max B M, ?_, ?_, ?_, ?_, ?_⟩, fun e => absurd e (by simp), pos, List.isChain_cons_cons.2 ⟨join, i4⟩⟩
      · intro s hs t ht hst
        rw [tot] at hs ht
        simp only
        split_ifs with h1 h2
        · exact hmono ⟨hs.1, h1⟩ ⟨ht.1, h2⟩ hst
        · have k1 : val law.a s ≤ O.hi p := by rw [← v1]; exact hmono ⟨hs.1, h1⟩ ⟨hT0.le, le_rfl⟩ h1
          have := hσ0 (t - law.T) ⟨by linarith, by linarith [ht.2]⟩
          linarith
        · linarith
        · have := s1 (a := s - law.T) ⟨by linarith, by linarith [hs.2]⟩ (b := t - law.T) ⟨by linarith, by linarith [ht.2]⟩ (by linarith)
          linarith
      · intro s hs t ht hst
        rw [tot] at hs ht
        simp only
        split_ifs with h1 h2 h2
        · exact (hlip s ⟨hs.1, h2⟩ t ⟨ht.1, h1⟩ hst).trans (mul_le_mul_of_nonneg_right (le_max_left _ _) (by linarith))
        · linarith
        · have k1 := hlip s ⟨hs.1, h2⟩ law.T ⟨hT0.le, le_rfl⟩ h2
          rw [v1] at k1
          have k2 := s2 0 ⟨le_rfl, hT1⟩ (t - law.T) ⟨by linarith, by linarith [ht.2]⟩ (by linarith)
          rw [s3] at k2
          have k3 := mul_le_mul_of_nonneg_right (le_max_left B M) (show 0 ≤ law.T - s by linarith)
          have k4 := mul_le_mul_of_nonneg_right (le_max_right B M) (show 0 ≤ t - law.T by linarith)
          have k5 : max B M * (t - s) = max B M * (law.T - s) + max B M * (t - law.T) := by ring
          rw [sub_zero] at k2
          linarith
        · have := s2 (s - law.T) ⟨by linarith, by linarith [hs.2]⟩ (t - law.T) ⟨by linarith, by linarith [ht.2]⟩ (by linarith)
          rw [sub_sub_sub_cancel_right] at this
          have k4 := mul_le_mul_of_nonneg_right (le_max_right B M) (show 0 ≤ t - s by linarith)
          linarith
      · simp only [hT0.le, if_true]; exact v0
      · rw [tot]
        simp only
        have hpos : 0 < total (timed O) (o :: os) := by
          rw [total_cons]
          have := total_nonneg (timed O) os fun x hx => (i3 x (by simp [hx])).le
          linarith [i3 o (by simp)]
        rw [if_neg (by linarith), add_sub_cancel_left, s4, total_cons (p := p), lenL]
      · intro t ht
        rw [tot] at ht
        simp only
        split_ifs with h1
        · exact first t ⟨ht.1, h1⟩
        · have m : t - law.T ∈ Icc 0 (total (timed O) (o :: os)) := ⟨by linarith, by linarith [ht.2]⟩
          rw [nextL _ m, ← s5 _ m, ← nextT _ m]
          congr 1; ring

/-- A bound on the displacements along each piece is a bound on the displacements along the vector. -/
theorem lip_vec {O : Ops ℝ C P} {d : C → C → ℝ} (tri : ∀ x y z, d x z ≤ d x y + d y z) {V : ℝ} {os : List P} (pos : ∀ o ∈ os, 0 ≤ O.len o) (hc : Chained O os)
    (tot : ∀ o ∈ os, ∀ t, O.lo o ≤ t → t ≤ O.hi o → ∃ q, O.eval o t = .ok q)
    (hl : ∀ o ∈ os, ∀ s t q q', O.lo o ≤ s → s ≤ t → t ≤ O.hi o → O.eval o s = .ok q → O.eval o t = .ok q' → d q q' ≤ V * (t - s)) :
    os ≠ [] → ∀ s t q q', 0 ≤ s → s ≤ t → t ≤ total O os → evalU O os s = .ok q → evalU O os t = .ok q' → d q q' ≤ V * (t - s) := by
  induction os with
  | nil => exact fun h => absurd rfl h
  | cons o os ih =>
    intro _ s t q q' s0 hst ht hq hq'
    have lo := pos o (by simp)
    have ll : O.lo o + O.len o = O.hi o := by unfold Ops.len; ring
    have inside : ∀ s t q q', 0 ≤ s → s ≤ t → t ≤ O.len o → evalU O (o :: os) s = .ok q → evalU O (o :: os) t = .ok q' → d q q' ≤ V * (t - s) := by
      intro s t q q' s0 hst ht hq hq'
      rw [eval_first _ _ _ (hst.trans ht)] at hq
      rw [eval_first _ _ _ ht] at hq'
      have := hl o (by simp) _ _ q q' (by linarith) (by linarith) (by linarith) hq hq'
      rwa [add_sub_add_left_eq_sub] at this
    by_cases h1 : t ≤ O.len o
    · exact inside s t q q' s0 hst h1 hq hq'
    · push Not at h1
      cases os with
      | nil => rw [total_cons, total_nil, add_zero] at ht; linarith
      | cons p os =>
        have next : ∀ x, 0 ≤ x → x ≤ total O (p :: os) → evalU O (o :: p :: os) (O.len o + x) = evalU O (p :: os) x := fun x x0 x1 =>
          eval_next_chained O o p os lo (fun y hy => pos y (List.mem_cons_of_mem _ hy)) (List.isChain_cons_cons.1 hc).1 x0 x1
        have ih' := ih (fun y hy => pos y (List.mem_cons_of_mem _ hy)) (List.isChain_cons_cons.1 hc).2 (fun y hy => tot y (List.mem_cons_of_mem _ hy))
          (fun y hy => hl y (List.mem_cons_of_mem _ hy)) (by simp)
        rw [total_cons] at ht
        have et : t = O.len o + (t - O.len o) := by ring
        rw [et, next _ (by linarith) (by linarith)] at hq'
        by_cases h2 : s ≤ O.len o
        · obtain ⟨m, hm⟩ := tot o (by simp) (O.hi o) (by linarith) le_rfl
          have e1 : evalU O (o :: p :: os) (O.len o) = .ok m := by rw [eval_first _ _ _ le_rfl, ll, hm]
          have e2 : evalU O (p :: os) 0 = .ok m := by
            have := next 0 le_rfl (total_nonneg _ _ fun y hy => pos y (List.mem_cons_of_mem _ hy))
            rw [add_zero, e1] at this
            exact this.symm
          have k1 := inside s (O.len o) q m s0 h2 le_rfl hq e1
          have k2 := ih' 0 (t - O.len o) m q' le_rfl (by linarith) (by linarith) e2 hq'
          have k3 := tri q m q'
          have k4 : V * (t - s) = V * (O.len o - s) + V * (t - O.len o - 0) := by ring
          linarith
        · push Not at h2
          have es : s = O.len o + (s - O.len o) := by ring
          rw [es, next _ (by linarith) (by linarith)] at hq
          have := ih' (s - O.len o) (t - O.len o) q q' (by linarith) (by linarith) (by linarith) hq hq'
          rwa [sub_sub_sub_cancel_right] at this

end Verif.Retime
