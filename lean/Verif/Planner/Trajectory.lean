import Verif.Planner.TurnsOptimize
import Verif.TimeParam.Simple
set_option linter.unusedSectionVars false

/-!
# From the planners to trajectories (C140)

`SimpleTimeParameterization` run after the planners and the shortcuts of `Turns` and `TurnsOptimize`: the result is the same path run forward, within the velocity limits.
-/
namespace Verif.Turns
open Verif.PathV Verif.CV Verif.Planner Verif.TimeParam
open Verif.EndToEnd (Mode)
open Set (Icc)

variable {C ι : Type} [Fintype ι]

/-- A straight path with a polynomial time parameterization on `[0, T]`. -/
structure Timed (C : Type) where
  line : Line ℝ C
  law : Law

/-- Such a path seen through the interface of `Path`: path.hh:128-138, 193-195, 225-229, `eval` at the parameter given by the time parameterization (path.hh:305-325).  Extraction and
reversal of time-parameterized paths are the subject of C62 and not used here. -/
noncomputable def timedOps (W : World ℝ C ι) : Ops ℝ C (Timed C) where
  lo _ := 0
  hi o := o.law.T
  eval o t := (straightOps W.space).eval o.line (val o.law.a t)
  extract _ _ _ := .error .outOfRange
  reverse _ := .error .outOfRange
  constraints o := o.line.cons
  copyWith c o := { o with line := { o.line with cons := some c } }

/-- A straight path as `SimpleTimeParameterization` sees it; `dof a b i`: component `i` of `pinocchio::difference (b, a)`.  Velocity bound: straight-path.cc:132-140; derivative:
straight-path.cc:112-130. -/
noncomputable def piece {n : Nat} (dof : C → C → Fin n → ℝ) (p : Line ℝ C) : Piece n :=
  ⟨p.pr.1, p.pr.2, p.pr.2 - p.pr.1, fun i => if p.pr.1 = p.pr.2 then 0 else |dof p.q0 p.q1 i| / (p.pr.2 - p.pr.1), fun _ i => dof p.q0 p.q1 i / (p.pr.2 - p.pr.1)⟩

open Classical in
/-- The loop over the pieces, with the copies that it makes: simple-time-parameterization.cc:226-274. -/
noncomputable def timeLoop {n : Nat} (dof : C → C → Fin n → ℝ) (c : Cfg n) : List (Line ℝ C) → Except TimeParam.Err (List (Timed C))
  | [] => .ok []
  | p :: l =>
    if p.pr.1 = p.pr.2 then timeLoop dof c l
    else
      match paramPiece c (piece dof p) with
      | .error e => .error e
      | .ok o =>
        match timeLoop dof c l with
        | .error e => .error e
        | .ok r => .ok (⟨p, o.law⟩ :: r)

open Classical in
/-- `SimpleTimeParameterization::optimize` on a path vector of straight paths: simple-time-parameterization.cc:165-276; `none`: the input path itself is returned. -/
noncomputable def timeParam {n : Nat} (W : World ℝ C ι) (dof : C → C → Fin n → ℝ) (c : Cfg n) (v : Vec ℝ C (Line ℝ C)) : Except TimeParam.Err (Option (Vec ℝ C (Timed C))) :=
  if v.tr.2 - v.tr.1 = 0 then .ok none
  else if c.order ≤ 1 ∧ 0 < c.maxAcc then .error .invalid
  else if (∃ i l, c.limit i = some l ∧ ubOf c.safety l ≤ 0) ∧ (∃ i l, c.limit i = some l ∧ 0 ≤ lbOf c.safety l) then .error .invalid
  else
    match timeLoop dof c v.paths with
    | .error e => .error e
    | .ok r => .ok (some (r.foldl (appendPath (timedOps W)) (create none)))

/-- What is assumed of the components of the displacement: along a segment they are proportional to the parameter. -/
def DofOk {n : Nat} (W : World ℝ C ι) (dof : C → C → Fin n → ℝ) : Prop :=
  ∀ a b u v i, 0 ≤ u → u ≤ v → v ≤ 1 → dof (W.space.interp a b u) (W.space.interp a b v) i = (v - u) * dof a b i

/-! ## Specification -/

/-- The trajectory `g` on `[0, T]` is the path `f` on `[0, L]` run forward from one end to the other. -/
def RunForward (f : ℝ → Except PathV.Err C) (L : ℝ) (g : ℝ → Except PathV.Err C) (T : ℝ) : Prop :=
  ∃ σ : ℝ → ℝ, ∃ M, MonotoneOn σ (Icc 0 T) ∧ (∀ s ∈ Icc 0 T, ∀ t ∈ Icc 0 T, s ≤ t → σ t - σ s ≤ M * (t - s)) ∧ σ 0 = 0 ∧ σ T = L ∧ ∀ t ∈ Icc 0 T, g t = f (σ t)

/-- Between two times of `[t0, t1]`, every degree of freedom with a velocity limit moves by no more than the limit, times the safety factor, times the difference of the times; for orders at least 1
the robot is at rest at `t0` and `t1`. -/
structure Within {n : Nat} (dof : C → C → Fin n → ℝ) (c : Cfg n) (g : ℝ → Except PathV.Err C) (t0 t1 : ℝ) : Prop where
  speed : ∀ s t q q', t0 ≤ s → s ≤ t → t ≤ t1 → g s = .ok q → g t = .ok q' → ∀ i l, c.limit i = some l → |dof q q' i| ≤ c.safety * l * (t - s)
  rest : 1 ≤ c.order → ∀ i, ∀ e > 0, ∃ d > 0, (∀ t q q', t0 ≤ t → t ≤ t1 → t < t0 + d → g t0 = .ok q → g t = .ok q' → |dof q q' i| ≤ e * (t - t0)) ∧
    ∀ t q q', t0 ≤ t → t ≤ t1 → t1 - d < t → g t = .ok q → g t1 = .ok q' → |dof q q' i| ≤ e * (t1 - t)

/-- A trajectory on `[0, T]` made of successive motions within the limits. -/
def Executable {n : Nat} (dof : C → C → Fin n → ℝ) (c : Cfg n) (g : ℝ → Except PathV.Err C) (T : ℝ) : Prop :=
  ∃ ts : List ℝ, ts.head? = some 0 ∧ ts.getLast? = some T ∧ ts.IsChain fun a b => a < b ∧ Within dof c g a b

/-! ## Proofs -/

/-- The pieces of the result, in relation with those of the input. -/
inductive Laws {n : Nat} (dof : C → C → Fin n → ℝ) (c : Cfg n) : List (Line ℝ C) → List (Timed C) → Prop
  | nil : Laws dof c [] []
  | skip (p : Line ℝ C) (l os) : p.pr.1 = p.pr.2 → Laws dof c l os → Laws dof c (p :: l) os
  | take (p : Line ℝ C) (law : Law) (l os) : p.pr.1 ≠ p.pr.2 → PieceSpec c ⟨piece dof p, law⟩ → Laws dof c l os → Laws dof c (p :: l) (⟨p, law⟩ :: os)

theorem piece_ok {n : Nat} (dof : C → C → Fin n → ℝ) (p : Line ℝ C) (h : p.pr.1 ≤ p.pr.2) : PieceOk (piece dof p) := by
  refine ⟨h, fun i => ?_, fun s _ i => ?_⟩
  · simp only [piece]; split
    · exact le_rfl
    · exact div_nonneg (abs_nonneg _) (sub_nonneg.2 h)
  · simp only [piece]; split
    · next e => rw [e, sub_self, div_zero, abs_zero]
    · rw [abs_div, abs_of_nonneg (sub_nonneg.2 h)]

theorem timeLoop_laws {n : Nat} (dof : C → C → Fin n → ℝ) (c : Cfg n) (hm : ¬(c.order ≤ 1 ∧ 0 < c.maxAcc)) (hlim : ∀ i x, c.limit i = some x → 0 ≤ c.safety * x)
    (l : List (Line ℝ C)) (hl : ∀ p ∈ l, p.pr.1 ≤ p.pr.2) (os : List (Timed C)) (h : timeLoop dof c l = .ok os) : Laws dof c l os := by
  induction l generalizing os with
  | nil => cases h; exact .nil
  | cons p l ih =>
    rw [timeLoop] at h
    have ih' := ih fun q hq => hl q (List.mem_cons_of_mem _ hq)
    by_cases hr : p.pr.1 = p.pr.2
    · rw [if_pos hr] at h
      exact .skip p l os hr (ih' os h)
    · rw [if_neg hr] at h
      cases ho : paramPiece c (piece dof p) with
      | error e => rw [ho] at h; cases h
      | ok o =>
        rw [ho] at h
        simp only at h
        cases hl' : timeLoop dof c l with
        | error e => rw [hl'] at h; cases h
        | ok r =>
          rw [hl'] at h
          cases h
          obtain ⟨e1, e2⟩ := paramPiece_ok c _ o (piece_ok dof p (hl p (by simp))) hr hm hlim ho
          obtain ⟨src, law⟩ := o
          simp only at e1
          subst e1
          exact .take p law l r hr e2 (ih' r hl')

/-- The first piece of a vector. -/
theorem eval_first {P : Type} (O : Ops ℝ C P) (p : P) (l : List P) {s : ℝ} (h1 : s ≤ O.len p) : evalU O (p :: l) s = O.eval p (O.lo p + s) := by
  have := evalU_at O [] l p s (by simp) (Or.inl rfl) h1
  simpa using this

/-- After the first piece. -/
theorem eval_next {P : Type} (O : Ops ℝ C P) (p : P) (l : List P) (hp : 0 ≤ O.len p) (hl : ∀ q ∈ l, 0 ≤ O.len q) {s : ℝ} (h0 : 0 < s) (h1 : s ≤ total O l) :
    evalU O (p :: l) (O.len p + s) = evalU O l s := by
  have hne : l ≠ [] := by rintro rfl; simp at h1; linarith
  obtain ⟨A, q, B, u, rfl, u0, u1, hA, rfl⟩ := exists_pos O l hne s h0.le h1
  rw [evalU_at O A B q u (fun x hx => hl x (by simp [hx])) hA u1]
  have hu : 0 < u := by
    rcases hA with rfl | h
    · simpa using h0
    · exact h
  have := evalU_at O (p :: A) B q u (fun x hx => by
    rcases List.mem_cons.1 hx with rfl | hx
    · exact hp
    · exact hl x (by simp [hx])) (Or.inr hu) u1
  rw [total_cons, List.cons_append, add_assoc] at this
  exact this

/-- The same, at the junction too. -/
theorem eval_next_chained {P : Type} (O : Ops ℝ C P) (p q : P) (l : List P) (hp : 0 ≤ O.len p) (hl : ∀ x ∈ q :: l, 0 ≤ O.len x) (hj : O.eval p (O.hi p) = O.eval q (O.lo q))
    {s : ℝ} (h0 : 0 ≤ s) (h1 : s ≤ total O (q :: l)) : evalU O (p :: q :: l) (O.len p + s) = evalU O (q :: l) s := by
  rcases h0.eq_or_lt with e | e
  · subst e
    rw [add_zero, eval_first O p _ le_rfl, eval_first O q _ (hl q (by simp)), add_zero, show O.lo p + O.len p = O.hi p by unfold Ops.len; ring, hj]
  · exact eval_next O p _ hp hl e h1

/-- A law of time is a Lipschitz function of time. -/
theorem law_lip {l : Law} (k w : ℝ) (hk : ∀ t ∈ Icc 0 l.T, ∃ v, HasDerivAt (val l.a) v t ∧ |v * k| ≤ w) :
    ∀ s ∈ Icc 0 l.T, ∀ t ∈ Icc 0 l.T, s ≤ t → |(val l.a t - val l.a s) * k| ≤ w * (t - s) := by
  intro s hs t ht hst
  have := (convex_Icc (0 : ℝ) l.T).norm_image_sub_le_of_norm_hasDerivWithin_le (f := fun t => val l.a t * k) (f' := fun t => deriv (val l.a) t * k) (C := w)
    (fun x hx => by
      obtain ⟨v, hv, -⟩ := hk x hx
      rw [hv.deriv]
      exact (hv.mul_const k).hasDerivWithinAt)
    (fun x hx => by
      obtain ⟨v, hv, h⟩ := hk x hx
      rw [hv.deriv]; exact h) hs ht
  rw [Real.norm_eq_abs, Real.norm_eq_abs, abs_of_nonneg (sub_nonneg.2 hst)] at this
  rw [sub_mul]; exact this

/-- One piece. -/
theorem within_piece {n : Nat} (W : World ℝ C ι) {dof : C → C → Fin n → ℝ} (hd : DofOk W dof) {c : Cfg n} {p : Line ℝ C} (hp : Built p) (hr : p.pr.1 ≠ p.pr.2) {law : Law}
    (h : PieceSpec c ⟨piece dof p, law⟩) : Within dof c ((timedOps W).eval ⟨p, law⟩) 0 law.T := by
  obtain ⟨B, hg⟩ := h.good
  have h0 : p.pr.1 = 0 := hp.1
  have hL : 0 < p.pr.2 := lt_of_le_of_ne hp.2.1 (by rw [← h0]; exact hr)
  have hev : ∀ t, (timedOps W).eval ⟨p, law⟩ t = .ok (conf W p (val law.a t)) := fun t => eval_built hp _
  have hin : ∀ t ∈ Icc 0 law.T, 0 ≤ val law.a t ∧ val law.a t ≤ p.pr.2 := by
    intro t ht
    have : val law.a t ∈ Icc p.pr.1 p.pr.2 := by rw [← show _ = Icc p.pr.1 p.pr.2 from hg.onto]; exact ⟨t, ht, rfl⟩
    rw [h0] at this
    exact this
  have hdof : ∀ s ∈ Icc 0 law.T, ∀ t ∈ Icc 0 law.T, s ≤ t → ∀ i,
      dof (conf W p (val law.a s)) (conf W p (val law.a t)) i = (val law.a t - val law.a s) * (dof p.q0 p.q1 i / (p.pr.2 - p.pr.1)) := by
    intro s hs t ht hst i
    rw [conf_interp W hp hL, conf_interp W hp hL, hd _ _ _ _ i (div_nonneg (hin s hs).1 hL.le) (div_le_div_of_nonneg_right (hg.mono hs ht hst) hL.le)
      ((div_le_one hL).2 (hin t ht).2), h0, sub_zero]
    field_simp
  refine ⟨fun s t q q' hs hst ht hq hq' i l hl => ?_, fun ho i e he => ?_⟩
  · rw [hev] at hq hq'
    obtain rfl := Except.ok.inj hq
    obtain rfl := Except.ok.inj hq'
    have ms : s ∈ Icc 0 law.T := ⟨hs, hst.trans ht⟩
    have mt : t ∈ Icc 0 law.T := ⟨hs.trans hst, ht⟩
    rw [hdof s ms t mt hst i]
    refine law_lip _ _ (fun x hx => ?_) s ms t mt hst
    obtain ⟨v, hv, k⟩ := h.limits x hx
    exact ⟨v, hv, k i l hl⟩
  · obtain ⟨r0, r1⟩ := h.rest1 ho
    set k := dof p.q0 p.q1 i / (p.pr.2 - p.pr.1) with hk
    have m0 : (0 : ℝ) ∈ Icc 0 law.T := ⟨le_rfl, hg.pos.le⟩
    have m1 : law.T ∈ Icc 0 law.T := ⟨hg.pos.le, le_rfl⟩
    have near : ∀ x, HasDerivAt (val law.a) 0 x → ∃ d > 0, ∀ t, |t - x| < d → |(val law.a t - val law.a x) * k| ≤ e * |t - x| := by
      intro x hx
      have hx' : HasDerivAt (fun t => val law.a t * k) 0 x := by simpa using hx.mul_const k
      have := (hasDerivAt_iff_isLittleO.1 hx').def he
      obtain ⟨d, d0, hd⟩ := Metric.eventually_nhds_iff.1 this
      refine ⟨d, d0, fun t ht => ?_⟩
      have := hd (y := t) (by rwa [Real.dist_eq])
      rw [smul_zero, sub_zero, Real.norm_eq_abs, Real.norm_eq_abs] at this
      rwa [sub_mul]
    obtain ⟨d0, p0, n0⟩ := near 0 r0
    obtain ⟨d1, p1, n1⟩ := near law.T r1
    refine ⟨min d0 d1, lt_min p0 p1, fun t q q' t0 t1 td hq hq' => ?_, fun t q q' t0 t1 td hq hq' => ?_⟩
    · rw [hev] at hq hq'
      obtain rfl := Except.ok.inj hq
      obtain rfl := Except.ok.inj hq'
      rw [hdof 0 m0 t ⟨t0, t1⟩ t0 i]
      have := n0 t (by rw [sub_zero, abs_of_nonneg t0]; have := min_le_left d0 d1; linarith)
      rw [sub_zero, abs_of_nonneg t0] at this
      rw [sub_zero]
      exact this
    · rw [hev] at hq hq'
      obtain rfl := Except.ok.inj hq
      obtain rfl := Except.ok.inj hq'
      rw [hdof t ⟨t0, t1⟩ law.T m1 t1 i]
      have := n1 t (by rw [abs_of_nonpos (by linarith)]; have := min_le_right d0 d1; linarith)
      rw [abs_of_nonpos (show t - law.T ≤ 0 by linarith), neg_sub] at this
      rwa [← neg_sub, neg_mul, abs_neg]

theorem Within.congr {n : Nat} {dof : C → C → Fin n → ℝ} {c : Cfg n} {g h : ℝ → Except PathV.Err C} {a b x : ℝ} (w : Within dof c g a b) (hab : a ≤ b)
    (e : ∀ t, a ≤ t → t ≤ b → h (x + t) = g t) : Within dof c h (x + a) (x + b) := by
  have e' : ∀ t, x + a ≤ t → t ≤ x + b → h t = g (t - x) := by
    intro t h1 h2
    rw [← e (t - x) (by linarith) (by linarith)]
    congr 1; ring
  refine ⟨fun s t q q' h1 h2 h3 hq hq' i l hl => ?_, fun ho i ε hε => ?_⟩
  · rw [e' s h1 (by linarith)] at hq
    rw [e' t (by linarith) h3] at hq'
    have := w.speed (s - x) (t - x) q q' (by linarith) (by linarith) (by linarith) hq hq' i l hl
    rwa [sub_sub_sub_cancel_right] at this
  · obtain ⟨d, d0, k1, k2⟩ := w.rest ho i ε hε
    refine ⟨d, d0, fun t q q' t0 t1 td hq hq' => ?_, fun t q q' t0 t1 td hq hq' => ?_⟩
    · rw [e a le_rfl hab] at hq
      rw [e' t t0 t1] at hq'
      have := k1 (t - x) q q' (by linarith) (by linarith) (by linarith) hq hq'
      rwa [show t - x - a = t - (x + a) by ring] at this
    · rw [e b hab le_rfl] at hq'
      rw [e' t t0 t1] at hq
      have := k2 (t - x) q q' (by linarith) (by linarith) (by linarith) hq hq'
      rwa [show b - (t - x) = x + b - t by ring] at this

/-- A chain of motions, later. -/
theorem chain_shift {n : Nat} {dof : C → C → Fin n → ℝ} {c : Cfg n} {g h : ℝ → Except PathV.Err C} {x T : ℝ} (e : ∀ t ∈ Icc 0 T, h (x + t) = g t) (ts : List ℝ) :
    ∀ a, 0 ≤ a → (a :: ts).getLast? = some T → (a :: ts).IsChain (fun a b => a < b ∧ Within dof c g a b) →
      ((x + a) :: ts.map (x + ·)).IsChain (fun a b => a < b ∧ Within dof c h a b) ∧ a ≤ T := by
  induction ts with
  | nil =>
    intro a _ hT _
    simp only [List.getLast?_singleton, Option.some.injEq] at hT
    exact ⟨by simp, hT.le⟩
  | cons b ts ih =>
    intro a ha hT hc
    rw [List.getLast?_cons_cons] at hT
    rw [List.isChain_cons_cons] at hc
    obtain ⟨⟨hab, hw⟩, hc⟩ := hc
    obtain ⟨k1, k2⟩ := ih b (ha.trans hab.le) hT hc
    refine ⟨?_, hab.le.trans k2⟩
    rw [List.map_cons, List.isChain_cons_cons]
    exact ⟨⟨by linarith, hw.congr hab.le fun t h1 h2 => e t ⟨ha.trans h1, h2.trans k2⟩⟩, k1⟩

theorem run {n : Nat} (W : World ℝ C ι) {dof : C → C → Fin n → ℝ} (hd : DofOk W dof) {c : Cfg n} {l : List (Line ℝ C)} {os : List (Timed C)} (h : Laws dof c l os)
    (hb : ∀ p ∈ l, Built p) (hc : Chained (straightOps W.space) l) :
    (os ≠ [] → RunForward (evalU (straightOps W.space) l) (total (straightOps W.space) l) (evalU (timedOps W) os) (total (timedOps W) os) ∧
      Executable dof c (evalU (timedOps W) os) (total (timedOps W) os)) ∧ (os = [] → total (straightOps W.space) l = 0) ∧ ∀ o ∈ os, 0 < (timedOps W).len o := by
  have hlen : ∀ l : List (Line ℝ C), (∀ p ∈ l, Built p) → ∀ p ∈ l, 0 ≤ (straightOps W.space).len p := by
    intro l hb p hp
    show 0 ≤ p.pr.2 - p.pr.1
    rw [(hb p hp).1, sub_zero]; exact (hb p hp).2.1
  induction h with
  | nil => exact ⟨fun h => absurd rfl h, fun _ => rfl, by simp⟩
  | skip p l os hr h ih =>
    have hb' : ∀ q ∈ l, Built q := fun q hq => hb q (by simp [hq])
    have hl0 : (straightOps W.space).len p = 0 := sub_eq_zero.2 hr.symm
    obtain ⟨i1, i2, i3⟩ := ih hb' (List.IsChain.tail hc)
    refine ⟨fun hne => ?_, fun e => by rw [total_cons, hl0, i2 e, add_zero], i3⟩
    obtain ⟨⟨σ, M, s1, s2, s3, s4, s5⟩, j⟩ := i1 hne
    refine ⟨⟨σ, M, s1, s2, s3, by rw [total_cons, hl0, zero_add, s4], fun t ht => ?_⟩, j⟩
    rw [s5 t ht]
    cases l with
    | nil => cases h; exact absurd rfl hne
    | cons q l =>
      have hT : (0 : ℝ) ≤ total (timedOps W) os := ht.1.trans ht.2
      have := eval_next_chained (straightOps W.space) p q l hl0.ge (hlen _ hb') (List.isChain_cons_cons.1 hc).1 (s := σ t)
        (by rw [← s3]; exact s1 ⟨le_rfl, hT⟩ ht ht.1) (by rw [← s4]; exact s1 ht ⟨hT, le_rfl⟩ ht.2)
      rw [hl0, zero_add] at this
      exact this.symm
  | take p law l os hr hs h ih =>
    have hb' : ∀ q ∈ l, Built q := fun q hq => hb q (by simp [hq])
    have hp := hb p (by simp)
    have hw := within_piece W hd hp hr hs
    obtain ⟨i1, i2, i3⟩ := ih hb' (List.IsChain.tail hc)
    obtain ⟨B, hg⟩ := hs.good
    have hT0 : 0 < law.T := hg.pos
    have h0 : p.pr.1 = 0 := hp.1
    have v0 : val law.a 0 = 0 := hg.start.trans h0
    have v1 : val law.a law.T = p.pr.2 := hg.stop
    have hmono : MonotoneOn (val law.a) (Icc 0 law.T) := hg.mono
    have hlip : ∀ s ∈ Icc 0 law.T, ∀ t ∈ Icc 0 law.T, s ≤ t → val law.a t - val law.a s ≤ B * (t - s) := by
      intro s hs t ht hst
      have := law_lip (l := law) 1 B (fun x hx => by
        obtain ⟨v, -, k1, k2, k3⟩ := hg.speed x hx
        exact ⟨v, k1, by rw [mul_one, abs_of_nonneg k2]; exact k3⟩) s hs t ht hst
      rw [mul_one] at this
      exact (le_abs_self _).trans this
    have lenT : (timedOps W).len ⟨p, law⟩ = law.T := sub_zero _
    have lenL : (straightOps W.space).len p = p.pr.2 := by show p.pr.2 - p.pr.1 = _; rw [h0, sub_zero]
    have first : ∀ t ∈ Icc 0 law.T, evalU (timedOps W) (⟨p, law⟩ :: os) t = evalU (straightOps W.space) (p :: l) (val law.a t) := by
      intro t ht
      rw [eval_first _ _ _ (ht.2.trans lenT.ge), eval_first _ _ _ (show val law.a t ≤ _ by
        rw [lenL, ← v1]; exact hmono ht ⟨hT0.le, le_rfl⟩ ht.2)]
      show (straightOps W.space).eval p (val law.a (0 + t)) = (straightOps W.space).eval p (p.pr.1 + val law.a t)
      rw [h0, zero_add, zero_add]
    have w0 : Within dof c (evalU (timedOps W) (⟨p, law⟩ :: os)) 0 law.T := by
      have := hw.congr (h := evalU (timedOps W) (⟨p, law⟩ :: os)) (x := 0) hT0.le (fun t _ t1 => by
        rw [zero_add, eval_first _ _ _ (t1.trans lenT.ge)]
        show (timedOps W).eval _ (0 + t) = _
        rw [zero_add])
      rwa [zero_add, zero_add] at this
    refine ⟨fun _ => ?_, fun e => absurd e (by simp), fun o ho => ?_⟩
    · cases os with
      | nil =>
        have hz := i2 rfl
        refine ⟨⟨val law.a, B, ?_, ?_, v0, ?_, ?_⟩, [0, law.T], rfl, ?_, ?_⟩
        · rw [total_cons, total_nil, add_zero, lenT]; exact hmono
        · rw [total_cons, total_nil, add_zero, lenT]; exact hlip
        · rw [total_cons, total_nil, add_zero, lenT, total_cons, hz, add_zero, lenL]; exact v1
        · rw [total_cons, total_nil, add_zero, lenT]; exact first
        · rw [total_cons, total_nil, add_zero, lenT]; rfl
        · simp only [List.isChain_cons_cons, List.isChain_singleton, and_true]
          exact ⟨hT0, w0⟩
      | cons o os =>
        obtain ⟨⟨σ, M, s1, s2, s3, s4, s5⟩, ts, j1, j2, j3⟩ := i1 (by simp)
        have hT1 : 0 ≤ total (timedOps W) (o :: os) := total_nonneg _ _ fun x hx => (i3 x hx).le
        have hσ0 : ∀ t ∈ Icc 0 (total (timedOps W) (o :: os)), 0 ≤ σ t := fun t ht => by rw [← s3]; exact s1 ⟨le_rfl, hT1⟩ ht ht.1
        have hσ1 : ∀ t ∈ Icc 0 (total (timedOps W) (o :: os)), σ t ≤ total (straightOps W.space) l := fun t ht => by rw [← s4]; exact s1 ht ⟨hT1, le_rfl⟩ ht.2
        have hl : ∃ q l', l = q :: l' := by
          cases l with
          | nil => cases h
          | cons q l' => exact ⟨q, l', rfl⟩
        obtain ⟨q, l, rfl⟩ := hl
        have nextL : ∀ t ∈ Icc 0 (total (timedOps W) (o :: os)), evalU (straightOps W.space) (p :: q :: l) (p.pr.2 + σ t) = evalU (straightOps W.space) (q :: l) (σ t) := by
          intro t ht
          have := eval_next_chained (straightOps W.space) p q l (by rw [lenL]; exact hp.2.1) (hlen _ hb') (List.isChain_cons_cons.1 hc).1 (hσ0 t ht) (hσ1 t ht)
          rwa [lenL] at this
        have join : (timedOps W).eval ⟨p, law⟩ ((timedOps W).hi ⟨p, law⟩) = (timedOps W).eval o ((timedOps W).lo o) := by
          have e1 := s5 0 ⟨le_rfl, hT1⟩
          rw [← nextL 0 ⟨le_rfl, hT1⟩, s3, add_zero, eval_first _ _ _ (i3 o (by simp)).le, add_zero, eval_first _ _ _ lenL.ge] at e1
          rw [e1]
          show (straightOps W.space).eval p (val law.a law.T) = (straightOps W.space).eval p (p.pr.1 + p.pr.2)
          rw [v1, h0, zero_add]
        have nextT : ∀ t ∈ Icc 0 (total (timedOps W) (o :: os)), evalU (timedOps W) (⟨p, law⟩ :: o :: os) (law.T + t) = evalU (timedOps W) (o :: os) t := by
          intro t ht
          have := eval_next_chained (timedOps W) ⟨p, law⟩ o os (by rw [lenT]; exact hT0.le) (fun x hx => (i3 x hx).le) join ht.1 ht.2
          rwa [lenT] at this
        have tot : total (timedOps W) (⟨p, law⟩ :: o :: os) = law.T + total (timedOps W) (o :: os) := by rw [total_cons, lenT]
        have hB : 0 ≤ B := by
          obtain ⟨v, -, -, k2, k3⟩ := hg.speed 0 ⟨le_rfl, hT0.le⟩
          exact k2.trans k3
        refine ⟨⟨fun t => if t ≤ law.T then val law.a t else p.pr.2 + σ (t - law.T), max B M, ?_, ?_, ?_, ?_, ?_⟩, 0 :: ts.map (law.T + ·), rfl, ?_, ?_⟩
        · intro s hs t ht hst
          rw [tot] at hs ht
          simp only
          split_ifs with h1 h2
          · exact hmono ⟨hs.1, h1⟩ ⟨ht.1, h2⟩ hst
          · have k1 : val law.a s ≤ p.pr.2 := by rw [← v1]; exact hmono ⟨hs.1, h1⟩ ⟨hT0.le, le_rfl⟩ h1
            have := hσ0 (t - law.T) ⟨by linarith, by linarith [ht.2]⟩
            linarith
          · linarith
          · have := s1 (a := s - law.T) ⟨by linarith, by linarith [hs.2]⟩ (b := t - law.T) ⟨by linarith, by linarith [ht.2]⟩ (by linarith)
            linarith
        · intro s hs t ht hst
          rw [tot] at hs ht
          simp only
          split_ifs with h1 h2 h2
          · exact (hlip s ⟨hs.1, h2⟩ t ⟨ht.1, h1⟩ hst).trans (mul_le_mul_of_nonneg_right (le_max_left _ _) (by linarith))
          · linarith
          · have k1 := hlip s ⟨hs.1, h2⟩ law.T ⟨hT0.le, le_rfl⟩ h2
            rw [v1] at k1
            have k2 := s2 0 ⟨le_rfl, hT1⟩ (t - law.T) ⟨by linarith, by linarith [ht.2]⟩ (by linarith)
            rw [s3] at k2
            have k3 := mul_le_mul_of_nonneg_right (le_max_left B M) (show 0 ≤ law.T - s by linarith)
            have k4 := mul_le_mul_of_nonneg_right (le_max_right B M) (show 0 ≤ t - law.T by linarith)
            have k5 : max B M * (t - s) = max B M * (law.T - s) + max B M * (t - law.T) := by ring
            rw [sub_zero] at k2
            linarith
          · have := s2 (s - law.T) ⟨by linarith, by linarith [hs.2]⟩ (t - law.T) ⟨by linarith, by linarith [ht.2]⟩ (by linarith)
            rw [sub_sub_sub_cancel_right] at this
            have k4 := mul_le_mul_of_nonneg_right (le_max_right B M) (show 0 ≤ t - s by linarith)
            linarith
        · simp only [hT0.le, if_true]; exact v0
        · rw [tot]
          simp only
          have hpos : 0 < total (timedOps W) (o :: os) := by
            rw [total_cons]
            have := total_nonneg (timedOps W) os fun x hx => (i3 x (by simp [hx])).le
            linarith [i3 o (by simp)]
          rw [if_neg (by linarith), add_sub_cancel_left, s4, total_cons (p := p), lenL]
        · intro t ht
          rw [tot] at ht
          simp only
          split_ifs with h1
          · exact first t ⟨ht.1, h1⟩
          · have m : t - law.T ∈ Icc 0 (total (timedOps W) (o :: os)) := ⟨by linarith, by linarith [ht.2]⟩
            rw [nextL _ m, ← s5 _ m, ← nextT _ m]
            congr 1; ring
        · rw [tot]
          cases ts with
          | nil => simp at j1
          | cons a ts =>
            rw [List.map_cons, List.getLast?_cons_cons, ← List.map_cons, List.getLast?_map, j2]
            rfl
        · cases ts with
          | nil => simp at j1
          | cons a ts =>
            simp only [List.head?_cons, Option.some.injEq] at j1
            subst j1
            rw [List.map_cons, add_zero, List.isChain_cons_cons]
            refine ⟨⟨hT0, w0⟩, ?_⟩
            have := (chain_shift nextT ts 0 le_rfl j2 j3).1
            rwa [add_zero] at this
    · rcases List.mem_cons.1 ho with rfl | ho
      · rw [lenT]; exact hT0
      · exact i3 o ho

/-- Running a safe path forward. -/
theorem safe_forward (W : World ℝ C ι) {f g : ℝ → Except PathV.Err C} {L T : ℝ} {a b : C} (hT : 0 ≤ T) (h : Safe W f L a b) (hr : RunForward f L g T) : Safe W g T a b := by
  obtain ⟨σ, M, s1, s2, s3, s4, s5⟩ := hr
  have m0 : (0 : ℝ) ∈ Icc 0 T := ⟨le_rfl, hT⟩
  have m1 : T ∈ Icc 0 T := ⟨hT, le_rfl⟩
  have k0 : ∀ t ∈ Icc 0 T, 0 ≤ σ t := fun t ht => by rw [← s3]; exact s1 m0 ht ht.1
  have k1 : ∀ t ∈ Icc 0 T, σ t ≤ L := fun t ht => by rw [← s4]; exact s1 ht m1 ht.2
  refine ⟨⟨hT, by rw [s5 0 m0, s3, h.ini], by rw [s5 T m1, s4, h.fin], fun t h0 h1 => ?_, fun φ hφ => ?_⟩, fun t q h0 h1 hq => ?_⟩
  · rw [s5 t ⟨h0, h1⟩]
    exact h.total _ (k0 t ⟨h0, h1⟩) (k1 t ⟨h0, h1⟩)
  · obtain ⟨N, hN⟩ := h.cont φ hφ
    refine ⟨|N| * M, fun s t q q' h0 h1 h2 hq hq' => ?_⟩
    have ms : s ∈ Icc 0 T := ⟨h0, h1.trans h2⟩
    have mt : t ∈ Icc 0 T := ⟨h0.trans h1, h2⟩
    rw [s5 s ms] at hq
    rw [s5 t mt] at hq'
    have e1 := hN (σ s) (σ t) q q' (k0 s ms) (s1 ms mt h1) (k1 t mt) hq hq'
    have e2 := mul_le_mul_of_nonneg_right (le_abs_self N) (sub_nonneg.2 (s1 ms mt h1))
    have e3 := mul_le_mul_of_nonneg_left (s2 s ms t mt h1) (abs_nonneg N)
    rw [mul_assoc]
    exact e1.trans (e2.trans e3)
  · rw [s5 t ⟨h0, h1⟩] at hq
    exact h.free _ q (k0 t ⟨h0, h1⟩) (k1 t ⟨h0, h1⟩) hq

/-- C140: from a path without collision, `SimpleTimeParameterization` makes a trajectory without collision between the same ends: the same configurations in the same order, every degree of
freedom within its velocity limit at any time, at rest where the pieces of the path meet. -/
theorem C140_trajectory {n : Nat} (W : World ℝ C ι) (hW : W.Ok) {dof : C → C → Fin n → ℝ} (hd : DofOk W dof) (c : Cfg n) {a b : C} {v : Vec ℝ C (Line ℝ C)} (h : SafeVec W hW a b v)
    {w : Vec ℝ C (Timed C)} (hw : timeParam W dof c v = .ok (some w)) :
    Safe W (evalV (timedOps W) w) w.tr.2 a b ∧ RunForward (evalV (straightOps W.space) v) v.tr.2 (evalV (timedOps W) w) w.tr.2 ∧
      Executable dof c (evalV (timedOps W) w) w.tr.2 := by
  obtain ⟨p1, p2, -, p4, p5⟩ := safeVec_parts hW h
  unfold timeParam at hw
  split at hw
  · cases hw
  · next hlen =>
    split at hw
    · cases hw
    · next hm =>
      split at hw
      · cases hw
      · next hz =>
        cases hl : timeLoop dof c v.paths with
        | error e => rw [hl] at hw; cases hw
        | ok os =>
          rw [hl] at hw
          obtain rfl := Option.some.inj (Except.ok.inj hw)
          have laws := timeLoop_laws dof c hm (fun i x hx => (limits_nonneg c hz i x hx).le) v.paths (fun p hp => by rw [(p4.2 p hp).1.1]; exact (p4.2 p hp).1.2.1) os hl
          obtain ⟨r1, r2, r3⟩ := run W hd laws (fun p hp => (p4.2 p hp).1) p5
          have htr : v.tr.2 = total (straightOps W.space) v.paths := by have := p4.1; rw [this]
          have hne : os ≠ [] := by
            intro e
            refine hlen ?_
            rw [p2, sub_zero, htr, r2 e]
          obtain ⟨k1, k2⟩ := r1 hne
          rw [appendAll]
          have e1 : evalV (straightOps W.space) v = evalU (straightOps W.space) v.paths := funext fun s => evalV_none _ _ p1 s
          have e2 : evalV (timedOps W) ⟨none, (0, total (timedOps W) os), os⟩ = evalU (timedOps W) os := funext fun s => evalV_none _ _ rfl s
          simp only [create, List.nil_append, zero_add]
          rw [e2, e1, htr]
          have hs := safeVec_safe hW h
          rw [e1, htr] at hs
          exact ⟨safe_forward W (total_nonneg _ _ fun o ho => (r3 o ho).le) hs k1, k1, k2⟩

/-- C140: the input path is returned only if its length is zero. -/
theorem C140_still {n : Nat} (W : World ℝ C ι) (dof : C → C → Fin n → ℝ) (c : Cfg n) (v : Vec ℝ C (Line ℝ C)) (h : timeParam W dof c v = .ok none) : v.tr.2 = v.tr.1 := by
  unfold timeParam at h
  split at h
  · next e => linarith
  · split at h
    · cases h
    · split at h
      · cases h
      · split at h <;> cases h

/-- C140: with an order between 0 and 2, positive limits, and at least one degree of freedom with a velocity limit moving along each piece, a trajectory is found. -/
theorem C140_defined {n : Nat} (W : World ℝ C ι) (hW : W.Ok) (dof : C → C → Fin n → ℝ) (c : Cfg n) {a b : C} {v : Vec ℝ C (Line ℝ C)} (h : SafeVec W hW a b v)
    (ho : 0 ≤ c.order ∧ c.order ≤ 2) (hm : ¬(c.order ≤ 1 ∧ 0 < c.maxAcc)) (hthr : 0 < c.thr) (hlim : ∀ i x, c.limit i = some x → 0 < c.safety * x)
    (hv : ∀ p ∈ v.paths, p.pr.1 ≠ p.pr.2 → ∃ i x, c.limit i = some x ∧ dof p.q0 p.q1 i ≠ 0) : ∃ r, timeParam W dof c v = .ok r := by
  obtain ⟨-, -, -, p4, -⟩ := safeVec_parts hW h
  unfold timeParam
  split
  · exact ⟨_, rfl⟩
  · rw [if_neg]
    · have key : ∀ l : List (Line ℝ C), (∀ p ∈ l, p ∈ v.paths) → ∃ r, timeLoop dof c l = .ok r := by
        intro l
        induction l with
        | nil => exact fun _ => ⟨_, rfl⟩
        | cons p l ih =>
          intro hl
          obtain ⟨r, hr⟩ := ih fun q hq => hl q (by simp [hq])
          rw [timeLoop]
          by_cases e : p.pr.1 = p.pr.2
          · rw [if_pos e]; exact ⟨r, hr⟩
          · rw [if_neg e]
            have hp := (p4.2 p (hl p (by simp))).1
            have hle : p.pr.1 ≤ p.pr.2 := by rw [hp.1]; exact hp.2.1
            have hlt := lt_of_le_of_ne hle e
            obtain ⟨r', hr'⟩ := C50_defined c [piece dof p] (by simpa using piece_ok dof p hle) ho hm hthr hlim (by
              simp only [List.mem_singleton, forall_eq]
              intro _
              obtain ⟨i, x, hx, hd⟩ := hv p (hl p (by simp)) e
              refine ⟨i, x, hx, ?_⟩
              show 0 < if p.pr.1 = p.pr.2 then (0 : ℝ) else _
              rw [if_neg e]
              exact div_pos (abs_pos.2 hd) (sub_pos.2 hlt))
            cases ho : paramPiece c (piece dof p) with
            | ok o => simp only [hr]; exact ⟨_, rfl⟩
            | error e' =>
              exfalso
              unfold optimize at hr'
              rw [if_neg, if_neg hm] at hr'
              · split at hr'
                · cases hr'
                · rw [paramLoop, if_neg (show (piece dof p).r0 ≠ (piece dof p).r1 from e), ho] at hr'
                  cases hr'
              · simp only [List.map_cons, List.map_nil, List.sum_cons, List.sum_nil, add_zero]
                show p.pr.2 - p.pr.1 ≠ 0
                exact (sub_pos.2 hlt).ne'
      obtain ⟨r, hr⟩ := key v.paths fun p hp => hp
      rw [hr]
      exact ⟨_, rfl⟩
    · rintro ⟨⟨i, x, hx, h1⟩, -⟩
      rw [ubOf_eq] at h1
      exact absurd (hlim i x hx) (not_lt.2 h1)

variable [DecidableEq C]

/-- C140 (partial): the planner, then the optimizers, then the time parameterization.  Partial: no piece of the path given by the planner comes from the reversal of half a turn. -/
theorem C140_solve_partial {n : Nat} {W : World ℝ C ι} (hW : W.Ok) (hself : ∀ q, W.metric q q = 0) {dof : C → C → Fin n → ℝ} (hd : DofOk W dof) (c : Cfg n) (q0 : C) (gs : List C)
    (l : List (SP W)) (h0 : W.Free q0) (h : Returned W hW q0 l gs) (hb : ∀ p ∈ l, p.1.2 = false) (os : List (Opt W)) (hos : ∀ o ∈ os, o.Ok) (v : Vec ℝ C (Line ℝ C))
    (hv : optimizeAll W hW os (pathVector l) = some v) (w : Vec ℝ C (Timed C)) (hw : timeParam W dof c v = .ok (some w)) :
    ∃ g ∈ gs, Safe W (evalV (timedOps W) w) w.tr.2 q0 g ∧ Executable dof c (evalV (timedOps W) w) w.tr.2 := by
  rcases returned_solves hW q0 gs l h with ⟨g, hg, hne, hc⟩ | ⟨hq, p, hp, rfl⟩
  · obtain ⟨k1, -, k2⟩ := C140_trajectory W hW hd c (optimize_safe hW hself os hos (safeVec_of_connects hW hne h0 hb hc) hv) hw
    exact ⟨g, hg, k1, k2⟩
  · obtain rfl := Option.some.inj hp
    obtain ⟨k1, -, k2⟩ := C140_trajectory W hW hd c (optimize_safe hW hself os hos (safeVec_of_connects hW (by simp) h0 hb (connects_refl W hW q0 h0)) hv) hw
    exact ⟨q0, hq, k1, k2⟩

end Verif.Turns
