import Verif.SplineOpt.LoopEnd
import Verif.SplineOpt.Bounds
set_option linter.unusedSectionVars false

/-!
# Loops of `SplineGradientBased` which do not end, exceptions, and instances (C93, C94)
-/
namespace Verif.SplineOpt
open Verif.Spline

variable {κ : Type}

theorem interpolate_one {m : ℕ} {init A B res : List VSpl} (hA : List.Forall₂ Like A init) (hB : List.Forall₂ Like B init) (hr : List.Forall₂ Like res init) :
    List.Forall₂ (Same m) (interpolate m A B 1 res) B := by
  induction hA generalizing B res with
  | nil => cases hB; cases hr; exact .nil
  | @cons a i A init hai _ ih =>
    cases hB with
    | @cons b _ B _ hbi hB =>
      cases hr with
      | @cons r _ res _ hri hr =>
        refine .cons ⟨⟨hri.1.trans hbi.1.symm, hri.2.1.trans hbi.2.1.symm, hri.2.2.1.trans hbi.2.2.1.symm, hri.2.2.2.trans hbi.2.2.2.symm⟩, fun k d hd => ?_⟩ (ih hB hr)
        show (1 - 1) * row m a (k * m + d) + 1 * row m b (k * m + d) = b.P k d
        rw [row_concat hd, row_concat hd]
        ring

/-- C94: with `alphaInit = 1` (a value the parameter accepts), if the first optimum is in collision, the loop goes on forever without any progress. -/
theorem C94_alphaOne_counterexample (c : Cfg κ) (ha : c.alphaInit = 1) (hch : c.checkOptimum = false) (hro : c.returnOptimum = false) (env : ℕ → Env (ℕ → ℝ) κ)
    (hs : ∀ t, (env t).stop = false) (init : List VSpl) (x : κ)
    (hv : ∀ t S, List.Forall₂ (Same c.m) S (splinesOf c init x) → ∃ (i : ℕ) (s : VSpl), S[i]? = some s ∧ (env t).valid i s ≠ none) (fuel : ℕ) :
    optLoop c env fuel 0 (initSt c init x) = .ok none := by
  have : ∀ fuel t st, Base c init st → st.alpha = 1 → st.computeInterpolated = true → (st.computeOptimum = false → st.collS = splinesOf c init x) → st.xStar = x →
      ¬ (st.noCollision = true ∧ st.minimumReached = true) → optLoop c env fuel t st = .ok none := by
    intro fuel
    induction fuel with
    | zero => intros; rfl
    | succ fuel ih =>
      intro t st hb h1 h2 h3 h4 h5
      obtain ⟨p1, p2, p3, p4, p5, p6, p7, p8, p9, p10, p11, p12, p13, p14⟩ := prepare_spec c hb
      have hco : (prepare c st).collS = splinesOf c init x := by
        rw [p9]
        cases hc : st.computeOptimum with
        | true => rw [h4]; rfl
        | false => exact h3 hc
      have hcur : List.Forall₂ (Same c.m) (prepare c st).cur (splinesOf c init x) := by
        rw [p14, h2, hco, h1]
        exact interpolate_one hb.splines (splinesOf_like c init x) hb.alphaS
      obtain ⟨i, s, hi, hne⟩ := hv t _ hcur
      have hstep : ∃ st', step c (env t) st = .ok (.go st') ∧ st'.alpha = 1 ∧ st'.computeInterpolated = true ∧ st'.collS = splinesOf c init x ∧ st'.xStar = x ∧ st'.noCollision = false := by
        rcases step_spec (e := env t) hb with ⟨hr, _⟩ | ⟨_, order, reports, hp, ⟨_, hacc, _⟩ | ⟨_, _, hst⟩⟩
        · rw [hro] at hr; cases hr
        · exact absurd (hacc i s hi) hne
        · rw [hst]
          unfold reject
          simp only
          rw [if_pos (by rw [p2]; exact h1)]
          exact ⟨_, rfl, ha, rfl, hco, p4.trans h4, rfl⟩
      obtain ⟨st', e1, e2, e3, e4, e5, e6⟩ := hstep
      rw [optLoop, if_neg ?_, e1]
      · exact ih (t + 1) st' (base_step hb e1) e2 e3 (fun _ => e4) e5 (fun h => by rw [e6] at h; exact absurd h.1 (by simp))
      · rw [hs t, Bool.or_false, Bool.and_eq_true]; exact h5
  exact this fuel 0 _ (base_init c init x) (by simp [initSt, hch, hro, ha]) (by simp [initSt, hch, hro]) (fun h => by cases h) rfl (fun h => by cases h.2)

/-- C94: if the cost of the optimum is null, the test on the cost cannot succeed: even when nothing is in collision, the loop goes on forever. -/
theorem C94_zero_counterexample (c : Cfg κ) (hch : c.checkOptimum = false) (hro : c.returnOptimum = false) (hl : c.linearizeAtEachStep = false) (env : ℕ → Env (ℕ → ℝ) κ)
    (hs : ∀ t, (env t).stop = false) (init : List VSpl) (x : κ) (hv : ∀ t i s, (env t).valid i s = none) (hz : c.cost (splinesOf c init x) = 0) (fuel : ℕ) :
    optLoop c env fuel 0 (initSt c init x) = .ok none := by
  have : ∀ fuel t st, Base c init st → st.computeInterpolated = true → (st.computeOptimum = false → st.lowerBound = 0) → st.xStar = x →
      st.minimumReached = false → optLoop c env fuel t st = .ok none := by
    intro fuel
    induction fuel with
    | zero => intros; rfl
    | succ fuel ih =>
      intro t st hb h2 h3 h4 h5
      obtain ⟨p1, p2, p3, p4, p5, p6, p7, p8, p9, p10, p11, p12, p13, p14⟩ := prepare_spec c hb
      have hlb : (prepare c st).lowerBound = 0 := by
        rw [p10]
        cases hc : st.computeOptimum with
        | true => rw [h4]; exact hz
        | false => exact h3 hc
      have hstep : ∃ st', step c (env t) st = .ok (.go st') ∧ st'.computeInterpolated = true ∧ st'.lowerBound = 0 ∧ st'.xStar = x ∧ st'.minimumReached = false := by
        rcases step_spec (e := env t) hb with ⟨hr, _⟩ | ⟨_, order, reports, hp, ⟨_, _, hst⟩ | ⟨hne, hrep, _⟩⟩
        · rw [hro] at hr; cases hr
        · rw [hst]
          unfold accept
          simp only [hl, Bool.false_eq_true, if_false]
          refine ⟨_, rfl, rfl, hlb, p4.trans h4, ?_⟩
          show ((prepare c st).minimumReached || decide _) = false
          rw [p11, h2, hlb]
          simp
        · cases reports with
          | nil => exact absurd rfl hne
          | cons p l =>
            obtain ⟨_, s, _, hvs⟩ := hrep p (List.mem_cons_self ..)
            rw [hv] at hvs; cases hvs
      obtain ⟨st', e1, e2, e3, e4, e5⟩ := hstep
      rw [optLoop, if_neg ?_, e1]
      · exact ih (t + 1) st' (base_step hb e1) e2 (fun _ => e3) e4 e5
      · rw [hs t, Bool.or_false, h5, Bool.and_false]; simp
  exact this fuel 0 _ (base_init c init x) (by simp [initSt, hch, hro]) (fun h => by cases h) rfl rfl

/-! ## `linearizeAtEachStep` -/

theorem linearizeAll_range (c : Cfg κ) (e : Env (ℕ → ℝ) κ) (splines : List VSpl) (N : ℕ) : ∀ (l : List (ℕ × ℝ)) (i : ℕ), i ≤ N → N < i + l.length → linearizeAll c e splines N i l = .error .range := by
  intro l
  induction l with
  | nil => intro i h1 h2; simp at h2; omega
  | cons p l ih =>
    intro i h1 h2
    obtain ⟨j, ratio⟩ := p
    rw [linearizeAll]
    cases splines[j]? with
    | none => rfl
    | some s =>
      simp only
      by_cases hN : N ≤ i
      · rw [if_pos hN]
      · rw [if_neg hN, ih (i + 1) (by omega) (by simp at h2; omega)]

/-- C93: with `linearizeAtEachStep`, if there are more collision constraints than splines, a vector is read out of range as soon as a path is accepted. -/
theorem C93_linearize_counterexample (c : Cfg κ) (hl : c.linearizeAtEachStep = true) (hro : c.returnOptimum = false) (e : Env (ℕ → ℝ) κ) (init : List VSpl) (st : LSt (ℕ → ℝ) κ) (hb : Base c init st)
    (hf : init.length < st.col.fns.length) (hv : ∀ i s, e.valid i s = none) : step c e st = .error .range := by
  obtain ⟨p1, p2, p3, p4, p5, p6, p7, p8, p9, p10, p11, p12, p13, p14⟩ := prepare_spec c hb
  rcases step_spec (e := e) hb with ⟨hr, _⟩ | ⟨_, order, reports, hp, ⟨_, _, hst⟩ | ⟨hne, hrep, _⟩⟩
  · rw [hro] at hr; cases hr
  · rw [hst]
    unfold accept
    simp only [hl, if_true]
    rw [linearizeAll_range]
    · exact Nat.zero_le _
    · show (List.zipWith _ (prepare c st).splines (prepare c st).cur).length < 0 + (prepare c st).col.fns.length
      rw [p3, List.length_zipWith, p1, hb.splines.length_eq, (cur_like c hb).length_eq]
      omega
  · cases reports with
    | nil => exact absurd rfl hne
    | cons p l =>
      obtain ⟨_, s, _, hvs⟩ := hrep p (List.mem_cons_self ..)
      rw [hv] at hvs; cases hvs

/-- A constant spline. -/
noncomputable def pt (v : ℝ) : VSpl := ⟨0, fun _ => 0, fun _ _ => v, 0, 1⟩

/-- One spline, three variables. -/
noncomputable def cfgL (lin : Bool) : Cfg Unit :=
  { m := 1, nb := 1, order := 0, lam := [], alphaInit := 1 / 2, costThreshold := 1, alwaysStopAtFirst := true, reorderIntervals := true, linearizeAtEachStep := lin,
    returnOptimum := false, checkOptimum := false, nVar := 3, sol := fun _ _ => 0, rank := fun L => min L.length 3 }

/-- The path is in collision for three iterations. -/
noncomputable def envL (t : ℕ) : Env (ℕ → ℝ) Unit :=
  { stop := false, valid := fun _ _ => if t < 3 then some 0 else none, isColl := fun _ => true, jac := fun _ _ _ => 1, rejac := fun _ _ => 1, qp := fun _ => none }

theorem cfgL_rank (lin : Bool) : RankOk (cfgL lin) := ⟨rfl, fun L r => by simp [cfgL]⟩

/-- C93: such a state is reached: the loop with one spline, two collision constraints found, then an accepted path, reads out of range. -/
theorem C93_linearize_reached : optLoop (cfgL true) envL 5 0 (initSt (cfgL true) [pt 1] ()) = .error .range := by
  simp [optLoop, step, prepare, initSt, cfgL, envL, validateLoop, LSt.cur, accept, reject, addLoop, findNew, solve, linearizeAll, newOrder, updateSplines, updateFrom, interpolate, List.range_succ]

/-- Without `linearizeAtEachStep`, the same loop ends. -/
example : ∃ out, optLoop (cfgL false) envL 6 0 (initSt (cfgL false) [pt 1] ()) = .ok out := by
  exact C93_total (cfgL false) rfl (cfgL_rank false) envL (fun _ _ => rfl) [pt 1] () 6

/-! ## The path -/

/-- The splines of the loop keep their degrees, bases and time ranges. -/
theorem like_out {Q : Type} (c : Cfg κ) (env : ℕ → Env Q κ) (init : List (Spl Q)) (x : κ) (fuel : ℕ) (out : LSt Q κ) (h : optLoop c env fuel 0 (initSt c init x) = .ok (some out)) :
    List.Forall₂ Like out.splines init := by
  refine loop_ind (c := c) (env := env) (Base c init) (fun st => List.Forall₂ Like st.splines init) (fun st hb => hb.splines) (fun t st st' hb _ hs => base_step hb hs) ?_ fuel 0 _
    (base_init c init x) out h
  intro t st st' hb hs
  rcases splines_step hb hs with e | ⟨e, -⟩
  · show List.Forall₂ Like (Next.done st').st.splines init
    rw [e]; exact hb.splines
  · exact forall₂_like_trans (forall₂_same_like e) (cur_like c hb)

theorem boundFrom_like (m nb : ℕ) (lims : List Lim) {A B : List VSpl} (h : List.Forall₂ Like A B) : ∀ i, boundFrom m nb lims i A = boundFrom m nb lims i B := by
  induction h with
  | nil => intro i; rfl
  | @cons s t A B h1 h2 ih => intro i; rw [boundFrom, boundFrom, h1.2.1, ih]

/-- C93: what the loop returns, with the constraints of the optimizer: a path of the same class of continuity, with the same ends, within the bounds of the joints at all times, and which does not cost
more than the initial path. -/
theorem C93_path (c : Cfg κ) (n K : ℕ) (l : List (VSpl × List ℕ)) (lims : List Lim) (hnb : c.nb = n + 1) (w : WF c (l.map Prod.fst)) (hv : Valid c.m n l) (hK : K ≤ 2 * (n + 1))
    (hini : Smooth c.m K (l.map Prod.fst)) (hlim : lims.length ≤ c.m) (hb : ∀ s ∈ l.map Prod.fst, ControlIn n lims 0 s) (env : ℕ → Env (ℕ → ℝ) κ)
    (hq : ∀ t, Solves c (l.map Prod.fst) (equalities c.m n K l) (boundRows c.m (n + 1) lims (l.map Prod.fst)) (env t)) (x : κ)
    (hx : Optimal c (l.map Prod.fst) (equalities c.m n K l) (boundRows c.m (n + 1) lims (l.map Prod.fst)) [] x) (fuel : ℕ) (out : LSt (ℕ → ℝ) κ)
    (h : optLoop c env fuel 0 (initSt c (l.map Prod.fst) x) = .ok (some out)) :
    Smooth c.m K out.splines ∧ SameEnds c.m out.splines (l.map Prod.fst) ∧ (∀ s ∈ out.splines, ∀ t, InBounds lims 0 (s.compute integ t)) ∧
      c.cost out.splines ≤ c.cost (l.map Prod.fst) := by
  have hl := like_out c env _ x fuel out h
  obtain ⟨c1, c2⟩ := C89_continuity hv hK hini
  have hn : ∀ s ∈ l.map Prod.fst, s.n = n := by
    intro s hs
    have := w.deg s hs
    omega
  have hn' : ∀ s ∈ out.splines, s.n = n := by
    intro s hs
    obtain ⟨i, hi⟩ := List.mem_iff_getElem?.1 hs
    obtain ⟨hlt, hi⟩ := List.getElem?_eq_some_iff.1 hi
    have h2 : i < (l.map Prod.fst).length := by rw [← hl.length_eq]; exact hlt
    have := (List.forall₂_iff_get.1 hl).2 i hlt h2
    rw [List.get_eq_getElem, hi] at this
    rw [this.1]
    exact hn _ (List.get_mem _ _)
  have h0 : Feasible c (equalities c.m n K l) (boundRows c.m (n + 1) lims (l.map Prod.fst)) [] (l.map Prod.fst) := by
    refine ⟨by rw [hnb]; exact c1, (fun r hr => by cases hr), ?_⟩
    rw [hnb]
    exact (C91_rows hlim _ hn).1.2 hb
  obtain ⟨g1, g2, g3⟩ := C93_cost c _ w _ _ env hq x hx h0 fuel out h
  rw [hnb] at g1 g2
  obtain ⟨k1, k2⟩ := c2 out.splines hl g1
  have eb : boundRows c.m (n + 1) lims (l.map Prod.fst) = boundRows c.m (n + 1) lims out.splines := (boundFrom_like _ _ _ hl 0).symm
  rw [eb] at g2
  obtain ⟨d1, d2⟩ := C91_rows hlim out.splines hn'
  exact ⟨k1, k2, fun s hs t => d2 s hs 0 (d1.1 g2 s hs) t, g3⟩

/-! ## An instance of the hypotheses -/

/-- A segment: a spline of degree one. -/
noncomputable def seg (a b : ℝ) : VSpl := ⟨1, fun _ => 0, fun i _ => if i = 0 then a else b, 0, 1⟩

/-- One segment from 0; the variable is its end. -/
noncomputable def cfgS : Cfg ℝ :=
  { m := 1, nb := 2, order := 1, lam := [1], alphaInit := 1 / 5, costThreshold := 1 / 100, alwaysStopAtFirst := true, reorderIntervals := true, linearizeAtEachStep := false,
    returnOptimum := false, checkOptimum := true, nVar := 1, sol := fun v i => if i = 1 then v else 0, rank := fun L => min L.length 1 }

/-- The segment starts from 0. -/
def eqsS : List Row := [⟨[(0, 1)], 0⟩]

/-- Its end is between 1 and 3. -/
def bndS : List Row := [⟨[(1, 1)], 1⟩, ⟨[(1, -1)], -3⟩]

theorem concatS (v : ℝ) : concat 1 2 (splinesOf cfgS [seg 0 2] v) = fun c => if c = 1 then v else 0 := by
  funext c
  by_cases hc : c < 2
  · exact (C89_updateSplines 1 2 [seg 0 2] (cfgS.sol v)).1 c (by simpa using hc)
  · unfold concat
    rw [List.getElem?_eq_none]
    · show (0 : ℝ) = if c = 1 then v else 0
      rw [if_neg (by omega)]
    · rw [(splinesOf_like cfgS [seg 0 2] v).length_eq]
      show 1 ≤ c / (1 * 2)
      omega

theorem costS (s : VSpl) (h : Like s (seg 0 2)) : cfgS.cost [s] = (s.P 1 0 - s.P 0 0) ^ 2 := by
  obtain ⟨n, b, P, s0, s1⟩ := s
  obtain ⟨h1, h2, h3, h4⟩ := h
  simp only [seg] at h1 h2 h3 h4
  subst h1 h3 h4
  have hI : ∀ i j, i < 2 → j < 2 → ((⟨1, b, P, 0, 1⟩ : VSpl).Ic 1 i j).getD 0 = if i = j then 1 else -1 := by
    intro i j hi hj
    interval_cases i <;> interval_cases j <;> norm_num [Spl.Ic, integral, sgn, binom, Nat.factorial]
  have : (⟨1, b, P, 0, 1⟩ : VSpl).squaredNormIntegral 1 1 = some ((P 1 0 - P 0 0) ^ 2) := by
    rw [sni_form _ _ _ (by show 1 ≤ 1 + 1; omega)]
    congr 1
    unfold form
    simp only [Finset.sum_range_succ, Finset.sum_range_zero, hI 0 0 (by omega) (by omega), hI 0 1 (by omega) (by omega), hI 1 0 (by omega) (by omega), hI 1 1 (by omega) (by omega)]
    norm_num
    ring
  unfold Cfg.cost
  show (value 1 1 [1] [_]).getD 0 = _
  rw [value, this]
  simp [value]

theorem likeS {S : List VSpl} (h : List.Forall₂ Like S [seg 0 2]) : ∃ s, S = [s] ∧ Like s (seg 0 2) := by
  cases h with
  | @cons s _ S _ h1 h2 => cases h2; exact ⟨s, rfl, h1⟩

/-- Feasible paths are given by the end of the segment. -/
theorem feasibleS {L : List Row} {S : List VSpl} (h : List.Forall₂ Like S [seg 0 2]) (hf : Feasible cfgS eqsS bndS L S) :
    ∃ v, 1 ≤ v ∧ cfgS.cost S = v ^ 2 ∧ Feasible cfgS eqsS bndS L (splinesOf cfgS [seg 0 2] v) := by
  obtain ⟨s, rfl, hl⟩ := likeS h
  have e0 : concat 1 2 [s] 0 = s.P 0 0 := rfl
  have e1 : concat 1 2 [s] 1 = s.P 1 0 := rfl
  have h0 : s.P 0 0 = 0 := by
    have := hf.1 ⟨[(0, 1)], 0⟩ (by simp [eqsS])
    change dot _ (concat 1 2 [s]) = _ at this
    rw [← e0]; simpa [dot] using this
  have h1 : 1 ≤ s.P 1 0 := by
    have := hf.2.2 ⟨[(1, 1)], 1⟩ (by simp [bndS])
    change _ ≤ dot _ (concat 1 2 [s]) at this
    rw [← e1]; simpa [dot] using this
  have hc : concat 1 2 [s] = concat 1 2 (splinesOf cfgS [seg 0 2] (s.P 1 0)) := by
    rw [concatS]
    funext c
    by_cases hc : c < 2
    · interval_cases c
      · rw [e0, h0]; simp
      · rw [e1]; simp
    · unfold concat
      rw [List.getElem?_eq_none (by simp; omega), if_neg (by omega)]
  refine ⟨s.P 1 0, h1, by rw [costS s hl, h0, sub_zero], ?_⟩
  unfold Feasible Sat at hf ⊢
  change (∀ r ∈ eqsS, r.Holds (concat 1 2 [s])) ∧ (∀ r ∈ L, r.Holds (concat 1 2 [s])) ∧ ∀ r ∈ bndS, r.b ≤ dot r.J (concat 1 2 [s]) at hf
  rw [hc] at hf
  exact hf

theorem costS_of (v : ℝ) : cfgS.cost (splinesOf cfgS [seg 0 2] v) = v ^ 2 := by
  obtain ⟨s, hs, hl⟩ := likeS (splinesOf_like cfgS [seg 0 2] v)
  have e := concatS v
  rw [hs] at e ⊢
  rw [costS s hl]
  have e0 : s.P 0 0 = 0 := by have := congrFun e 0; simpa [concat] using this
  have e1 : s.P 1 0 = v := by have := congrFun e 1; simpa [concat] using this
  rw [e0, e1, sub_zero]

/-- Two different feasible paths: all paths satisfy the rows. -/
theorem lineS {L : List Row} {v u : ℝ} (hv : Feasible cfgS eqsS bndS L (splinesOf cfgS [seg 0 2] v)) (hu : Feasible cfgS eqsS bndS L (splinesOf cfgS [seg 0 2] u)) (hne : v ≠ u) :
    Feasible cfgS eqsS bndS L (splinesOf cfgS [seg 0 2] 1) := by
  have key : ∀ (J : List (ℕ × ℝ)) (a : ℝ), dot J (concat 1 2 (splinesOf cfgS [seg 0 2] a)) = a * dot J (fun c => if c = 1 then 1 else 0) := by
    intro J a
    rw [concatS]
    have := dot_affine J (fun c => if c = 1 then 1 else 0) (fun _ => 0) a 0
    have e : (fun c : ℕ => if c = 1 then a else 0) = fun c => a * (if c = 1 then (1 : ℝ) else 0) + 0 * 0 := by
      funext c; by_cases h : c = 1 <;> simp [h]
    rw [e, this]; ring
  refine ⟨?_, ?_, ?_⟩
  · intro r hr
    simp only [eqsS, List.mem_singleton] at hr
    subst hr
    show dot _ (concat 1 2 _) = 0
    rw [concatS]; simp [dot]
  · intro r hr
    have a1 : dot r.J (concat 1 2 _) = r.b := hv.2.1 r hr
    have a2 : dot r.J (concat 1 2 _) = r.b := hu.2.1 r hr
    show dot r.J (concat 1 2 _) = r.b
    rw [key] at a1 a2 ⊢
    have : (v - u) * dot r.J (fun c => if c = 1 then 1 else 0) = 0 := by rw [sub_mul, a1, a2, sub_self]
    rcases mul_eq_zero.1 this with h | h
    · exact absurd (sub_eq_zero.1 h) hne
    · rw [h] at a1 ⊢; simpa using a1
  · intro r hr
    simp only [bndS, List.mem_cons, List.not_mem_nil, or_false] at hr
    show r.b ≤ dot r.J (concat 1 2 _)
    rw [concatS]
    rcases hr with rfl | rfl <;> norm_num [dot]

open Classical in
/-- A solver for the segment. -/
noncomputable def qpS (L : List Row) : Option ℝ :=
  if Feasible cfgS eqsS bndS L (splinesOf cfgS [seg 0 2] 1) then some 1
  else if h : ∃ v, Feasible cfgS eqsS bndS L (splinesOf cfgS [seg 0 2] v) then some h.choose else none

theorem qpS_ok (L : List Row) (h : ∃ S, List.Forall₂ Like S [seg 0 2] ∧ Feasible cfgS eqsS bndS L S) : ∃ x, qpS L = some x ∧ Optimal cfgS [seg 0 2] eqsS bndS L x := by
  obtain ⟨S, hS, hf⟩ := h
  obtain ⟨v, _, _, hv⟩ := feasibleS hS hf
  unfold qpS
  by_cases h1 : Feasible cfgS eqsS bndS L (splinesOf cfgS [seg 0 2] 1)
  · rw [if_pos h1]
    refine ⟨1, rfl, h1, fun S hS hf => ?_⟩
    obtain ⟨u, hu, hc, _⟩ := feasibleS hS hf
    rw [hc, costS_of]
    nlinarith
  · have hex : ∃ v, Feasible cfgS eqsS bndS L (splinesOf cfgS [seg 0 2] v) := ⟨v, hv⟩
    rw [if_neg h1, dif_pos hex]
    refine ⟨_, rfl, hex.choose_spec, fun S hS hf => ?_⟩
    obtain ⟨u, _, hc, hu⟩ := feasibleS hS hf
    rw [hc, costS_of]
    by_cases he : hex.choose = u
    · rw [he]
    · exact absurd (lineS hex.choose_spec hu he) h1

/-- The validation rejects everything until iteration 7. -/
noncomputable def envS (t : ℕ) : Env (ℕ → ℝ) ℝ :=
  { stop := false, valid := fun _ _ => if t < 7 then some 0 else none, isColl := fun _ => true, jac := fun _ _ _ => 1, rejac := fun _ _ => 1, qp := qpS }

theorem wfS : WF cfgS [seg 0 2] := by
  refine ⟨by show 0 < 1; omega, ?_, by show 0 < 2; omega, ?_, by show 1 ≤ 2; omega, ?_, ?_⟩
  · intro s hs; rw [List.mem_singleton.1 hs]; rfl
  · intro s hs; rw [List.mem_singleton.1 hs]; simp [seg]
  · intro l hl; simp only [cfgS, List.mem_singleton] at hl; rw [hl]; norm_num
  · show (0 : ℝ) ≤ 1 / 5 ∧ (1 / 5 : ℝ) ≤ 1
    norm_num

theorem iniS : Feasible cfgS eqsS bndS [] [seg 0 2] := by
  refine ⟨?_, (fun r hr => by cases hr), ?_⟩
  · intro r hr
    simp only [eqsS, List.mem_singleton] at hr
    subst hr
    simp [Row.Holds, dot, concat, cfgS, seg]
  · intro r hr
    simp only [bndS, List.mem_cons, List.not_mem_nil, or_false] at hr
    rcases hr with rfl | rfl <;> norm_num [dot, concat, cfgS, seg]

/-- The hypotheses of `C93_cost` and `C94_terminates_partial` are met by the segment. -/
example : (∀ t, Solves cfgS [seg 0 2] eqsS bndS (envS t)) ∧ (∃ x, Optimal cfgS [seg 0 2] eqsS bndS [] x) ∧ RankOk cfgS ∧
    ∀ x, Optimal cfgS [seg 0 2] eqsS bndS [] x → ∃ fuel out, optLoop cfgS envS fuel 0 (initSt cfgS [seg 0 2] x) = .ok (some out) ∧ cfgS.cost out.splines ≤ 4 := by
  have hq : ∀ t, Solves cfgS [seg 0 2] eqsS bndS (envS t) := fun t L h => qpS_ok L h
  have hi : List.Forall₂ Like [seg 0 2] [seg 0 2] := List.forall₂_same.2 fun x _ => Like.refl x
  have hk : RankOk cfgS := ⟨rfl, fun L r => by simp [cfgS]⟩
  refine ⟨hq, ?_, hk, fun x hx => ?_⟩
  · obtain ⟨x, _, hx⟩ := qpS_ok [] ⟨_, hi, iniS⟩
    exact ⟨x, hx⟩
  · obtain ⟨fuel, out, h⟩ := C94_terminates_partial cfgS [seg 0 2] wfS eqsS bndS envS hq rfl hk (fun _ _ => rfl) (by show (0 : ℝ) < 1 / 5; norm_num) (by show (1 / 5 : ℝ) < 1; norm_num) 1 one_pos
      (fun S hS hf => by
        obtain ⟨v, hv, hc, _⟩ := feasibleS hS hf
        rw [hc]; nlinarith) (by show (0 : ℝ) < 1 / 100; norm_num) x hx iniS
    refine ⟨fuel, out, h, ?_⟩
    have := (C93_cost cfgS [seg 0 2] wfS eqsS bndS envS hq x hx iniS fuel out h).2.2
    rw [costS _ (Like.refl _)] at this
    norm_num [seg] at this
    exact this

/-- One segment with given ends. -/
noncomputable def cfgE : Cfg Unit :=
  { m := 1, nb := 2, order := 1, lam := [1], alphaInit := 1 / 5, costThreshold := 1 / 100, alwaysStopAtFirst := true, reorderIntervals := true, linearizeAtEachStep := false,
    returnOptimum := false, checkOptimum := true, nVar := 1, sol := fun _ i => if i = 1 then 2 else 0, rank := fun L => min L.length 1 }

theorem computeE {s : VSpl} (h : Like s (seg 0 2)) : s.compute integ s.s0 0 = s.P 0 0 ∧ s.compute integ s.s1 0 = s.P 1 0 := by
  obtain ⟨n, b, P, s0, s1⟩ := s
  obtain ⟨h1, h2, h3, h4⟩ := h
  simp only [seg] at h1 h2 h3 h4
  subst h1 h2 h3 h4
  unfold Spl.compute integ
  constructor <;> norm_num [Spl.velocity, Spl.param, basis, binom, sgn, Finset.sum_range_succ]

theorem validE : Valid 1 1 [(seg 0 2, [0])] := by
  refine ⟨?_, ?_, ?_⟩ <;> intro x hx <;> rw [List.mem_singleton.1 hx]
  · rfl
  · simp [seg]
  · intro d hd; rw [List.mem_singleton.1 hd]; omega

theorem smoothE : Smooth 1 0 [seg 0 2] := by
  refine ⟨?_, ?_, ?_⟩
  · intro j s t h1 h2; simp at h2
  · intro s _ d _ k h1 h2; omega
  · intro s _ d _ k h1 h2; omega

noncomputable def envE (t : ℕ) : Env (ℕ → ℝ) Unit :=
  { stop := false, valid := fun _ _ => if t < 7 then some 0 else none, isColl := fun _ => true, jac := fun _ _ _ => 1, rejac := fun _ _ => 1, qp := fun _ => some () }

/-- The hypotheses of `C93_path` are met. -/
example : ∃ (fuel : ℕ) (out : LSt (ℕ → ℝ) Unit), optLoop cfgE envE fuel 0 (initSt cfgE [seg 0 2] ()) = .ok (some out) ∧ Smooth 1 0 out.splines ∧ SameEnds 1 out.splines [seg 0 2] ∧
    (∀ s ∈ out.splines, ∀ t, InBounds [some (some (-5), some 5)] 0 (s.compute integ t)) ∧ cfgE.cost out.splines ≤ cfgE.cost [seg 0 2] := by
  have hfix : ∀ L S, List.Forall₂ Like S [seg 0 2] → Feasible cfgE (equalities 1 1 0 [(seg 0 2, [0])]) (boundRows 1 2 [some (some (-5), some 5)] [seg 0 2]) L S →
      Optimal cfgE [seg 0 2] (equalities 1 1 0 [(seg 0 2, [0])]) (boundRows 1 2 [some (some (-5), some 5)] [seg 0 2]) L () := by
    have hP : ∀ S, List.Forall₂ Like S [seg 0 2] → Sat 1 2 (equalities 1 1 0 [(seg 0 2, [0])]) S → ∃ s, S = [s] ∧ Like s (seg 0 2) ∧ s.P 0 0 = 0 ∧ s.P 1 0 = 2 := by
      intro S hS hsat
      obtain ⟨s, rfl, hl⟩ := likeS hS
      obtain ⟨-, k⟩ := (C89_continuity validE (by omega) smoothE).2 [s] hS hsat
      have e1 := k.first s (seg 0 2) rfl rfl 0 (by omega)
      have e2 := k.last s (seg 0 2) rfl rfl 0 (by omega)
      rw [(computeE hl).1, (computeE (Like.refl _)).1] at e1
      rw [(computeE hl).2, (computeE (Like.refl _)).2] at e2
      exact ⟨s, rfl, hl, by rw [e1]; simp [seg], by rw [e2]; simp [seg]⟩
    have hcat : ∀ s : VSpl, s.P 0 0 = 0 → s.P 1 0 = 2 → concat 1 2 [s] = fun c => if c = 1 then 2 else 0 := by
      intro s h0 h1
      funext c
      by_cases hc : c < 2
      · interval_cases c
        · show s.P 0 0 = _; rw [h0]; simp
        · show s.P 1 0 = _; rw [h1]; simp
      · unfold concat
        rw [List.getElem?_eq_none (by simp; omega), if_neg (by omega)]
    have hz : concat 1 2 (splinesOf cfgE [seg 0 2] ()) = fun c => if c = 1 then 2 else 0 := concatS 2
    intro L S hS hf
    have hF : ∀ S : List VSpl, concat 1 2 S = (fun c => if c = 1 then 2 else 0) → (Feasible cfgE (equalities 1 1 0 [(seg 0 2, [0])]) (boundRows 1 2 [some (some (-5), some 5)] [seg 0 2]) L S ↔
        (∀ r ∈ equalities 1 1 0 [(seg 0 2, [0])], r.Holds fun c => if c = 1 then 2 else 0) ∧ (∀ r ∈ L, r.Holds fun c => if c = 1 then 2 else 0) ∧
        ∀ r ∈ boundRows 1 2 [some (some (-5), some 5)] [seg 0 2], r.b ≤ dot r.J fun c => if c = 1 then 2 else 0) := by
      intro S hS
      rw [← hS]; rfl
    obtain ⟨s, rfl, hl, h0, h1⟩ := hP S hS hf.1
    refine ⟨(hF _ hz).2 ((hF _ (hcat s h0 h1)).1 hf), fun S' hS' hf' => ?_⟩
    obtain ⟨s', rfl, hl', h0', h1'⟩ := hP S' hS' hf'.1
    have e1 : cfgE.cost (splinesOf cfgE [seg 0 2] ()) = 2 ^ 2 := costS_of 2
    have e2 : cfgE.cost [s'] = (s'.P 1 0 - s'.P 0 0) ^ 2 := costS s' hl'
    rw [e1, e2, h0', h1', sub_zero]
  have hb : ∀ s ∈ [seg 0 2], ControlIn 1 [some (some (-5), some 5)] 0 s := by
    intro s hs k _ d low up hd
    rw [List.mem_singleton.1 hs]
    match d with
    | 0 =>
      simp at hd
      obtain ⟨rfl, rfl⟩ := hd
      constructor
      · intro l hl; cases hl; simp only [integ, seg]; split <;> norm_num
      · intro l hl; cases hl; simp only [integ, seg]; split <;> norm_num
    | d + 1 => simp at hd
  have hi : List.Forall₂ Like [seg 0 2] [seg 0 2] := List.forall₂_same.2 fun x _ => Like.refl x
  have w : WF cfgE [seg 0 2] := ⟨wfS.m, wfS.deg, wfS.nb, wfS.range, wfS.order, wfS.lam, wfS.alpha⟩
  have hini : Feasible cfgE (equalities 1 1 0 [(seg 0 2, [0])]) (boundRows 1 2 [some (some (-5), some 5)] [seg 0 2]) [] [seg 0 2] :=
    ⟨(C89_continuity validE (by omega) smoothE).1, (fun r hr => by cases hr), (C91_rows (m := 1) (n := 1) (lims := [some (some (-5), some 5)]) le_rfl [seg 0 2] (fun s hs => by rw [List.mem_singleton.1 hs]; rfl)).1.2 hb⟩
  have hq : ∀ t, Solves cfgE [seg 0 2] (equalities 1 1 0 [(seg 0 2, [0])]) (boundRows 1 2 [some (some (-5), some 5)] [seg 0 2]) (envE t) := by
    rintro t L ⟨S, hS, hf⟩
    exact ⟨(), rfl, hfix L S hS hf⟩
  have hx := hfix [] _ hi hini
  have e1 : cfgE.cost (splinesOf cfgE [seg 0 2] ()) = 2 ^ 2 := costS_of 2
  obtain ⟨fuel, out, h⟩ := C94_terminates_partial cfgE [seg 0 2] w _ _ envE hq rfl ⟨rfl, fun L r => by simp [cfgE]⟩ (fun _ _ => rfl) (by show (0 : ℝ) < 1 / 5; norm_num)
    (by show (1 / 5 : ℝ) < 1; norm_num) (2 ^ 2) (by norm_num) (fun S hS hf => by rw [← e1]; exact hx.2 S hS hf) (by show (0 : ℝ) < 1 / 100; norm_num) () hx hini
  exact ⟨fuel, out, h, C93_path cfgE 1 0 [(seg 0 2, [0])] [some (some (-5), some 5)] rfl w validE (by omega) smoothE le_rfl hb envE hq () hx fuel out h⟩

end Verif.SplineOpt
