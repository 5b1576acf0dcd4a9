import Verif.SplineOpt.LoopCost
import Mathlib.Analysis.SpecificLimits.Basic
set_option linter.unusedSectionVars false

/-!
# Exceptions and end of the loop of `SplineGradientBased` (C93, C94)
-/
namespace Verif.SplineOpt
open Verif.Spline

variable {Q κ : Type}

theorem addLoop_total (c : Cfg κ) (e : Env Q κ) (he : ∀ i, e.isColl i = true) (splines cur : List (Spl Q)) (hlen : cur.length = splines.length) : ∀ (reports : List (ℝ × ℕ)) (ri : ℕ) (ok : Bool) (col : Coll),
    (∀ p ∈ reports, p.2 < splines.length) → ∃ b col', addLoop c e splines cur ri reports ok col = .ok (b, col') := by
  intro reports
  induction reports with
  | nil => intro ri ok col _; exact ⟨ok, col, by rw [addLoop]⟩
  | cons p l ih =>
    intro ri ok col hp
    obtain ⟨r, j⟩ := p
    have hj := hp (r, j) (List.mem_cons_self ..)
    obtain ⟨s, hs⟩ : ∃ s, splines[j]? = some s := ⟨_, List.getElem?_eq_getElem hj⟩
    obtain ⟨s', hs'⟩ : ∃ s, cur[j]? = some s := ⟨_, List.getElem?_eq_getElem (by rw [hlen]; exact hj)⟩
    rw [addLoop]
    simp only [hs, hs', he, if_true]
    generalize findNew c e ri s j (r / (s'.s1 - s'.s0)) 5 0
      { col with rows := col.rows ++ [linRow c.m c.nb s j (r / (s'.s1 - s'.s0)) (e.jac ri 0)], fns := col.fns ++ [(j, r / (s'.s1 - s'.s0))] } = p
    by_cases h1 : (ok || p.1) = false
    · rw [if_pos h1]; exact ⟨_, _, rfl⟩
    · rw [if_neg h1]
      by_cases h2 : c.nVar ≤ p.2.rank
      · rw [if_pos h2]; exact ⟨_, _, rfl⟩
      · rw [if_neg h2]
        exact ih _ _ _ fun q hq => hp q (List.mem_cons_of_mem _ hq)

/-- An iteration raises no exception and reads nothing out of range. -/
theorem step_total {c : Cfg κ} (hl : c.linearizeAtEachStep = false) (hk : RankOk c) {e : Env Q κ} (he : ∀ i, e.isColl i = true) {init : List (Spl Q)} {st : LSt Q κ} (hb : Base c init st) (hf : Full c st.col) :
    ∃ nx, step c e st = .ok nx ∧ Full c nx.st.col ∧ (nx.st.col.rows.length = st.col.rows.length ∨ st.col.rows.length < nx.st.col.rows.length) := by
  obtain ⟨h1, h2, h3, h4, h5, h6, h7, h8, h9, h10, h11, h12, h13, h14⟩ := prepare_spec c hb
  have hacc : ∀ st1 : LSt Q κ, st1.col = (prepare c st).col → ∃ nx, accept c e st1 = .ok nx ∧ Full c nx.st.col ∧
      (nx.st.col.rows.length = st.col.rows.length ∨ st.col.rows.length < nx.st.col.rows.length) := by
    intro st1 hc
    unfold accept
    simp only [hl, Bool.false_eq_true, if_false]
    refine ⟨_, rfl, ?_, Or.inl ?_⟩
    · show Full c st1.col
      rw [hc, h3]; exact hf
    · show st1.col.rows.length = _
      rw [hc, h3]
  rcases step_spec (e := e) hb with ⟨_, hs⟩ | ⟨_, order, reports, hp, ⟨_, _, hs⟩ | ⟨_, hrep, hs⟩⟩
  · rw [hs]; exact hacc _ rfl
  · rw [hs]; exact hacc _ rfl
  · rw [hs]
    unfold reject
    simp only
    have hf' : Full c (prepare c st).col := by rw [h3]; exact hf
    by_cases a1 : (prepare c st).alpha = 1
    · rw [if_pos a1]
      exact ⟨_, rfl, hf', Or.inl (by show (prepare c st).col.rows.length = _; rw [h3])⟩
    · rw [if_neg a1]
      by_cases a2 : c.nVar ≤ (prepare c st).col.rank
      · rw [if_pos a2]
        exact ⟨_, rfl, hf', Or.inl (by show (prepare c st).col.rows.length = _; rw [h3])⟩
      · rw [if_neg a2]
        have hcl := (cur_like c hb).length_eq
        have hsl : (prepare c st).splines.length = init.length := by rw [h1]; exact hb.splines.length_eq
        obtain ⟨b, col, ha⟩ := addLoop_total c e he (prepare c st).splines (prepare c st).cur (hcl.trans hsl.symm) reports 0 false (prepare c st).col
          (fun p hp => by rw [hsl]; exact (hrep p hp).1)
        have hcur : ∀ o, LSt.cur { prepare c st with reordering := o, noCollision := false } = (prepare c st).cur := fun _ => rfl
        obtain ⟨b1, b2, b3, b4⟩ := addLoop_spec c e _ _ _ _ _ _ _ _ (fun hh => by cases hh) ha
        obtain ⟨c1, c2, _⟩ := b4 hk hf' (by omega)
        have ha' : addLoop c e (prepare c st).splines (LSt.cur { prepare c st with reordering := order, noCollision := false }) 0 reports false (prepare c st).col = .ok (b, col) := ha
        rw [ha']
        cases b with
        | false =>
          have hr : col.rows.length = st.col.rows.length := by rw [(b3 rfl).1, h3]
          simp only
          by_cases a3 : (prepare c st).alpha < c.alphaInit / 4
          · rw [if_pos a3]; exact ⟨_, rfl, c1, Or.inl hr⟩
          · rw [if_neg a3]; exact ⟨_, rfl, c1, Or.inl hr⟩
        | true =>
          obtain ⟨d1, d2⟩ := c2 rfl rfl
          simp only
          unfold solve
          rw [if_neg (by omega)]
          refine ⟨_, rfl, c1, Or.inr ?_⟩
          show st.col.rows.length < col.rows.length
          rw [← h3]; exact d2

/-- C93: without `linearizeAtEachStep`, the loop raises no exception and reads nothing out of range as long as the reports are collision reports. -/
theorem C93_total (c : Cfg κ) (hl : c.linearizeAtEachStep = false) (hk : RankOk c) (env : ℕ → Env Q κ) (he : ∀ t i, (env t).isColl i = true) (init : List (Spl Q)) (x : κ) (fuel : ℕ) :
    ∃ r, optLoop c env fuel 0 (initSt c init x) = .ok r := by
  have : ∀ fuel t st, Base c init st → Full c st.col → ∃ r, optLoop c env fuel t st = .ok r := by
    intro fuel
    induction fuel with
    | zero => intro t st _ _; exact ⟨none, rfl⟩
    | succ fuel ih =>
      intro t st hb hf
      rw [optLoop]
      by_cases hs : ((st.noCollision && st.minimumReached) || (env t).stop) = true
      · rw [if_pos hs]; exact ⟨_, rfl⟩
      · rw [if_neg hs]
        obtain ⟨nx, h1, h2, _⟩ := step_total hl hk (he t) hb hf
        rw [h1]
        cases nx with
        | done st' => exact ⟨_, rfl⟩
        | go st' => exact ih (t + 1) st' (base_step hb h1) h2
  exact this fuel 0 _ (base_init c init x) ⟨hk.nil, Nat.zero_le _, le_rfl⟩

/-! ## End of the loop -/

/-- The values of `alpha`. -/
def Level (c : Cfg κ) (alpha : ℝ) (l : ℕ) : Prop := (alpha = 1 ∧ l = 4) ∨ ∃ j, j ≤ 3 ∧ alpha = c.alphaInit / 2 ^ j ∧ l = 3 - j

theorem Level.ge {c : Cfg κ} (h0 : 0 < c.alphaInit) (h1 : c.alphaInit < 1) {alpha : ℝ} {l : ℕ} (h : Level c alpha l) : c.alphaInit / 8 ≤ alpha := by
  rcases h with ⟨rfl, _⟩ | ⟨j, hj, rfl, _⟩
  · linarith
  · have : (2 : ℝ) ^ j ≤ 2 ^ 3 := pow_le_pow_right₀ (by norm_num) hj
    exact div_le_div_of_nonneg_left h0.le (by positivity) (by linarith)

theorem terminates_aux (c : Cfg κ) (init : List (Spl Q)) (w : WF c init) (eqs bnd : List Row) (env : ℕ → Env Q κ) (hq : ∀ t, Solves c init eqs bnd (env t))
    (hl : c.linearizeAtEachStep = false) (hk : RankOk c) (he : ∀ t i, (env t).isColl i = true) (h0 : 0 < c.alphaInit) (h1 : c.alphaInit < 1) (delta : ℝ) (hd : 0 < delta)
    (hc : ∀ S, List.Forall₂ Like S init → Feasible c eqs bnd [] S → delta ≤ c.cost S) (ht : 0 < c.costThreshold) (K : ℕ)
    (hK : (1 - c.alphaInit / 8) ^ K * c.cost init < c.costThreshold * delta) :
    ∀ M t st L k l, Good c init eqs bnd st L → Full c st.col → Level c st.alpha l → k ≤ K →
      c.cost st.splines - c.cost (splinesOf c init st.xStar) ≤ (1 - c.alphaInit / 8) ^ k * c.cost init →
      ((c.nVar - st.col.rows.length) * (K + 1) + (K - k)) * 5 + l ≤ M → ∃ fuel out, optLoop c env fuel t st = .ok (some out) := by
  intro M
  induction M using Nat.strong_induction_on with
  | _ M ih =>
  intro t st L k l g hf hlev hkK hgap hM
  by_cases hs : ((st.noCollision && st.minimumReached) || (env t).stop) = true
  · exact ⟨1, st, by rw [optLoop, if_pos hs]⟩
  obtain ⟨nx, n1, n2, n3⟩ := step_total hl hk (he t) g.base hf
  cases nx with
  | done st' => exact ⟨1, st', by rw [optLoop, if_neg hs, n1]⟩
  | go st' =>
    have again : (∃ fuel out, optLoop c env fuel (t + 1) st' = .ok (some out)) → ∃ fuel out, optLoop c env fuel t st = .ok (some out) := by
      rintro ⟨fuel, out, h⟩
      exact ⟨fuel + 1, out, by rw [optLoop, if_neg hs, n1]; exact h⟩
    have stop : st'.noCollision = true → st'.minimumReached = true → ∃ fuel out, optLoop c env fuel t st = .ok (some out) := by
      intro a b
      exact again ⟨1, st', by rw [optLoop, if_pos (by rw [a, b]; rfl)]⟩
    obtain ⟨-, hgo⟩ := good_step w (hq t) g n1
    obtain ⟨L', g'⟩ := hgo st' rfl
    obtain ⟨p1, p2, p3, p4, p5, p6, p7, p8, p9, p10, p11, p12, p13, p14⟩ := prepare_spec c g.base
    obtain ⟨k1, k2, k3, k4, k5, k6⟩ := good_cur w g
    have hlow : delta ≤ c.cost (splinesOf c init st.xStar) := hc _ (splinesOf_like c init _) ⟨g.opt.1.1, (fun r hr => by cases hr), g.opt.1.2.2⟩
    have hale := hlev.ge h0 h1
    have hinit : 0 ≤ c.cost init := by
      have := k5.trans (k4.trans g.cost)
      linarith
    have hfin : Full c st'.col := n2
    have hacc : ∀ st1 : LSt Q κ, st1.splines = (prepare c st).splines → st1.cur = (prepare c st).cur → st1.alpha = (prepare c st).alpha → st1.col = (prepare c st).col →
        st1.xStar = (prepare c st).xStar → st1.lowerBound = (prepare c st).lowerBound → (st1.minimumReached = true ∨ st1.minimumReached = (prepare c st).minimumReached) →
        accept c (env t) st1 = .ok (.go st') → ∃ fuel out, optLoop c env fuel t st = .ok (some out) := by
      intro st1 e1 e2 e3 e4 e5 e6 e7 ha
      obtain ⟨st2, q1, q2, q3, q4, q5, q6, q7, q8, q9, q10, q11⟩ := accept_spec ha
      cases q1
      rcases q11 with ⟨_, r1, r2, r3⟩ | ⟨hh, _⟩
      swap
      · rw [hl] at hh; cases hh
      cases hmr : st1.minimumReached with
      | true => exact stop q7 (by rw [q10, hmr]; rfl)
      | false =>
        have hint : st.computeInterpolated = true := by
          rcases e7 with e7 | e7
          · rw [hmr] at e7; cases e7
          · rw [hmr, p11] at e7
            cases hci : st.computeInterpolated with
            | true => rfl
            | false => rw [hci] at e7; cases e7
        have hcost := k6 hint
        have hsame : List.Forall₂ (Same c.m) st'.splines (prepare c st).cur := by
          rw [q2, e1, e2, p1]
          exact forall₂_zip_same (forall₂_like_trans g.base.splines (forall₂_like_symm (cur_like c g.base)))
        have hcs := cost_same w (cur_like c g.base) hsame
        have hgap0 : 0 ≤ c.cost st.splines - c.cost (splinesOf c init st.xStar) := by linarith
        have hgap' : c.cost st'.splines - c.cost (splinesOf c init st.xStar) ≤ (1 - c.alphaInit / 8) * (c.cost st.splines - c.cost (splinesOf c init st.xStar)) := by
          rw [hcs]
          have := mul_le_mul_of_nonneg_right hale hgap0
          linarith
        have h18 : 0 ≤ 1 - c.alphaInit / 8 := by linarith
        rcases Nat.lt_or_ge k K with hlt | hge
        · refine again (ih (((c.nVar - st'.col.rows.length) * (K + 1) + (K - (k + 1))) * 5 + l) ?_ (t + 1) st' L' (k + 1) l g' hfin ?_ hlt ?_ le_rfl)
          · rw [r1, e4, p3]; omega
          · rw [q8, e3, p2]; exact hlev
          · rw [r2, e5, p4, pow_succ]
            have := mul_le_mul_of_nonneg_left hgap h18
            linarith
        · have hkK' : k = K := by omega
          refine stop q7 ?_
          rw [q10, e2, e6, k2, decide_eq_true, Bool.or_true]
          have hpos : 0 ≤ c.cost (prepare c st).cur - c.cost (splinesOf c init st.xStar) := by linarith
          rw [abs_of_nonneg hpos]
          have a2 := mul_le_mul_of_nonneg_left hlow ht.le
          rw [hkK'] at hgap
          linarith
    rcases step_spec (e := env t) g.base with ⟨_, hst⟩ | ⟨_, order, reports, hp, ⟨_, _, hst⟩ | ⟨_, hrep, hst⟩⟩
    · have n1' := n1
      rw [hst] at n1'
      refine hacc _ ?_ ?_ ?_ ?_ ?_ ?_ (Or.inl ?_) n1' <;> rfl
    · have n1' := n1
      rw [hst] at n1'
      refine hacc _ ?_ ?_ ?_ ?_ ?_ ?_ (Or.inr ?_) n1' <;> rfl
    · have n1' := n1
      rw [hst] at n1'
      rcases reject_spec n1' with ⟨a0, q⟩ | ⟨_, _, q⟩ | ⟨a0, _, col, ad, ⟨_, q⟩ | ⟨a3, q⟩⟩ | ⟨a0, arank, col, x, ad, so, q⟩
      · have a0' : st.alpha = 1 := by rw [← p2]; exact a0
        have hl4 : l = 4 := by
          rcases hlev with ⟨_, h⟩ | ⟨j, hj, hja, _⟩
          · exact h
          · exfalso
            have : c.alphaInit / 2 ^ j ≤ c.alphaInit := div_le_self h0.le (one_le_pow₀ (by norm_num))
            linarith
        have hcol : st'.col = st.col := by cases q; exact p3
        have hx : st'.xStar = st.xStar := by cases q; exact p4
        have hsp : st'.splines = st.splines := by cases q; exact p1
        have hal : st'.alpha = c.alphaInit := by cases q; rfl
        refine again (ih (((c.nVar - st'.col.rows.length) * (K + 1) + (K - k)) * 5 + 3) ?_ (t + 1) st' L' k 3 g' hfin (Or.inr ⟨0, by omega, by rw [hal]; simp, rfl⟩) hkK ?_ le_rfl)
        · rw [hcol]; omega
        · rw [hsp, hx]; exact hgap
      · cases q
      · cases q
      · obtain ⟨b1, b2, b3, b4⟩ := addLoop_spec c (env t) _ _ _ _ _ _ _ _ (fun hh => by cases hh) ad
        have hrow : st'.col.rows = st.col.rows := by cases q; rw [← p3]; exact (b3 rfl).1
        have hx : st'.xStar = st.xStar := by cases q; exact p4
        have hsp : st'.splines = st.splines := by cases q; exact p1
        have hal : st'.alpha = st.alpha * (1 / 2) := by cases q; rw [← p2]
        have a0' : st.alpha ≠ 1 := by rw [← p2]; exact a0
        have a3' : ¬ st.alpha < c.alphaInit / 4 := by rw [← p2]; exact a3
        rcases hlev with ⟨h, _⟩ | ⟨j, hj, hja, hlj⟩
        · exact absurd h a0'
        · have hj3 : j ≠ 3 := by
            rintro rfl
            apply a3'
            rw [hja]
            norm_num
            linarith
          refine again (ih (((c.nVar - st'.col.rows.length) * (K + 1) + (K - k)) * 5 + (3 - (j + 1))) ?_ (t + 1) st' L' k _ g' hfin
            (Or.inr ⟨j + 1, by omega, by rw [hal, hja, pow_succ]; field_simp, rfl⟩) hkK ?_ le_rfl)
          · rw [hrow]; omega
          · rw [hsp, hx]; exact hgap
      · obtain ⟨b1, b2, b3, b4⟩ := addLoop_spec c (env t) _ _ _ _ _ _ _ _ (fun hh => by cases hh) ad
        have hf' : Full c (prepare c st).col := by rw [p3]; exact hf
        obtain ⟨c1, c2, _⟩ := b4 hk hf' arank
        have hrow : st.col.rows.length < st'.col.rows.length := by cases q; rw [← p3]; exact (c2 rfl rfl).2
        have hal : st'.alpha = 1 := by cases q; rfl
        have hle := hfin.le
        have hlow' : delta ≤ c.cost (splinesOf c init st'.xStar) := hc _ (splinesOf_like c init _) ⟨g'.opt.1.1, (fun r hr => by cases hr), g'.opt.1.2.2⟩
        refine again (ih (((c.nVar - st'.col.rows.length) * (K + 1) + (K - 0)) * 5 + 4) ?_ (t + 1) st' L' 0 4 g' hfin (Or.inl ⟨hal, rfl⟩) (Nat.zero_le _) ?_ le_rfl)
        · obtain ⟨d, hd'⟩ : ∃ d, c.nVar - st.col.rows.length = d + 1 + (c.nVar - st'.col.rows.length) := ⟨st'.col.rows.length - st.col.rows.length - 1, by omega⟩
          rw [hd'] at hM
          have : (d + 1 + (c.nVar - st'.col.rows.length)) * (K + 1) = d * (K + 1) + (K + 1) + (c.nVar - st'.col.rows.length) * (K + 1) := by ring
          rw [this] at hM
          omega
        · rw [pow_zero, one_mul]
          linarith [g'.cost]

/-- C94 (partial): without `linearizeAtEachStep`, with `alphaInit` strictly between 0 and 1, a positive threshold, a solver which keeps its contract and a cost which is bounded
below by a positive number on the feasible paths, the loop ends, for all answers of the validation methods and of the collision functions.  Missing: the other values of
the parameters, and null optimal costs, for which the loop may not end. -/
theorem C94_terminates_partial (c : Cfg κ) (init : List (Spl Q)) (w : WF c init) (eqs bnd : List Row) (env : ℕ → Env Q κ) (hq : ∀ t, Solves c init eqs bnd (env t))
    (hl : c.linearizeAtEachStep = false) (hk : RankOk c) (he : ∀ t i, (env t).isColl i = true) (h0 : 0 < c.alphaInit) (h1 : c.alphaInit < 1) (delta : ℝ) (hd : 0 < delta)
    (hc : ∀ S, List.Forall₂ Like S init → Feasible c eqs bnd [] S → delta ≤ c.cost S) (ht : 0 < c.costThreshold) (x : κ)
    (hx : Optimal c init eqs bnd [] x) (hini : Feasible c eqs bnd [] init) :
    ∃ fuel out, optLoop c env fuel 0 (initSt c init x) = .ok (some out) := by
  have hi : delta ≤ c.cost init := hc init (List.forall₂_same.2 fun x _ => Like.refl x) hini
  have hi0 : 0 < c.cost init := by linarith
  obtain ⟨K, hK⟩ := exists_pow_lt_of_lt_one (show 0 < c.costThreshold * delta / c.cost init by positivity) (show 1 - c.alphaInit / 8 < 1 by linarith)
  have hlev : ∃ l, Level c (initSt c init x).alpha l := by
    show ∃ l, Level c (if (c.checkOptimum || c.returnOptimum) = true then (1 : ℝ) else c.alphaInit) l
    by_cases h : (c.checkOptimum || c.returnOptimum) = true
    · rw [if_pos h]; exact ⟨4, Or.inl ⟨rfl, rfl⟩⟩
    · rw [if_neg h]; exact ⟨3, Or.inr ⟨0, by omega, by simp, rfl⟩⟩
  obtain ⟨l, hlev⟩ := hlev
  have hlow : delta ≤ c.cost (splinesOf c init x) := hc _ (splinesOf_like c init _) hx.1
  refine terminates_aux c init w eqs bnd env hq hl hk he h0 h1 delta hd hc ht K ?_ _ 0 (initSt c init x) [] 0 l (good_init w hx hini) ⟨hk.nil, Nat.zero_le _, le_rfl⟩ hlev (Nat.zero_le _) ?_ le_rfl
  · rw [lt_div_iff₀ hi0] at hK
    exact hK
  · show c.cost init - c.cost (splinesOf c init x) ≤ _
    rw [pow_zero, one_mul]
    linarith

end Verif.SplineOpt
