import Verif.SplineOpt.Loop
set_option linter.unusedSectionVars false

/-!
# Cost, joint bounds and exceptions in the loop of `SplineGradientBased` (C93)
-/
namespace Verif.SplineOpt
open Verif.Spline

variable {Q κ : Type}

/-! ## Specification -/

/-- The constraints of the quadratic program: the equality constraints `eqs`, the linearized collision constraints `L`, the joint bounds `bnd`. -/
def Feasible (c : Cfg κ) (eqs bnd L : List Row) (S : List (Spl Q)) : Prop :=
  Sat c.m c.nb eqs S ∧ Sat c.m c.nb L S ∧ ∀ r ∈ bnd, r.b ≤ dot r.J (concat c.m c.nb S)

/-- The splines for a value of the variables of the reduced program. -/
def splinesOf (c : Cfg κ) (init : List (Spl Q)) (x : κ) : List (Spl Q) := updateSplines c.m c.nb init (c.sol x)

/-- A solution of the program. -/
def Optimal (c : Cfg κ) (init : List (Spl Q)) (eqs bnd L : List Row) (x : κ) : Prop :=
  Feasible c eqs bnd L (splinesOf c init x) ∧ ∀ S, List.Forall₂ Like S init → Feasible c eqs bnd L S → c.cost (splinesOf c init x) ≤ c.cost S

/-- A solver which solves the programs that have solutions. -/
def Solves (c : Cfg κ) (init : List (Spl Q)) (eqs bnd : List Row) (e : Env Q κ) : Prop :=
  ∀ L, (∃ S, List.Forall₂ Like S init ∧ Feasible c eqs bnd L S) → ∃ x, e.qp L = some x ∧ Optimal c init eqs bnd L x

/-- Splines of the same degree with a positive duration, weights that are not negative. -/
structure WF (c : Cfg κ) (init : List (Spl Q)) : Prop where
  m : 0 < c.m
  deg : ∀ s ∈ init, s.n + 1 = c.nb
  nb : 0 < c.nb
  range : ∀ s ∈ init, s.s0 ≤ s.s1
  order : c.order ≤ c.nb
  lam : ∀ l ∈ c.lam, 0 ≤ l
  alpha : 0 ≤ c.alphaInit ∧ c.alphaInit ≤ 1

/-- The rank of the rows. -/
structure RankOk (c : Cfg κ) : Prop where
  nil : c.rank [] = 0
  mono : ∀ L r, c.rank L ≤ c.rank (L ++ [r])

/-! ## Lemmas -/

theorem linRow_holds {m nb : ℕ} {splines : List (Spl Q)} {j : ℕ} {s : Spl Q} (hj : splines[j]? = some s) (ratio : ℝ) (J : ℕ → ℝ) :
    (linRow m nb s j ratio J).Holds (concat m nb splines) := by
  unfold Row.Holds linRow dot
  simp only [List.map_map]
  congr 1
  refine List.map_congr_left fun p hp => ?_
  simp only [List.mem_flatMap, List.mem_map, List.mem_range] at hp
  obtain ⟨i, hi, d, hd, rfl⟩ := hp
  show basis s.n 0 ratio i * J d * concat m nb splines (j * (m * nb) + (i * m + d)) = basis s.n 0 ratio i * J d * row m s (i * m + d)
  rw [concat_at hj hi hd, row_concat hd]

/-- A row linearized at the splines. -/
def LinAt (c : Cfg κ) (splines : List (Spl Q)) (r : Row) : Prop := ∃ (j : ℕ) (s : Spl Q) (ratio : ℝ) (J : ℕ → ℝ), splines[j]? = some s ∧ r = linRow c.m c.nb s j ratio J

theorem LinAt.holds {c : Cfg κ} {splines : List (Spl Q)} {r : Row} (h : LinAt c splines r) : r.Holds (concat c.m c.nb splines) := by
  obtain ⟨j, s, ratio, J, hj, rfl⟩ := h
  exact linRow_holds hj ratio J

theorem findNew_spec (c : Cfg κ) (e : Env Q κ) (ri : ℕ) (splines : List (Spl Q)) (s : Spl Q) (j : ℕ) (hj : splines[j]? = some s) (ratio : ℝ) : ∀ (i a : ℕ) (col : Coll) (R : List Row) (r : Row),
    col.rows = R ++ [r] → LinAt c splines r → ∃ r', LinAt c splines r' ∧ (findNew c e ri s j ratio i a col).2.reduced = R ++ [r'] ∧
      (findNew c e ri s j ratio i a col).2.rank = c.rank (R ++ [r']) ∧
      (((findNew c e ri s j ratio i a col).1 = true ∧ (findNew c e ri s j ratio i a col).2.rows = R ++ [r'] ∧ (findNew c e ri s j ratio i a col).2.fns = col.fns ∧
          c.rank (R ++ [r']) = min (R.length + 1) c.nVar) ∨
        ((findNew c e ri s j ratio i a col).1 = false ∧ (findNew c e ri s j ratio i a col).2.rows = R ∧ (findNew c e ri s j ratio i a col).2.fns = col.fns.dropLast ∧
          c.rank (R ++ [r']) ≠ min (R.length + 1) c.nVar)) := by
  intro i
  induction i with
  | zero =>
    intro a col R r hr hl
    rw [findNew]
    by_cases h : c.rank col.rows = min col.rows.length c.nVar
    · simp only [if_pos h]
      refine ⟨r, hl, hr, by rw [hr], Or.inl ⟨by trivial, hr, by trivial, ?_⟩⟩
      rw [hr] at h; simpa using h
    · simp only [if_neg h]
      refine ⟨r, hl, hr, by rw [hr], Or.inr ⟨by trivial, by rw [hr]; simp, by trivial, ?_⟩⟩
      rw [hr] at h; simpa using h
  | succ i ih =>
    intro a col R r hr hl
    rw [findNew]
    by_cases h : c.rank col.rows = min col.rows.length c.nVar
    · simp only [if_pos h]
      refine ⟨r, hl, hr, by rw [hr], Or.inl ⟨by trivial, hr, by trivial, ?_⟩⟩
      rw [hr] at h; simpa using h
    · simp only [if_neg h]
      exact ih (a + 1) _ R (linRow c.m c.nb s j ratio (e.jac ri (a + 1))) (by show col.rows.dropLast ++ _ = _; rw [hr]; simp) ⟨j, s, ratio, _, hj, rfl⟩

/-- The rows are independent, and at most as many as the variables. -/
structure Full (c : Cfg κ) (col : Coll) : Prop where
  full : c.rank col.rows = col.rows.length
  le : col.rows.length ≤ c.nVar
  rank : c.rank col.rows ≤ col.rank

theorem addLoop_spec (c : Cfg κ) (e : Env Q κ) (splines cur : List (Spl Q)) : ∀ (reports : List (ℝ × ℕ)) (ri : ℕ) (ok : Bool) (col : Coll) (b : Bool) (col' : Coll),
    (ok = true → (∀ r ∈ col.rows, r ∈ col.reduced) ∧ ∀ r ∈ col.reduced, r ∈ col.rows ∨ LinAt c splines r) →
    addLoop c e splines cur ri reports ok col = .ok (b, col') →
    (∀ r ∈ col'.rows, r ∈ col.rows ∨ LinAt c splines r) ∧
    (b = true → (∀ r ∈ col'.rows, r ∈ col'.reduced) ∧ ∀ r ∈ col'.reduced, r ∈ col.rows ∨ LinAt c splines r) ∧
    (b = false → col'.rows = col.rows ∧ col'.fns = col.fns ∧ ok = false) ∧
    (RankOk c → Full c col → col.rank < c.nVar → Full c col' ∧ (b = true → ok = false → col'.reduced.length ≤ c.nVar ∧ col.rows.length < col'.rows.length) ∧
      (b = true → ok = true → col.reduced.length ≤ c.nVar → col'.reduced.length ≤ c.nVar ∧ col.rows.length ≤ col'.rows.length)) := by
  intro reports
  induction reports with
  | nil =>
    intro ri ok col b col' hok h
    rw [addLoop] at h
    cases h
    refine ⟨fun r hr => Or.inl hr, hok, fun hb => ⟨rfl, rfl, hb⟩, fun _ hf _ => ⟨hf, fun h1 h2 => ?_, fun _ _ h => ⟨h, le_rfl⟩⟩⟩
    rw [h1] at h2; cases h2
  | cons p l ih =>
    intro ri ok col b col' hok h
    obtain ⟨r, j⟩ := p
    rw [addLoop] at h
    cases hj : splines[j]? with
    | none => simp only [hj] at h; cases h
    | some s =>
      cases hj' : cur[j]? with
      | none => simp only [hj, hj'] at h; cases h
      | some s' =>
        simp only [hj, hj'] at h
        cases hc : e.isColl ri with
        | false => simp only [hc, Bool.false_eq_true, if_false] at h; cases h
        | true =>
          simp only [hc, if_true] at h
          obtain ⟨r', hl, f1, f2, f3⟩ := findNew_spec c e ri splines s j hj (r / (s'.s1 - s'.s0)) 5 0
            { col with rows := col.rows ++ [linRow c.m c.nb s j (r / (s'.s1 - s'.s0)) (e.jac ri 0)], fns := col.fns ++ [(j, r / (s'.s1 - s'.s0))] }
            col.rows _ rfl ⟨j, s, _, _, hj, rfl⟩
          generalize findNew c e ri s j (r / (s'.s1 - s'.s0)) 5 0
            { col with rows := col.rows ++ [linRow c.m c.nb s j (r / (s'.s1 - s'.s0)) (e.jac ri 0)], fns := col.fns ++ [(j, r / (s'.s1 - s'.s0))] } = p at h f1 f2 f3
          have hred : ∀ q ∈ p.2.reduced, q ∈ col.rows ∨ LinAt c splines q := by
            intro q hq
            rw [f1] at hq
            rcases List.mem_append.1 hq with hq | hq
            · exact Or.inl hq
            · rw [List.mem_singleton.1 hq]; exact Or.inr hl
          have hrows : ∀ q ∈ p.2.rows, q ∈ p.2.reduced := by
            intro q hq
            rw [f1]
            rcases f3 with ⟨_, g, _⟩ | ⟨_, g, _⟩
            · rw [g] at hq; exact hq
            · rw [g] at hq; exact List.mem_append_left _ hq
          have hfull : RankOk c → Full c col → col.rank < c.nVar → Full c p.2 ∧ p.2.reduced.length ≤ c.nVar ∧ col.rows.length ≤ p.2.rows.length ∧
              (p.1 = true → col.rows.length < p.2.rows.length) := by
            intro hk hf hlt
            have hlen : col.rows.length < c.nVar := by have := hf.rank; rw [hf.full] at this; omega
            have hre : p.2.reduced.length ≤ c.nVar := by rw [f1]; simp; omega
            rcases f3 with ⟨_, g, _, gr⟩ | ⟨g0, g, _⟩
            · refine ⟨⟨?_, ?_, ?_⟩, hre, by rw [g]; simp, fun _ => by rw [g]; simp⟩
              · rw [g, gr, List.length_append, List.length_singleton]; omega
              · rw [g]; simp; omega
              · rw [g, f2]
            · refine ⟨⟨?_, ?_, ?_⟩, hre, by rw [g], fun h => by rw [g0] at h; cases h⟩
              · rw [g]; exact hf.full
              · rw [g]; exact hf.le
              · rw [g, f2]; exact hk.mono _ _
          cases hop : (ok || p.1) with
          | false =>
            simp only [hop, if_true] at h
            cases h
            have ⟨o1, o2⟩ : ok = false ∧ p.1 = false := by cases ok <;> simp_all
            have hp : p.2.rows = col.rows ∧ p.2.fns = col.fns := by
              rcases f3 with ⟨g0, _⟩ | ⟨_, g, g', _⟩
              · rw [o2] at g0; cases g0
              · refine ⟨g, by rw [g']; simp⟩
            refine ⟨fun q hq => by rw [hp.1] at hq; exact Or.inl hq, (fun hb => by cases hb), fun _ => ⟨hp.1, hp.2, o1⟩, fun hk hf hlt => ⟨(hfull hk hf hlt).1, (fun hb => by cases hb), (fun hb => by cases hb)⟩⟩
          | true =>
            simp only [hop, Bool.true_eq_false, if_false] at h
            by_cases hv : c.nVar ≤ p.2.rank
            · simp only [if_pos hv] at h
              cases h
              refine ⟨fun q hq => hred q (hrows q hq), fun _ => ⟨hrows, hred⟩, (fun hb => by cases hb), fun hk hf hlt => ?_⟩
              obtain ⟨a1, a2, a3, a4⟩ := hfull hk hf hlt
              refine ⟨a1, fun _ ho => ⟨a2, a4 ?_⟩, fun _ _ _ => ⟨a2, a3⟩⟩
              rw [ho] at hop; simpa using hop
            · simp only [if_neg hv] at h
              obtain ⟨i1, i2, i3, i4⟩ := ih (ri + 1) true p.2 b col' (fun _ => ⟨hrows, fun q hq => by
                rw [f1] at hq
                rcases f3 with ⟨_, g, _⟩ | ⟨_, g, _⟩
                · rw [g]; exact Or.inl hq
                · rw [g]
                  rcases List.mem_append.1 hq with hq | hq
                  · exact Or.inl hq
                  · rw [List.mem_singleton.1 hq]; exact Or.inr hl⟩) h
              refine ⟨fun q hq => ?_, fun hb => ⟨(i2 hb).1, fun q hq => ?_⟩, fun hb => ?_, fun hk hf hlt => ?_⟩
              · rcases i1 q hq with hq | hq
                · exact hred q (hrows q hq)
                · exact Or.inr hq
              · rcases (i2 hb).2 q hq with hq | hq
                · exact hred q (hrows q hq)
                · exact Or.inr hq
              · have := (i3 hb).2.2; cases this
              · obtain ⟨a1, a2, a3, a4⟩ := hfull hk hf hlt
                obtain ⟨b1, _, b3⟩ := i4 hk a1 (by omega)
                refine ⟨b1, fun hb ho => ?_, fun hb _ _ => ?_⟩
                · have := b3 hb rfl a2
                  have := a4 (by rw [ho] at hop; simpa using hop)
                  exact ⟨by omega, by omega⟩
                · have := b3 hb rfl a2
                  exact ⟨this.1, by omega⟩

theorem cost_eq {c : Cfg κ} {init : List (Spl Q)} (w : WF c init) {S : List (Spl Q)} (h : List.Forall₂ Like S init) :
    c.cost S = 1 / 2 * quad (hessian c.m c.nb c.order c.lam init) (concat c.m c.nb S) (concat c.m c.nb S) := by
  unfold Cfg.cost
  rw [C92_hessian c.m c.nb c.order c.lam init S h w.deg w.order]
  rfl

theorem cost_same {c : Cfg κ} {init : List (Spl Q)} (w : WF c init) {S T : List (Spl Q)} (h : List.Forall₂ Like T init) (hs : List.Forall₂ (Same c.m) S T) : c.cost S = c.cost T := by
  rw [cost_eq w h, cost_eq w (forall₂_like_trans (forall₂_same_like hs) h), concat_same w.m hs]

theorem feasible_same {c : Cfg κ} (hm : 0 < c.m) {eqs bnd L : List Row} {S T : List (Spl Q)} (hs : List.Forall₂ (Same c.m) S T) (h : Feasible c eqs bnd L T) : Feasible c eqs bnd L S :=
  ⟨sat_same hm hs h.1, sat_same hm hs h.2.1, by rw [concat_same hm hs]; exact h.2.2⟩

theorem feasible_interpolate {c : Cfg κ} {init : List (Spl Q)} (w : WF c init) {eqs bnd L : List Row} {A B res : List (Spl Q)} (hA : List.Forall₂ Like A init) (hB : List.Forall₂ Like B init)
    (hr : List.Forall₂ Like res init) {alpha : ℝ} (h0 : 0 ≤ alpha) (h1 : alpha ≤ 1) (fA : Feasible c eqs bnd L A) (fB : Feasible c eqs bnd L B) :
    Feasible c eqs bnd L (interpolate c.m A B alpha res) := by
  have e1 := hA.length_eq.trans hB.length_eq.symm
  have e2 := hB.length_eq.trans hr.length_eq.symm
  refine ⟨sat_interpolate w.m w.nb alpha e1 e2 fA.1 fB.1, sat_interpolate w.m w.nb alpha e1 e2 fA.2.1 fB.2.1, fun r hr => ?_⟩
  rw [concat_interpolate w.m w.nb alpha e1 e2, dot_affine]
  have a1 := mul_le_mul_of_nonneg_left (fA.2.2 r hr) (by linarith : (0 : ℝ) ≤ 1 - alpha)
  have a2 := mul_le_mul_of_nonneg_left (fB.2.2 r hr) h0
  linarith

theorem cost_interpolate {c : Cfg κ} {init : List (Spl Q)} (w : WF c init) {A B res : List (Spl Q)} (hA : List.Forall₂ Like A init) (hB : List.Forall₂ Like B init)
    (hr : List.Forall₂ Like res init) {alpha : ℝ} (h0 : 0 ≤ alpha) (h1 : alpha ≤ 1) :
    c.cost (interpolate c.m A B alpha res) ≤ (1 - alpha) * c.cost A + alpha * c.cost B := by
  have hnb := w.nb
  have hdeg : ∀ s ∈ res, s.n = c.nb - 1 := by
    intro s hs
    obtain ⟨i, hi⟩ := List.mem_iff_getElem?.1 hs
    obtain ⟨t, ht, hl⟩ := forall₂_get hr hi
    have := w.deg t (List.mem_of_getElem? ht)
    rw [hl.1]; omega
  have hran : ∀ s ∈ res, s.s0 ≤ s.s1 := by
    intro s hs
    obtain ⟨i, hi⟩ := List.mem_iff_getElem?.1 hs
    obtain ⟨t, ht, hl⟩ := forall₂_get hr hi
    have := w.range t (List.mem_of_getElem? ht)
    rw [hl.2.2.1, hl.2.2.2]; exact this
  obtain ⟨a, b, v, e1, e2, e3, hv⟩ := C92_convex c.m (c.nb - 1) c.order c.lam w.lam A B res h0 h1 (forall₂_like_trans hA (forall₂_like_symm hr))
    (forall₂_like_trans hB (forall₂_like_symm hr)) hdeg hran (by have := w.order; omega)
  unfold Cfg.cost
  rw [e1, e2, e3]
  exact hv

/-- The invariant of the loop with a solver that keeps its contract. -/
structure Good (c : Cfg κ) (init : List (Spl Q)) (eqs bnd : List Row) (st : LSt Q κ) (L : List Row) : Prop where
  base : Base c init st
  alpha : 0 ≤ st.alpha ∧ st.alpha ≤ 1
  opt : Optimal c init eqs bnd L st.xStar
  feas : Feasible c eqs bnd L st.splines
  rows : ∀ r ∈ st.col.rows, r ∈ L
  coll : st.computeOptimum = false → st.collS = splinesOf c init st.xStar ∧ st.lowerBound = c.cost (splinesOf c init st.xStar)
  cost : c.cost st.splines ≤ c.cost init

theorem splinesOf_like (c : Cfg κ) (init : List (Spl Q)) (x : κ) : List.Forall₂ Like (splinesOf c init x) init := (C89_updateSplines c.m c.nb init _).2

/-- The splines which are validated. -/
theorem good_cur {c : Cfg κ} {init : List (Spl Q)} (w : WF c init) {eqs bnd L : List Row} {st : LSt Q κ} (g : Good c init eqs bnd st L) :
    (prepare c st).collS = splinesOf c init st.xStar ∧ (prepare c st).lowerBound = c.cost (splinesOf c init st.xStar) ∧ Feasible c eqs bnd L (prepare c st).cur ∧
    c.cost (prepare c st).cur ≤ c.cost st.splines ∧ c.cost (splinesOf c init st.xStar) ≤ c.cost (prepare c st).cur ∧
    (st.computeInterpolated = true → c.cost (prepare c st).cur ≤ (1 - st.alpha) * c.cost st.splines + st.alpha * c.cost (splinesOf c init st.xStar)) := by
  obtain ⟨h1, h2, h3, h4, h5, h6, h7, h8, h9, h10, h11, h12, h13, h14⟩ := prepare_spec c g.base
  have hc : (prepare c st).collS = splinesOf c init st.xStar ∧ (prepare c st).lowerBound = c.cost (splinesOf c init st.xStar) := by
    rw [h9, h10]
    cases hco : st.computeOptimum with
    | true => exact ⟨rfl, rfl⟩
    | false => exact g.coll hco
  have hle := g.opt.2 st.splines g.base.splines g.feas
  have hf : Feasible c eqs bnd L (prepare c st).cur := by
    rw [h14, hc.1]
    cases st.computeInterpolated with
    | false => exact g.opt.1
    | true => exact feasible_interpolate w g.base.splines (splinesOf_like c init _) g.base.alphaS g.alpha.1 g.alpha.2 g.feas g.opt.1
  have hi := cost_interpolate w g.base.splines (splinesOf_like c init st.xStar) g.base.alphaS g.alpha.1 g.alpha.2
  refine ⟨hc.1, hc.2, hf, ?_, g.opt.2 _ (cur_like c g.base) hf, ?_⟩
  · rw [h14, hc.1]
    cases st.computeInterpolated with
    | false => exact hle
    | true =>
      simp only [if_true]
      have := mul_le_mul_of_nonneg_left hle g.alpha.1
      linarith
  · intro hint
    rw [h14, hc.1, hint]
    exact hi

theorem linearizeAll_rows (c : Cfg κ) (e : Env Q κ) (splines : List (Spl Q)) (N : ℕ) : ∀ (l : List (ℕ × ℝ)) (i : ℕ) (rows : List Row),
    linearizeAll c e splines N i l = .ok rows → ∀ r ∈ rows, LinAt c splines r := by
  intro l
  induction l with
  | nil => intro i rows h; cases h; simp
  | cons p l ih =>
    intro i rows h
    obtain ⟨j, ratio⟩ := p
    rw [linearizeAll] at h
    cases hj : splines[j]? with
    | none => simp only [hj] at h; cases h
    | some s =>
      simp only [hj] at h
      by_cases hN : N ≤ i
      · simp only [if_pos hN] at h; cases h
      · simp only [if_neg hN] at h
        cases hr : linearizeAll c e splines N (i + 1) l with
        | error er => simp only [hr] at h; cases h
        | ok rs =>
          simp only [hr] at h
          cases h
          intro r hmem
          rcases List.mem_cons.1 hmem with rfl | hmem
          · exact ⟨j, s, ratio, _, hj, rfl⟩
          · exact ih (i + 1) rs hr r hmem

theorem solve_ok {c : Cfg κ} {e : Env Q κ} {reduced : List Row} {x y : κ} (h : solve c e reduced x = .ok y) : y = (e.qp reduced).getD x := by
  unfold solve at h
  by_cases hn : c.nVar < reduced.length
  · rw [if_pos hn] at h; cases h
  · rw [if_neg hn] at h; cases h; rfl

/-- The invariant is kept; `nx.st` is feasible. -/
theorem good_step {c : Cfg κ} {init : List (Spl Q)} (w : WF c init) {eqs bnd : List Row} {e : Env Q κ} (hq : Solves c init eqs bnd e) {st : LSt Q κ} {L : List Row}
    (g : Good c init eqs bnd st L) {nx : Next Q κ} (h : step c e st = .ok nx) :
    (Feasible c eqs bnd [] nx.st.splines ∧ c.cost nx.st.splines ≤ c.cost init) ∧ ∀ st', nx = .go st' → ∃ L', Good c init eqs bnd st' L' := by
  obtain ⟨h1, h2, h3, h4, h5, h6, h7, h8, h9, h10, h11, h12, h13, h14⟩ := prepare_spec c g.base
  obtain ⟨k1, k2, k3, k4, k5, k6⟩ := good_cur w g
  have weaken : ∀ {L : List Row} {S : List (Spl Q)}, Feasible c eqs bnd L S → Feasible c eqs bnd [] S := fun hf => ⟨hf.1, (fun r hr => by cases hr), hf.2.2⟩
  have hacc : ∀ st1 : LSt Q κ, st1.splines = (prepare c st).splines → st1.cur = (prepare c st).cur → st1.collS = (prepare c st).collS → st1.alpha = (prepare c st).alpha →
      st1.col = (prepare c st).col → st1.xStar = (prepare c st).xStar → st1.lowerBound = (prepare c st).lowerBound → st1.computeOptimum = false →
      accept c e st1 = .ok nx → (Feasible c eqs bnd [] nx.st.splines ∧ c.cost nx.st.splines ≤ c.cost init) ∧ ∀ st', nx = .go st' → ∃ L', Good c init eqs bnd st' L' := by
    intro st1 e1 e2 e3 e4 e5 e6 e7 e8 ha
    obtain ⟨st2, g1, g2, g3, g4, g5, g6, g7, g8, g9, g10, g11⟩ := accept_spec ha
    subst g1
    have hb2 := base_step g.base h
    have hsame : List.Forall₂ (Same c.m) st2.splines (prepare c st).cur := by
      rw [g2, e1, e2, h1]
      exact forall₂_zip_same (forall₂_like_trans g.base.splines (forall₂_like_symm (cur_like c g.base)))
    have hfe : Feasible c eqs bnd L st2.splines := feasible_same w.m hsame k3
    have hco : c.cost st2.splines ≤ c.cost init := by
      rw [cost_same w (cur_like c g.base) hsame]
      exact k4.trans g.cost
    refine ⟨⟨weaken hfe, hco⟩, fun st' hst' => ?_⟩
    cases hst'
    have hal : 0 ≤ st2.alpha ∧ st2.alpha ≤ 1 := by rw [g8, e4, h2]; exact g.alpha
    rcases g11 with ⟨_, a1, a2, a3⟩ | ⟨_, rows, x, b1, b2, b3, b4, b5⟩
    · refine ⟨L, hb2, hal, by rw [a2, e6, h4]; exact g.opt, hfe, by rw [a1, e5, h3]; exact g.rows, fun _ => ?_, hco⟩
      rw [a2, e6, h4, g4, e3, g9, e7]
      exact ⟨k1, k2⟩
    · have hr : Sat c.m c.nb rows st2.splines := fun r hr => (linearizeAll_rows c e _ _ _ _ _ b1 r hr).holds
      have hf' : Feasible c eqs bnd rows st2.splines := ⟨hfe.1, hr, hfe.2.2⟩
      obtain ⟨y, y1, y2⟩ := hq rows ⟨_, hb2.splines, hf'⟩
      have hx : st2.xStar = y := by rw [b4, solve_ok b2, y1]; rfl
      refine ⟨rows, hb2, hal, by rw [hx]; exact y2, hf', by rw [b3]; exact fun r hr => hr, fun hh => ?_, hco⟩
      rw [b5] at hh; cases hh
  have hprep : Feasible c eqs bnd [] (prepare c st).splines ∧ c.cost (prepare c st).splines ≤ c.cost init := by
    rw [h1]; exact ⟨weaken g.feas, g.cost⟩
  rcases step_spec (e := e) g.base with ⟨_, hs⟩ | ⟨_, order, reports, hp, ⟨_, _, hs⟩ | ⟨_, hrep, hs⟩⟩
  · have h' := h
    rw [hs] at h'
    refine hacc _ ?_ ?_ ?_ ?_ ?_ ?_ ?_ ?_ h' <;> first | rfl | exact h7
  · have h' := h
    rw [hs] at h'
    refine hacc _ ?_ ?_ ?_ ?_ ?_ ?_ ?_ ?_ h' <;> first | rfl | exact h7
  · have h' := h
    rw [hs] at h'
    have hsp : (prepare c st).splines = st.splines := h1
    have hopt' : Optimal c init eqs bnd L (prepare c st).xStar := by rw [h4]; exact g.opt
    have hfe' : Feasible c eqs bnd L (prepare c st).splines := by rw [h1]; exact g.feas
    have hcoll' : (prepare c st).collS = splinesOf c init (prepare c st).xStar ∧ (prepare c st).lowerBound = c.cost (splinesOf c init (prepare c st).xStar) := by
      rw [h4]; exact ⟨k1, k2⟩
    have hrows' : ∀ r ∈ (prepare c st).col.rows, r ∈ L := by rw [h3]; exact g.rows
    have hal' : 0 ≤ (prepare c st).alpha ∧ (prepare c st).alpha ≤ 1 := by rw [h2]; exact g.alpha
    rcases reject_spec h' with ⟨_, q⟩ | ⟨_, _, q⟩ | ⟨_, _, col, ad, q⟩ | ⟨_, _, col, x, ad, so, q⟩
    · subst q
      refine ⟨hprep, fun st' hst' => ?_⟩
      cases hst'
      exact ⟨L, base_step g.base h, w.alpha, hopt', hfe', hrows', fun _ => hcoll', hprep.2⟩
    · subst q
      exact ⟨hprep, fun st' hst' => by cases hst'⟩
    · obtain ⟨a1, a2, a3, a4⟩ := addLoop_spec c e _ _ _ _ _ _ _ _ (fun hh => by cases hh) ad
      rcases q with ⟨_, q⟩ | ⟨_, q⟩
      · subst q
        exact ⟨hprep, fun st' hst' => by cases hst'⟩
      · subst q
        refine ⟨hprep, fun st' hst' => ?_⟩
        cases hst'
        refine ⟨L, base_step g.base h, ?_, hopt', hfe', ?_, fun _ => hcoll', hprep.2⟩
        · show 0 ≤ (prepare c st).alpha * (1 / 2) ∧ (prepare c st).alpha * (1 / 2) ≤ 1
          constructor <;> linarith [hal'.1, hal'.2]
        · show ∀ r ∈ col.rows, r ∈ L
          rw [(a3 rfl).1]; exact hrows'
    · obtain ⟨a1, a2, a3, a4⟩ := addLoop_spec c e _ _ _ _ _ _ _ _ (fun hh => by cases hh) ad
      subst q
      refine ⟨hprep, fun st' hst' => ?_⟩
      cases hst'
      have hf' : Feasible c eqs bnd col.reduced (prepare c st).splines := by
        refine ⟨hfe'.1, fun r hr => ?_, hfe'.2.2⟩
        rcases (a2 rfl).2 r hr with hr | hr
        · exact hfe'.2.1 r (hrows' r hr)
        · exact hr.holds
      have hb2 := base_step g.base h
      obtain ⟨y, y1, y2⟩ := hq col.reduced ⟨_, hb2.splines, hf'⟩
      have hx : x = y := by rw [solve_ok so, y1]; rfl
      exact ⟨col.reduced, hb2, ⟨by norm_num, le_rfl⟩, by rw [← hx] at y2; exact y2, hf', (a2 rfl).1, (fun hh => by cases hh), hprep.2⟩

theorem good_init {c : Cfg κ} {init : List (Spl Q)} (w : WF c init) {eqs bnd : List Row} {x : κ} (hx : Optimal c init eqs bnd [] x) (h0 : Feasible c eqs bnd [] init) :
    Good c init eqs bnd (initSt c init x) [] := by
  refine ⟨base_init c init x, ?_, hx, h0, fun r hr => hr, (fun h => by cases h), le_rfl⟩
  show 0 ≤ (if (c.checkOptimum || c.returnOptimum) = true then (1 : ℝ) else c.alphaInit) ∧ (if (c.checkOptimum || c.returnOptimum) = true then (1 : ℝ) else c.alphaInit) ≤ 1
  by_cases h : (c.checkOptimum || c.returnOptimum) = true
  · rw [if_pos h]; exact ⟨by norm_num, le_rfl⟩
  · rw [if_neg h]; exact w.alpha

/-- C93: if the solver solves the programs which have solutions, the path returned satisfies the equality constraints and the joint bounds, and costs no more
than the initial path; for all answers of the validation methods and of the collision functions, and for any interruption. -/
theorem C93_cost (c : Cfg κ) (init : List (Spl Q)) (w : WF c init) (eqs bnd : List Row) (env : ℕ → Env Q κ) (hq : ∀ t, Solves c init eqs bnd (env t)) (x : κ)
    (hx : Optimal c init eqs bnd [] x) (h0 : Feasible c eqs bnd [] init) (fuel : ℕ) (out : LSt Q κ) (h : optLoop c env fuel 0 (initSt c init x) = .ok (some out)) :
    Sat c.m c.nb eqs out.splines ∧ (∀ r ∈ bnd, r.b ≤ dot r.J (concat c.m c.nb out.splines)) ∧ c.cost out.splines ≤ c.cost init := by
  have := loop_ind (c := c) (env := env) (fun st => ∃ L, Good c init eqs bnd st L) (fun st => Feasible c eqs bnd [] st.splines ∧ c.cost st.splines ≤ c.cost init)
    (fun st ⟨L, g⟩ => ⟨⟨g.feas.1, (fun r hr => by cases hr), g.feas.2.2⟩, g.cost⟩)
    (fun t st st' ⟨L, g⟩ _ hst => (good_step w (hq t) g hst).2 st' rfl) (fun t st st' ⟨L, g⟩ hst => (good_step w (hq t) g hst).1)
    fuel 0 (initSt c init x) ⟨[], good_init w hx h0⟩ out h
  exact ⟨this.1.1, this.1.2.2, this.2⟩

/-- C93: with `returnOptimum`, what is returned is the solution of the program without collision constraint, and it is not validated. -/
theorem C93_returnOptimum (c : Cfg κ) (hro : c.returnOptimum = true) (hl : c.linearizeAtEachStep = false) (env : ℕ → Env Q κ) (init : List (Spl Q)) (x : κ) (hs : (env 0).stop = false) :
    ∃ out, optLoop c env 2 0 (initSt c init x) = .ok (some out) ∧ List.Forall₂ (Same c.m) out.splines (splinesOf c init x) := by
  have hb := base_init c init x
  obtain ⟨h1, h2, h3, h4, h5, h6, h7, h8, h9, h10, h11, h12, h13, h14⟩ := prepare_spec c hb
  have hci : (initSt c init x).computeInterpolated = false := by simp [initSt, hro]
  have hcur : (prepare c (initSt c init x)).cur = splinesOf c init x := by
    rw [h14, hci, h9]; rfl
  rcases step_spec (e := env 0) hb with ⟨_, hst⟩ | ⟨hr, _⟩
  · have ha : ∃ st', step c (env 0) (initSt c init x) = .ok (.go st') ∧ st'.noCollision = true ∧ st'.minimumReached = true := by
      rw [hst]
      unfold accept
      simp only [hl, Bool.false_eq_true, if_false]
      exact ⟨_, rfl, rfl, by simp⟩
    obtain ⟨st', e1, e2, e3⟩ := ha
    refine ⟨st', ?_, ?_⟩
    · rw [optLoop, if_neg (by simp [initSt, hs]), e1]
      simp only
      rw [optLoop, if_pos (by rw [e2, e3]; rfl)]
    · rcases splines_step hb e1 with e | ⟨e, _⟩
      · have he := (splines_step hb e1)
        obtain ⟨st2, g1, g2, -⟩ := accept_spec (hst ▸ e1)
        cases g1
        rw [g2]
        show List.Forall₂ (Same c.m) (List.zipWith _ (prepare c (initSt c init x)).splines (prepare c (initSt c init x)).cur) _
        rw [h1, hcur]
        exact forall₂_zip_same (forall₂_like_symm (splinesOf_like c init x))
      · rw [hcur] at e; exact e
  · rw [hro] at hr; cases hr

/-- C93: when the first program is not solved (maximal number of iterations of ProxQP), `x` is memory that was never written, and any value of the variables is
accepted as an optimum: the path returned is made from them, whatever the bounds and the cost. -/
theorem C93_unsolved_counterexample (c : Cfg κ) (hch : c.checkOptimum = true) (hro : c.returnOptimum = false) (hl : c.linearizeAtEachStep = false) (env : ℕ → Env Q κ) (init : List (Spl Q)) (x : κ)
    (hs : (env 0).stop = false) (hv : ∀ i s, (env 0).valid i s = none) :
    ∃ out, optLoop c env 2 0 (initSt c init x) = .ok (some out) ∧ List.Forall₂ (Same c.m) out.splines (splinesOf c init x) := by
  have hb := base_init c init x
  obtain ⟨h1, h2, h3, h4, h5, h6, h7, h8, h9, h10, h11, h12, h13, h14⟩ := prepare_spec c hb
  have hci : (initSt c init x).computeInterpolated = false := by simp [initSt, hch]
  have hcur : (prepare c (initSt c init x)).cur = splinesOf c init x := by
    rw [h14, hci, h9]; rfl
  have hmr : (prepare c (initSt c init x)).minimumReached = true := by rw [h11, hci]; rfl
  rcases step_spec (e := env 0) hb with ⟨hr, _⟩ | ⟨_, order, reports, hp, ⟨_, _, hst⟩ | ⟨hne, hrep, _⟩⟩
  · rw [hro] at hr; cases hr
  · have ha : ∃ st', step c (env 0) (initSt c init x) = .ok (.go st') ∧ st'.noCollision = true ∧ st'.minimumReached = true := by
      rw [hst]
      unfold accept
      simp only [hl, Bool.false_eq_true, if_false]
      exact ⟨_, rfl, rfl, by simp [hmr]⟩
    obtain ⟨st', e1, e2, e3⟩ := ha
    refine ⟨st', ?_, ?_⟩
    · rw [optLoop, if_neg (by simp [initSt, hs]), e1]
      simp only
      rw [optLoop, if_pos (by rw [e2, e3]; rfl)]
    · obtain ⟨st2, g1, g2, -⟩ := accept_spec (hst ▸ e1)
      cases g1
      rw [g2]
      show List.Forall₂ (Same c.m) (List.zipWith _ (prepare c (initSt c init x)).splines (prepare c (initSt c init x)).cur) _
      rw [h1, hcur]
      exact forall₂_zip_same (forall₂_like_symm (splinesOf_like c init x))
  · cases reports with
    | nil => exact absurd rfl hne
    | cons p l =>
      obtain ⟨_, s, _, hvs⟩ := hrep p (List.mem_cons_self ..)
      rw [hv] at hvs; cases hvs

end Verif.SplineOpt
