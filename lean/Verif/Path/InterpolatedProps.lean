import Verif.Path.Interpolated
import Mathlib.Tactic.FinCases

/-!
# Interpolated paths: properties (C24, C25)
-/
set_option linter.unusedSectionVars false
namespace Verif.PathV
variable {K C : Type} [Field K] [LinearOrder K] [IsStrictOrderedRing K]

/-! ## C24: way points and interpolation -/

/-- A path built by its constructor followed by a sequence of insertions. -/
def built (a b : C) (tr : K × K) (c : Option (Cst K C)) (ops : List (K × C)) : Ipath K C :=
  ops.foldl (fun p x => p.insert x.1 x.2) (Ipath.create a b tr c)

/-- Specification: the configuration given first for time `t`, in the order of the calls (the constructor gives two). -/
def firstAt (a b : C) (tr : K × K) (ops : List (K × C)) (t : K) : Option C :=
  (((tr.1, a) :: (tr.2, b) :: ops).find? (fun x => x.1 = t)).map Prod.snd

theorem built_good (a b : C) (tr : K × K) (c : Option (Cst K C)) (ops : List (K × C)) (h : tr.1 ≤ tr.2)
    (ho : ∀ x ∈ ops, tr.1 ≤ x.1 ∧ x.1 ≤ tr.2) : GoodPts (built a b tr c ops) :=
  (Ipath.create_good a b tr c h).insertAll ops ho

theorem built_pr (a b : C) (tr : K × K) (c : Option (Cst K C)) (ops : List (K × C)) : (built a b tr c ops).pr = tr :=
  Ipath.insertAll_pr _ _

theorem mem_create (a b : C) (tr : K × K) (c : Option (Cst K C)) (x : K × C) :
    x ∈ (Ipath.create a b tr c).pts ↔ x = (tr.1, a) ∨ (x = (tr.2, b) ∧ tr.1 ≠ tr.2) := by
  have s1 : Sorted (insertPt ([] : Pts K C) tr.1 a) := sorted_insertPt sorted_nil _ _
  have m1 : ∀ x, x ∈ insertPt ([] : Pts K C) tr.1 a ↔ x = (tr.1, a) := by simp [insertPt]
  simp only [Ipath.create, mem_insertPt s1, m1, forall_eq]

/-- The way points are exactly the first configurations given for each time. -/
theorem mem_built (a b : C) (tr : K × K) (c : Option (Cst K C)) (ops : List (K × C)) (h : tr.1 ≤ tr.2) (t : K) (q : C) :
    (t, q) ∈ (built a b tr c ops).pts ↔ firstAt a b tr ops t = some q := by
  have hs := (Ipath.create_good a b tr c h).sorted
  rw [show built a b tr c ops = (Ipath.create a b tr c).insertAll ops from rfl, mem_insertAll hs]
  simp only [mem_create, firstAt, List.find?_cons, Prod.mk.injEq]
  by_cases h1 : tr.1 = t
  · subst h1
    simp only [decide_true, Option.map_some, Option.some.injEq]
    constructor
    · rintro ((h' | h') | h')
      · exact h'.2.symm
      · exact absurd h'.1.1 h'.2
      · exact absurd rfl (h'.1 (tr.1, a) (.inl rfl))
    · intro h'; exact .inl (.inl ⟨trivial, h'.symm⟩)
  · by_cases h2 : tr.2 = t
    · subst h2
      simp only [h1, decide_false, decide_true, Option.map_some, Option.some.injEq]
      constructor
      · rintro ((h' | h') | h')
        · exact absurd h'.1.symm h1
        · exact h'.1.2.symm
        · exact absurd rfl (h'.1 (tr.2, b) (.inr ⟨rfl, h1⟩))
      · intro h'; exact .inl (.inr ⟨⟨trivial, h'.symm⟩, h1⟩)
    · simp only [h1, h2, decide_false]
      constructor
      · rintro ((h' | h') | h')
        · exact absurd h'.1.symm h1
        · exact absurd h'.1.1.symm h2
        · simp [h'.2]
      · intro h'
        refine .inr ⟨?_, ?_⟩
        · rintro y (rfl | hy)
          · exact h1
          · rw [hy.1]; exact h2
        · rw [Option.map_eq_some_iff] at h'
          obtain ⟨x, hx, rfl⟩ := h'
          have := List.find?_some hx
          simp only [decide_eq_true_eq] at this
          rw [hx, ← this]

/-- **C24** (way points): after any sequence of insertions in range, the value at a time is the first configuration given for it. -/
theorem C24_points (S : Space K C) (a b : C) (tr : K × K) (c : Option (Cst K C)) (ops : List (K × C)) (h : tr.1 ≤ tr.2)
    (ho : ∀ x ∈ ops, tr.1 ≤ x.1 ∧ x.1 ≤ tr.2) (t : K) (q : C) (hq : firstAt a b tr ops t = some q) :
    (built a b tr c ops).impl S t = .ok q :=
  Ipath.impl_key S (built_good a b tr c ops h ho) ((mem_built a b tr c ops h t q).2 hq)

/-- **C24** (interpolation): between two times given in the sequence, with none in between, the value is interpolated. -/
theorem C24_between (S : Space K C) (a b : C) (tr : K × K) (c : Option (Cst K C)) (ops : List (K × C)) (h : tr.1 ≤ tr.2)
    (ho : ∀ x ∈ ops, tr.1 ≤ x.1 ∧ x.1 ≤ tr.2) (t1 t2 : K) (q1 q2 : C) (hlt : t1 < t2) (h1 : firstAt a b tr ops t1 = some q1)
    (h2 : firstAt a b tr ops t2 = some q2) (hn : ∀ t, t1 < t → t < t2 → firstAt a b tr ops t = none) (s : K) (hs1 : t1 ≤ s) (hs2 : s ≤ t2) :
    (built a b tr c ops).impl S s = .ok (S.interp q1 q2 ((s - t1) / (t2 - t1))) := by
  refine Ipath.impl_seg' S (built_good a b tr c ops h ho) ((mem_built a b tr c ops h _ _).2 h1) ((mem_built a b tr c ops h _ _).2 h2) hlt ?_ s hs1 hs2
  rintro ⟨t, q⟩ hz ⟨k1, k2⟩
  have := (mem_built a b tr c ops h _ _).1 hz
  rw [hn t k1 k2] at this
  exact absurd this (by simp)

/-- **C24** (definedness): evaluation is defined on the whole range: no iterator leaves the map. -/
theorem C24_defined (S : Space K C) (a b : C) (tr : K × K) (c : Option (Cst K C)) (ops : List (K × C)) (h : tr.1 ≤ tr.2)
    (ho : ∀ x ∈ ops, tr.1 ≤ x.1 ∧ x.1 ≤ tr.2) (s : K) (h1 : tr.1 ≤ s) (h2 : s ≤ tr.2) : ∃ q, (built a b tr c ops).impl S s = .ok q := by
  have e := built_pr a b tr c ops
  exact Ipath.impl_defined S (built_good a b tr c ops h ho) s (by rw [e]; exact h1) (by rw [e]; exact h2)

/-- Five calls, one of them for a time already given, one between two others. -/
def exOps : List (ℚ × (Unit → ℚ)) := [(2, fun _ => 10), (3, fun _ => 0), (2, fun _ => -1), (5 / 2, fun _ => 4)]

example : (∀ x ∈ exOps, (1 : ℚ) ≤ x.1 ∧ x.1 ≤ 4) ∧ ((firstAt (fun _ => 0) (fun _ => 7) (1, 4) exOps 2).map (· ()) = some (10 : ℚ)) ∧
    ((built (fun _ => 0) (fun _ => 7) (1, 4) none exOps).impl (vecSpace ℚ Unit) (9 / 4)).toOption.map (· ()) = some 7 := by
  refine ⟨?_, by decide +kernel, by decide +kernel⟩
  intro x hx
  fin_cases hx <;> constructor <;> norm_num

/-- Insertion is not checked against the range: a point before the start replaces the initial configuration, and evaluation between this
point and the start is interpolated from the wrong side; the hypothesis on the times is needed. -/
theorem C24_outside_counterexample :
    ((built (fun _ => 0) (fun _ => 7) (1, 4) none [(0, fun _ => 5)]).impl (vecSpace ℚ Unit) 1).toOption.map (· ()) = some (5 : ℚ) := by
  decide +kernel

/-! ## Derivative -/

/-- **C24** (derivative): in a vector space the derivative at `s` is the slope of the segment that starts at or before `s` and ends after
it: until the end of that segment each coordinate moves by exactly the derivative times the elapsed time. -/
theorem C24_derivative {ι : Type} {p : Ipath K (ι → K)} (h : GoodPts p) (s : K) (h1 : p.pr.1 ≤ s) (h2 : s < p.pr.2) :
    ∃ d, p.derivative s 1 = .ok d ∧ ∃ t2, s < t2 ∧ ∀ s', s ≤ s' → s' ≤ t2 → ∀ q q', p.impl (vecSpace K ι) s = .ok q →
      p.impl (vecSpace K ι) s' = .ok q' → ∀ i, q' i - q i = d i * (s' - s) := by
  obtain ⟨q0, hq0⟩ := h.first
  obtain ⟨q1, hq1⟩ := h.last
  obtain ⟨j, hj, hjd, hbefore⟩ := exists_first p.pts (fun x => s < x.1) ⟨_, hq1, h2⟩
  have hj0 : j ≠ 0 := by
    rintro rfl
    have := h.head hq0
    rw [List.head?_eq_getElem?, List.getElem?_eq_getElem hj, Option.some.injEq] at this
    rw [this] at hjd
    exact absurd hjd (not_lt.2 h1)
  obtain ⟨k, rfl⟩ := Nat.exists_eq_succ_of_ne_zero hj0
  have hks := not_lt.1 (hbefore k (Nat.lt_succ_self k))
  have hk : k < p.pts.length := Nat.lt_of_succ_lt hj
  have hub : upperBound p.pts s = k + 1 := upperBound_eq h.sorted hj hks hjd
  have hder : p.derivative s 1 = .ok fun i => 1 / ((p.pts[k + 1]).1 - (p.pts[k]).1) * ((p.pts[k + 1]).2 i - (p.pts[k]).2 i) := by
    unfold Ipath.derivative
    rw [if_neg (by linarith : ¬ p.pr.1 = p.pr.2), h.getLast hq1]
    simp only [not_le.2 h2, if_false, false_and]
    rcases lt_or_eq_of_le hks with hks | hks
    · have hlb : lowerBound p.pts s = k + 1 := lowerBound_eq h.sorted hj hks hjd.le
      rw [hub, hlb]
      simp [List.getElem?_eq_getElem hj, List.getElem?_eq_getElem hk]
    · have hlb : lowerBound p.pts s = k := by rw [← hks]; exact lowerBound_key h.sorted hk
      rw [hub, hlb]
      simp [List.getElem?_eq_getElem hj, List.getElem?_eq_getElem hk]
  refine ⟨_, hder, (p.pts[k + 1]).1, hjd, fun s' hs hs' q q' hq hq' i => ?_⟩
  have hlt := h.sorted.lt hj (Nat.lt_succ_self k)
  have seg := fun t h1 h2 => Ipath.impl_seg' (vecSpace K ι) h (List.getElem_mem hk) (List.getElem_mem hj) hlt (h.sorted.consec_noKey hj) t h1 h2
  rw [seg s hks hjd.le] at hq
  rw [seg s' (hks.trans hs) hs'] at hq'
  rw [← Except.ok.inj hq, ← Except.ok.inj hq']
  simp only [vecSpace]
  have : (p.pts[k + 1]).1 - (p.pts[k]).1 ≠ 0 := sub_ne_zero.2 hlt.ne'
  field_simp
  ring

/-! ## C25: extraction and reversal -/

/-- Neighbouring way points span geodesics. -/
def GeoPts (S : Space K C) (p : Ipath K C) : Prop :=
  ∀ x ∈ p.pts, ∀ y ∈ p.pts, x.1 < y.1 → NoKey p.pts x.1 y.1 → GeoPair S x.2 y.2

theorem geoPair_sub {S : Space K C} {a b : C} (h : GeoPair S a b) (u v : K) (hu : 0 ≤ u ∧ u ≤ 1) (hv : 0 ≤ v ∧ v ≤ 1) :
    GeoPair S (S.interp a b u) (S.interp a b v) := by
  intro x y w x0 x1 y0 y1 w0 w1
  have key : ∀ u v w : K, 0 ≤ u → u ≤ 1 → 0 ≤ v → v ≤ 1 → 0 ≤ w → w ≤ 1 → 0 ≤ u + w * (v - u) ∧ u + w * (v - u) ≤ 1 := by
    intro u v w u0 u1 v0 v1 w0 w1
    constructor <;> nlinarith [mul_nonneg w0 v0, mul_nonneg (sub_nonneg.2 w1) u0, mul_nonneg w0 (sub_nonneg.2 v1),
      mul_nonneg (sub_nonneg.2 w1) (sub_nonneg.2 u1)]
  have kx := key u v x hu.1 hu.2 hv.1 hv.2 x0 x1
  have ky := key u v y hu.1 hu.2 hv.1 hv.2 y0 y1
  have kw := key x y w x0 x1 y0 y1 w0 w1
  rw [h u v x hu.1 hu.2 hv.1 hv.2 x0 x1, h u v y hu.1 hu.2 hv.1 hv.2 y0 y1, h _ _ w kx.1 kx.2 ky.1 ky.2 w0 w1,
    h u v _ hu.1 hu.2 hv.1 hv.2 kw.1 kw.2]
  congr 1
  ring

/-- Between two times (in any order) with no way point strictly between them the path is a geodesic. -/
theorem Ipath.sub (S : Space K C) {p : Ipath K C} (h : GoodPts p) (hg : GeoPts S p) (c d : K) (hcd : c ≠ d)
    (hc : p.pr.1 ≤ c ∧ c ≤ p.pr.2) (hd : p.pr.1 ≤ d ∧ d ≤ p.pr.2) (hn : NoKey p.pts (min c d) (max c d)) (qc qd : C)
    (ec : p.impl S c = .ok qc) (ed : p.impl S d = .ok qd) :
    GeoPair S qc qd ∧ ∀ w, 0 ≤ w → w ≤ 1 → p.impl S (c + w * (d - c)) = .ok (S.interp qc qd w) := by
  obtain ⟨x, hx, y, hy, hxy, hnk, k1, k2⟩ := h.segment (min c d) (max c d) (le_min hc.1 hd.1) (min_lt_max.2 hcd) (max_le hc.2 hd.2) hn
  have hL : 0 < y.1 - x.1 := sub_pos.2 hxy
  have c1 := k1.trans (min_le_left c d)
  have d1 := k1.trans (min_le_right c d)
  have c2 := (le_max_left c d).trans k2
  have d2 := (le_max_right c d).trans k2
  have seg := fun t h1 h2 => Ipath.impl_seg' S h hx hy hxy hnk t h1 h2
  have hgxy := hg x hx y hy hxy hnk
  rw [seg c c1 c2] at ec
  rw [seg d d1 d2] at ed
  have ec := Except.ok.inj ec
  have ed := Except.ok.inj ed
  have uc : 0 ≤ (c - x.1) / (y.1 - x.1) ∧ (c - x.1) / (y.1 - x.1) ≤ 1 := ⟨div_nonneg (by linarith) hL.le, (div_le_one hL).2 (by linarith)⟩
  have ud : 0 ≤ (d - x.1) / (y.1 - x.1) ∧ (d - x.1) / (y.1 - x.1) ≤ 1 := ⟨div_nonneg (by linarith) hL.le, (div_le_one hL).2 (by linarith)⟩
  rw [← ec, ← ed]
  refine ⟨geoPair_sub hgxy _ _ uc ud, fun w w0 w1 => ?_⟩
  rw [hgxy _ _ w uc.1 uc.2 ud.1 ud.2 w0 w1]
  rw [seg _ (by nlinarith [mul_nonneg w0 (sub_nonneg.2 d1), mul_nonneg (sub_nonneg.2 w1) (sub_nonneg.2 c1)])
    (by nlinarith [mul_nonneg w0 (sub_nonneg.2 d2), mul_nonneg (sub_nonneg.2 w1) (sub_nonneg.2 c2)])]
  congr 2
  field_simp
  ring

/-- A path whose way points are values of `p` along an affine change of time of slope ±1, and that has a way point for each one of `p`,
evaluates as `p` along this change of time. -/
theorem resample (S : Space K C) {p e : Ipath K C} (hp : GoodPts p) (hg : GeoPts S p) (he : GoodPts e) (c σ : K) (hσ : σ = 1 ∨ σ = -1)
    (hmap : ∀ x, e.pr.1 ≤ x → x ≤ e.pr.2 → p.pr.1 ≤ c + σ * x ∧ c + σ * x ≤ p.pr.2)
    (hval : ∀ x ∈ e.pts, p.impl S (c + σ * x.1) = .ok x.2)
    (hkeys : ∀ y ∈ p.pts, ∀ x, e.pr.1 ≤ x → x ≤ e.pr.2 → y.1 = c + σ * x → ∃ z ∈ e.pts, z.1 = x) :
    GeoPts S e ∧ ∀ x, e.pr.1 ≤ x → x ≤ e.pr.2 → e.impl S x = p.impl S (c + σ * x) := by
  have main : ∀ u ∈ e.pts, ∀ v ∈ e.pts, u.1 < v.1 → NoKey e.pts u.1 v.1 → GeoPair S u.2 v.2 ∧
      ∀ w, 0 ≤ w → w ≤ 1 → p.impl S (c + σ * (u.1 + w * (v.1 - u.1))) = .ok (S.interp u.2 v.2 w) := by
    intro u hu v hv huv hn
    have hne : c + σ * u.1 ≠ c + σ * v.1 := by
      rcases hσ with rfl | rfl
      · intro h; linarith
      · intro h; linarith
    have hnk : NoKey p.pts (min (c + σ * u.1) (c + σ * v.1)) (max (c + σ * u.1) (c + σ * v.1)) := by
      rintro y hy ⟨k1, k2⟩
      have hx : ∃ x, y.1 = c + σ * x ∧ u.1 < x ∧ x < v.1 := by
        rcases hσ with rfl | rfl
        · rw [min_eq_left (by linarith)] at k1
          rw [max_eq_right (by linarith)] at k2
          exact ⟨y.1 - c, by ring, by linarith, by linarith⟩
        · rw [min_eq_right (by linarith)] at k1
          rw [max_eq_left (by linarith)] at k2
          exact ⟨c - y.1, by ring, by linarith, by linarith⟩
      obtain ⟨x, hxe, x1, x2⟩ := hx
      obtain ⟨z, hz, hzx⟩ := hkeys y hy x ((he.range u hu).1.trans x1.le) (x2.le.trans (he.range v hv).2) hxe
      exact hn z hz ⟨hzx ▸ x1, hzx ▸ x2⟩
    obtain ⟨r1, r2⟩ := Ipath.sub S hp hg _ _ hne (hmap _ (he.range u hu).1 (he.range u hu).2) (hmap _ (he.range v hv).1 (he.range v hv).2) hnk
      u.2 v.2 (hval u hu) (hval v hv)
    refine ⟨r1, fun w w0 w1 => ?_⟩
    rw [← r2 w w0 w1]
    congr 1
    ring
  refine ⟨fun u hu v hv huv hn => (main u hu v hv huv hn).1, fun x x0 x1 => ?_⟩
  by_cases hk : ∃ z ∈ e.pts, z.1 = x
  · obtain ⟨z, hz, rfl⟩ := hk
    rw [Ipath.impl_key S he hz, hval z hz]
  · push Not at hk
    obtain ⟨q0, hq0⟩ := he.first
    obtain ⟨q1, hq1⟩ := he.last
    have hlt : x < e.pr.2 := lt_of_le_of_ne x1 (Ne.symm (hk _ hq1))
    obtain ⟨j, hj, hjd, hbefore⟩ := exists_first e.pts (fun z => x < z.1) ⟨_, hq1, hlt⟩
    have hj0 : j ≠ 0 := by
      rintro rfl
      have := he.head hq0
      rw [List.head?_eq_getElem?, List.getElem?_eq_getElem hj, Option.some.injEq] at this
      rw [this] at hjd
      exact absurd hjd (not_lt.2 x0)
    obtain ⟨k, rfl⟩ := Nat.exists_eq_succ_of_ne_zero hj0
    have hks := not_lt.1 (hbefore k (Nat.lt_succ_self k))
    have hk' : k < e.pts.length := Nat.lt_of_succ_lt hj
    have hkl := he.sorted.lt hj (Nat.lt_succ_self k)
    have hnk := he.sorted.consec_noKey hj
    have hL := sub_pos.2 hkl
    rw [Ipath.impl_seg' S he (List.getElem_mem hk') (List.getElem_mem hj) hkl hnk x hks hjd.le]
    rw [← (main _ (List.getElem_mem hk') _ (List.getElem_mem hj) hkl hnk).2 _ (div_nonneg (sub_nonneg.2 hks) hL.le)
      ((div_le_one hL).2 (by linarith [hjd.le]))]
    rw [div_mul_cancel₀ _ hL.ne']
    congr 2
    ring

theorem mem_drop_upperBound {l : Pts K C} (h : Sorted l) (s : K) (x : K × C) : x ∈ l.drop (upperBound l s) ↔ x ∈ l ∧ s < x.1 := by
  induction l with
  | nil => simp
  | cons a r ih =>
    have hr : Sorted r := (List.pairwise_cons.1 h).2
    have har := (List.pairwise_cons.1 h).1
    unfold upperBound
    rw [List.findIdx_cons]
    by_cases ha : s < a.1
    · simp only [ha, decide_true, cond_true, List.drop_zero]
      refine ⟨fun hx => ⟨hx, ?_⟩, fun hx => hx.1⟩
      rcases List.mem_cons.1 hx with rfl | hx
      · exact ha
      · exact ha.trans (har x hx)
    · simp only [ha, decide_false, cond_false, List.drop_succ_cons]
      rw [show (r.drop (r.findIdx fun x => decide (s < x.1))) = r.drop (upperBound r s) from rfl, ih hr, List.mem_cons]
      refine ⟨fun hx => ⟨.inr hx.1, hx.2⟩, fun hx => ⟨?_, hx.2⟩⟩
      rcases hx.1 with rfl | h'
      · exact absurd hx.2 ha
      · exact h'

theorem extLoop_eq (g : K → K) (tmax : K) (l : Pts K C) (acc : Ipath K C) (h : ∃ x ∈ l, tmax ≤ x.1) :
    extLoop g tmax l acc = .ok (acc.insertAll ((l.takeWhile (fun x => x.1 < tmax)).map fun x => (g x.1, x.2))) := by
  induction l generalizing acc with
  | nil => obtain ⟨x, hx, _⟩ := h; simp at hx
  | cons a r ih =>
    unfold extLoop
    by_cases ha : a.1 < tmax
    · rw [if_pos ha, List.takeWhile_cons_of_pos (by simpa using ha), ih]
      · rfl
      · obtain ⟨x, hx, hl⟩ := h
        rcases List.mem_cons.1 hx with rfl | hx
        · exact absurd ha (not_lt.2 hl)
        · exact ⟨x, hx, hl⟩
    · rw [if_neg ha, List.takeWhile_cons_of_neg (by simpa using ha)]; rfl

theorem mem_takeWhile_lt {l : Pts K C} (h : Sorted l) (t : K) (x : K × C) : x ∈ l.takeWhile (fun x => x.1 < t) ↔ x ∈ l ∧ x.1 < t := by
  induction l with
  | nil => simp
  | cons a r ih =>
    have hr : Sorted r := (List.pairwise_cons.1 h).2
    have har := (List.pairwise_cons.1 h).1
    by_cases ha : a.1 < t
    · rw [List.takeWhile_cons_of_pos (by simpa using ha), List.mem_cons, ih hr, List.mem_cons]
      refine ⟨?_, ?_⟩
      · rintro (rfl | h')
        · exact ⟨.inl rfl, ha⟩
        · exact ⟨.inr h'.1, h'.2⟩
      · rintro ⟨rfl | h', h''⟩
        · exact .inl rfl
        · exact .inr ⟨h', h''⟩
    · rw [List.takeWhile_cons_of_neg (by simpa using ha)]
      simp only [List.not_mem_nil, List.mem_cons, false_iff, not_and, not_lt]
      rintro (rfl | hx)
      · exact not_lt.1 ha
      · exact (not_lt.1 ha).trans (har x hx).le

/-- Consistent interpolated paths without constraints. -/
def GoodI (S : Space K C) (p : Ipath K C) : Prop := GoodPts p ∧ GeoPts S p ∧ p.cons = none

/-- Both directions of extraction at once. -/
theorem Ipath.extract_spec (S : Space K C) {p : Ipath K C} (hp : GoodI S p) (a b : K) (ha : p.pr.1 ≤ a ∧ a ≤ p.pr.2)
    (hb : p.pr.1 ≤ b ∧ b ≤ p.pr.2) (hmin : min a b < p.pr.2) :
    ∃ r, p.extract S a b = .ok r ∧ GoodI S r ∧ r.pr = (0, |b - a|) ∧
      ∀ x, 0 ≤ x → x ≤ |b - a| → r.impl S x = p.impl S (if b < a then a - x else a + x) := by
  obtain ⟨hg, hgeo, hc⟩ := hp
  obtain ⟨q1, e1⟩ := Ipath.impl_defined S hg a ha.1 ha.2
  obtain ⟨q2, e2⟩ := Ipath.impl_defined S hg b hb.1 hb.2
  have ea : p.eval S a = .ok q1 := by simp [Ipath.eval, constrained, hc, e1]
  have eb : p.eval S b = .ok q2 := by simp [Ipath.eval, constrained, hc, e2]
  obtain ⟨ql, hql⟩ := hg.last
  -- the loop
  obtain ⟨tmin, htmin⟩ : ∃ t, t = if b < a then b else a := ⟨_, rfl⟩
  obtain ⟨tmax, htmax⟩ : ∃ t, t = if b < a then a else b := ⟨_, rfl⟩
  have hmm : tmin = min a b ∧ tmax = max a b ∧ tmax - tmin = |b - a| := by
    by_cases h : b < a
    · rw [if_pos h] at htmin htmax
      rw [htmin, htmax, min_eq_right h.le, max_eq_left h.le, abs_sub_comm, abs_of_pos (sub_pos.2 h)]
      exact ⟨rfl, rfl, rfl⟩
    · rw [if_neg h] at htmin htmax
      rw [htmin, htmax, min_eq_left (not_lt.1 h), max_eq_right (not_lt.1 h), abs_of_nonneg (sub_nonneg.2 (not_lt.1 h))]
      exact ⟨rfl, rfl, rfl⟩
  obtain ⟨m1, m2, m3⟩ := hmm
  have hmaxhi : tmax ≤ p.pr.2 := m2 ▸ max_le ha.2 hb.2
  have hl0 : 0 ≤ tmax - tmin := m3 ▸ abs_nonneg _
  have hlminlo : p.pr.1 ≤ tmin := m1 ▸ le_min ha.1 hb.1
  obtain ⟨g, hgd⟩ : ∃ g : K → K, g = fun t => if b < a then (tmax - tmin) - (t - tmin) else t - tmin := ⟨_, rfl⟩
  have hext : p.extract S a b = .ok ((Ipath.create q1 q2 (0, tmax - tmin) p.cons).insertAll
      (((p.pts.drop (upperBound p.pts tmin)).takeWhile (fun x => x.1 < tmax)).map fun x => (g x.1, x.2))) := by
    have := extLoop_eq g tmax (p.pts.drop (upperBound p.pts tmin)) (Ipath.create q1 q2 (0, tmax - tmin) p.cons)
      ⟨_, (mem_drop_upperBound hg.sorted _ _).2 ⟨hql, by rw [m1]; exact hmin⟩, hmaxhi⟩
    rw [← this]
    unfold Ipath.extract
    simp only [ea, eb, decide_eq_true_eq]
    rw [← htmin, ← htmax, ← hgd]
  have hinner : ∀ z, z ∈ ((p.pts.drop (upperBound p.pts tmin)).takeWhile (fun x => x.1 < tmax)).map (fun x => (g x.1, x.2)) ↔
      ∃ y ∈ p.pts, tmin < y.1 ∧ y.1 < tmax ∧ z = (g y.1, y.2) := by
    intro z
    rw [List.mem_map]
    have hsd : Sorted (p.pts.drop (upperBound p.pts tmin)) := hg.sorted.sublist (List.drop_sublist _ _)
    constructor
    · rintro ⟨y, hy, rfl⟩
      have h1 := (mem_takeWhile_lt hsd _ _).1 hy
      have h2 := (mem_drop_upperBound hg.sorted _ _).1 h1.1
      exact ⟨y, h2.1, h2.2, h1.2, rfl⟩
    · rintro ⟨y, h1, h2, h3, rfl⟩
      exact ⟨y, (mem_takeWhile_lt hsd _ _).2 ⟨(mem_drop_upperBound hg.sorted _ _).2 ⟨h1, h2⟩, h3⟩, rfl⟩
  generalize ((p.pts.drop (upperBound p.pts tmin)).takeWhile (fun x => x.1 < tmax)).map (fun x => (g x.1, x.2)) = inner at hext hinner
  -- the change of time
  obtain ⟨σ, hσd⟩ : ∃ σ : K, σ = if b < a then -1 else 1 := ⟨_, rfl⟩
  have hσ : σ = 1 ∨ σ = -1 := by rw [hσd]; split <;> simp
  have hgφ : ∀ t, a + σ * g t = t := by
    intro t
    rw [hσd, hgd]
    by_cases h : b < a
    · simp only [h, if_true] at htmin htmax ⊢; rw [htmin, htmax]; ring
    · simp only [h, if_false] at htmin htmax ⊢; rw [htmin]; ring
  have hφl : a + σ * (tmax - tmin) = b := by
    rw [hσd]
    by_cases h : b < a
    · simp only [h, if_true] at htmin htmax ⊢; rw [htmin, htmax]; ring
    · simp only [h, if_false] at htmin htmax ⊢; rw [htmin, htmax]; ring
  have hgrange : ∀ t, tmin < t → t < tmax → 0 < g t ∧ g t < tmax - tmin := by
    intro t h1 h2
    rw [hgd]
    by_cases h : b < a <;> simp only [h, if_true, if_false] <;> constructor <;> linarith
  have hmap : ∀ x, 0 ≤ x → x ≤ tmax - tmin → tmin ≤ a + σ * x ∧ a + σ * x ≤ tmax := by
    intro x x0 x1
    rw [hσd]
    by_cases h : b < a
    · simp only [h, if_true] at htmin htmax ⊢; constructor <;> linarith
    · simp only [h, if_false] at htmin htmax ⊢; constructor <;> linarith
  have hcg := Ipath.create_good q1 q2 (0, tmax - tmin) p.cons hl0
  have hrg : GoodPts ((Ipath.create q1 q2 (0, tmax - tmin) p.cons).insertAll inner) := by
    refine hcg.insertAll inner fun z hz => ?_
    obtain ⟨y, _, y1, y2, rfl⟩ := (hinner z).1 hz
    exact ⟨(hgrange _ y1 y2).1.le, (hgrange _ y1 y2).2.le⟩
  have hpr : ((Ipath.create q1 q2 (0, tmax - tmin) p.cons).insertAll inner).pr = (0, tmax - tmin) := Ipath.insertAll_pr _ _
  have hres := resample S hg hgeo hrg a σ hσ
    (fun x x0 x1 => by
      rw [hpr] at x0 x1
      have := hmap x x0 x1
      exact ⟨hlminlo.trans this.1, this.2.trans hmaxhi⟩)
    (fun z hz => by
      rcases (mem_insertAll hcg.sorted inner z).1 hz with hz | hz
      · rcases (mem_create _ _ _ _ z).1 hz with rfl | hz
        · simpa using e1
        · rw [hz.1]
          show p.impl S (a + σ * (tmax - tmin)) = _
          rw [hφl]; exact e2
      · obtain ⟨y, hy, y1, y2, rfl⟩ := (hinner z).1 (List.mem_of_find?_eq_some hz.2)
        rw [hgφ]
        exact Ipath.impl_key S hg hy)
    (fun y hy x x0 x1 hyx => by
      rw [hpr] at x0 x1
      by_cases hx0 : x = 0
      · exact ⟨(0, q1), (mem_insertAll hcg.sorted _ _).2 (.inl ((mem_create _ _ _ _ _).2 (.inl rfl))), hx0.symm⟩
      · by_cases hxl : x = tmax - tmin
        · exact ⟨(tmax - tmin, q2), (mem_insertAll hcg.sorted _ _).2 (.inl ((mem_create _ _ _ _ _).2 (.inr ⟨rfl, by
            show (0 : K) ≠ tmax - tmin
            rw [← hxl]; exact Ne.symm hx0⟩))), hxl.symm⟩
        · have x0' : 0 < x := lt_of_le_of_ne x0 (Ne.symm hx0)
          have x1' : x < tmax - tmin := lt_of_le_of_ne x1 hxl
          have hy12 : tmin < y.1 ∧ y.1 < tmax := by
            rw [hyx, hσd]
            by_cases h : b < a
            · simp only [h, if_true] at htmin htmax ⊢; constructor <;> linarith
            · simp only [h, if_false] at htmin htmax ⊢; constructor <;> linarith
          have hgx : g y.1 = x := by
            have := hgφ y.1
            rw [hyx] at this
            have h' : σ * g (a + σ * x) = σ * x := by linarith
            rw [hyx]
            rcases hσ with h1 | h1 <;> rw [h1] at h' ⊢ <;> linarith
          have hmem : (x, y.2) ∈ inner := (hinner _).2 ⟨y, hy, hy12.1, hy12.2, by rw [hgx]⟩
          have hex : ∃ z, inner.find? (fun w => w.1 = x) = some z := by
            rw [← Option.isSome_iff_exists, List.find?_isSome]
            exact ⟨_, hmem, by simp⟩
          obtain ⟨z, hz⟩ := hex
          have hzx : z.1 = x := by simpa using List.find?_some hz
          refine ⟨z, (mem_insertAll hcg.sorted _ _).2 (.inr ⟨fun w hw => ?_, by rw [hzx]; exact hz⟩), hzx⟩
          rw [hzx]
          rcases (mem_create _ _ _ _ w).1 hw with rfl | hw
          · exact Ne.symm hx0
          · rw [hw.1]; exact Ne.symm hxl)
  refine ⟨_, hext, ⟨hrg, hres.1, by rw [Ipath.insertAll_cons]; exact hc⟩, by rw [hpr, m3], fun x x0 x1 => ?_⟩
  rw [hres.2 x (by rw [hpr]; exact x0) (by rw [hpr, m3]; exact x1), hσd]
  congr 1
  by_cases h : b < a <;> simp only [h, if_true, if_false] <;> ring

/-- **C25** (extraction): the part extracted between `a` and `b` (in either order) has range `[0, |b - a|]` and evaluates to the original
from `a` towards `b`.  Partial: the path carries no constraint, and `a`, `b` are not both the end of the range. -/
theorem C25_extract_partial (S : Space K C) {p : Ipath K C} (hp : GoodI S p) (a b : K) (ha : p.pr.1 ≤ a ∧ a ≤ p.pr.2)
    (hb : p.pr.1 ≤ b ∧ b ≤ p.pr.2) (hmin : a < p.pr.2 ∨ b < p.pr.2) :
    ∃ r, p.extract S a b = .ok r ∧ GoodI S r ∧ r.pr = (0, |b - a|) ∧
      (a ≤ b → ∀ x, 0 ≤ x → x ≤ b - a → r.eval S x = p.eval S (a + x)) ∧
      (b ≤ a → ∀ x, 0 ≤ x → x ≤ a - b → r.eval S x = p.eval S (a - x)) := by
  obtain ⟨r, h1, h2, h3, h4⟩ := Ipath.extract_spec S hp a b ha hb (min_lt_iff.2 hmin)
  refine ⟨r, h1, h2, h3, fun hab x x0 x1 => ?_, fun hab x x0 x1 => ?_⟩
  · have := h4 x x0 (by rw [abs_of_nonneg (sub_nonneg.2 hab)]; exact x1)
    rw [if_neg (not_lt.2 hab)] at this
    simp [Ipath.eval, h2.2.2, hp.2.2, constrained, this]
  · have := h4 x x0 (by rw [abs_sub_comm, abs_of_nonneg (sub_nonneg.2 hab)]; exact x1)
    simp only [Ipath.eval, h2.2.2, hp.2.2, constrained, this]
    rcases lt_or_eq_of_le hab with hab | hab
    · rw [if_pos hab]
    · have hx : x = 0 := le_antisymm (by linarith) x0
      subst hx
      simp [hab]

/-- **C25** (extraction at the end): extracting the degenerate part at the end of the range dereferences the past-the-end iterator. -/
theorem C25_extract_end_counterexample :
    (∃ p : Ipath ℚ (Unit → ℚ), GoodI (vecSpace ℚ Unit) p ∧ p.extract (vecSpace ℚ Unit) p.pr.2 p.pr.2 = .error .indexOutOfBounds) := by
  refine ⟨built (fun _ => 0) (fun _ => 7) (1, 4) none exOps, ⟨built_good _ _ _ _ _ (by norm_num) ?_, fun x _ y _ _ _ => vec_geoPair _ _, rfl⟩, ?_⟩
  · intro x hx
    fin_cases hx <;> constructor <;> norm_num
  · have h : ((built (fun _ => 0) (fun _ => 7) (1, 4) none exOps).extract (vecSpace ℚ Unit) 4 4 |> fun
        | .error e => some e
        | .ok (_ : Ipath ℚ (Unit → ℚ)) => none) = some Err.indexOutOfBounds := by decide +kernel
    show (built (fun _ => 0) (fun _ => 7) (1, 4) none exOps).extract (vecSpace ℚ Unit) 4 4 = _
    revert h
    cases (built (fun _ => 0) (fun _ => 7) (1, 4) none exOps).extract (vecSpace ℚ Unit) 4 4 with
    | error e => intro h; simp only [Option.some.injEq] at h; rw [h]
    | ok r => intro h; simp at h

/-- Reversal of a path whose range starts at 0. -/
theorem Ipath.reverse_spec (S : Space K C) {p : Ipath K C} (hp : GoodI S p) (h0 : p.pr.1 = 0) :
    ∃ r, p.reverse = .ok r ∧ GoodI S r ∧ r.pr = (0, p.pr.2) ∧ ∀ x, 0 ≤ x → x ≤ p.pr.2 → r.impl S x = p.impl S (p.pr.2 - x) := by
  obtain ⟨hg, hgeo, hc⟩ := hp
  obtain ⟨q0, hq0⟩ := hg.first
  obtain ⟨q1, hq1⟩ := hg.last
  have hle := hg.le
  rw [h0] at hle
  -- the points copied by the loop
  have hrev : p.reverse = .ok ((Ipath.create q1 q0 (0, p.pr.2 - p.pr.1) p.cons).insertAll
      (p.pts.dropLast.tail.reverse.map fun x => (p.pr.2 - p.pr.1 - x.1, x.2))) := by
    unfold Ipath.reverse
    rw [hg.head hq0, hg.getLast hq1]
    simp only [Ipath.insertAll, List.foldl_map]
    split
    · rfl
    · next hlen =>
      have : p.pts.dropLast.tail = [] := List.eq_nil_of_length_eq_zero (by simp; omega)
      rw [this]; rfl
  rw [h0, sub_zero] at hrev
  have hhead := hg.head hq0
  have hlast := hg.getLast hq1
  have hinner : ∀ z, z ∈ p.pts.dropLast.tail.reverse.map (fun x => (p.pr.2 - x.1, x.2)) ↔
      ∃ y ∈ p.pts, 0 < y.1 ∧ y.1 < p.pr.2 ∧ z = (p.pr.2 - y.1, y.2) := by
    intro z
    rw [List.mem_map]
    simp only [List.mem_reverse]
    have hs := hg.sorted
    have key : ∀ y, y ∈ p.pts.dropLast.tail ↔ y ∈ p.pts ∧ 0 < y.1 ∧ y.1 < p.pr.2 := by
      intro y
      constructor
      · intro hy
        obtain ⟨i, hi, rfl⟩ := List.getElem_of_mem hy
        have hi' : i + 1 < p.pts.length - 1 := by simp at hi; omega
        have e : p.pts.dropLast.tail[i] = p.pts[i + 1]'(by omega) := by simp
        rw [e]
        have l1 := hs.lt (i := 0) (j := i + 1) (by omega) (Nat.succ_pos _)
        have l2 := hs.lt (i := i + 1) (j := p.pts.length - 1) (by omega) (by omega)
        rw [List.head?_eq_getElem?, List.getElem?_eq_getElem (by omega), Option.some.injEq] at hhead
        rw [List.getLast?_eq_getElem?, List.getElem?_eq_getElem (by omega), Option.some.injEq] at hlast
        rw [hhead] at l1
        rw [hlast] at l2
        exact ⟨List.getElem_mem _, h0 ▸ l1, l2⟩
      · rintro ⟨hy, y1, y2⟩
        obtain ⟨i, hi, rfl⟩ := List.getElem_of_mem hy
        have i0 : i ≠ 0 := by
          rintro rfl
          rw [List.head?_eq_getElem?, List.getElem?_eq_getElem hi, Option.some.injEq] at hhead
          rw [hhead] at y1
          exact absurd h0 y1.ne'
        have i1 : i ≠ p.pts.length - 1 := by
          rintro rfl
          rw [List.getLast?_eq_getElem?, List.getElem?_eq_getElem hi, Option.some.injEq] at hlast
          rw [hlast] at y2
          exact absurd rfl y2.ne
        have e : p.pts[i] = p.pts.dropLast.tail[i - 1]'(by simp; omega) := by
          simp only [List.getElem_tail, List.getElem_dropLast]
          congr 1; omega
        rw [e]; exact List.getElem_mem _
    constructor
    · rintro ⟨y, hy, rfl⟩
      have := (key y).1 hy
      exact ⟨y, this.1, this.2.1, this.2.2, rfl⟩
    · rintro ⟨y, h1, h2, h3, rfl⟩
      exact ⟨y, (key y).2 ⟨h1, h2, h3⟩, rfl⟩
  generalize p.pts.dropLast.tail.reverse.map (fun x => (p.pr.2 - x.1, x.2)) = inner at hrev hinner
  have hcg := Ipath.create_good q1 q0 (0, p.pr.2) p.cons hle
  have hrg : GoodPts ((Ipath.create q1 q0 (0, p.pr.2) p.cons).insertAll inner) := by
    refine hcg.insertAll inner fun z hz => ?_
    obtain ⟨y, _, y1, y2, rfl⟩ := (hinner z).1 hz
    show 0 ≤ p.pr.2 - y.1 ∧ p.pr.2 - y.1 ≤ p.pr.2
    constructor <;> linarith
  have hpr : ((Ipath.create q1 q0 (0, p.pr.2) p.cons).insertAll inner).pr = (0, p.pr.2) := Ipath.insertAll_pr _ _
  have hres := resample S hg hgeo hrg p.pr.2 (-1) (.inr rfl)
    (fun x x0 x1 => by
      rw [hpr] at x0 x1
      have x0 : 0 ≤ x := x0
      have x1 : x ≤ p.pr.2 := x1
      rw [h0]
      constructor <;> linarith)
    (fun z hz => by
      rcases (mem_insertAll hcg.sorted inner z).1 hz with hz | hz
      · rcases (mem_create _ _ _ _ z).1 hz with rfl | hz
        · simpa using Ipath.impl_key S hg hq1
        · rw [hz.1]
          have := Ipath.impl_key S hg hq0
          simp only [h0] at this
          simpa using this
      · obtain ⟨y, hy, y1, y2, rfl⟩ := (hinner z).1 (List.mem_of_find?_eq_some hz.2)
        have := Ipath.impl_key S hg hy
        simpa using this)
    (fun y hy x x0 x1 hyx => by
      rw [hpr] at x0 x1
      by_cases hx0 : x = 0
      · exact ⟨(0, q1), (mem_insertAll hcg.sorted _ _).2 (.inl ((mem_create _ _ _ _ _).2 (.inl rfl))), hx0.symm⟩
      · by_cases hxl : x = p.pr.2
        · exact ⟨(p.pr.2, q0), (mem_insertAll hcg.sorted _ _).2 (.inl ((mem_create _ _ _ _ _).2 (.inr ⟨rfl, by
            show (0 : K) ≠ p.pr.2
            rw [← hxl]; exact Ne.symm hx0⟩))), hxl.symm⟩
        · have x0' : 0 < x := lt_of_le_of_ne x0 (Ne.symm hx0)
          have x1' : x < p.pr.2 := lt_of_le_of_ne x1 hxl
          have hmem : (x, y.2) ∈ inner := (hinner _).2 ⟨y, hy, by rw [hyx]; linarith, by rw [hyx]; linarith, by rw [hyx]; congr 1; ring⟩
          have hex : ∃ z, inner.find? (fun w => w.1 = x) = some z := by
            rw [← Option.isSome_iff_exists, List.find?_isSome]
            exact ⟨_, hmem, by simp⟩
          obtain ⟨z, hz⟩ := hex
          have hzx : z.1 = x := by simpa using List.find?_some hz
          refine ⟨z, (mem_insertAll hcg.sorted _ _).2 (.inr ⟨fun w hw => ?_, by rw [hzx]; exact hz⟩), hzx⟩
          rw [hzx]
          rcases (mem_create _ _ _ _ w).1 hw with rfl | hw
          · exact Ne.symm hx0
          · rw [hw.1]; exact Ne.symm hxl)
  refine ⟨_, hrev, ⟨hrg, hres.1, by rw [Ipath.insertAll_cons]; exact hc⟩, hpr, fun x x0 x1 => ?_⟩
  rw [hres.2 x (by rw [hpr]; exact x0) (by rw [hpr]; exact x1)]
  congr 1; ring

/-- **C25** (reversal): for a path whose range starts at 0, `reverse` traverses it backwards.  Partial: see
`C25_reverse_counterexample` for the other ranges. -/
theorem C25_reverse_partial (S : Space K C) {p : Ipath K C} (hp : GoodI S p) (h0 : p.pr.1 = 0) :
    ∃ r, p.reverse = .ok r ∧ r.pr = (0, p.pr.2) ∧ ∀ x, 0 ≤ x → x ≤ p.pr.2 → r.eval S x = p.eval S (p.pr.2 - x) := by
  obtain ⟨r, h1, h2, h3, h4⟩ := Ipath.reverse_spec S hp h0
  exact ⟨r, h1, h3, fun x x0 x1 => by simp [Ipath.eval, h2.2.2, hp.2.2, constrained, h4 x x0 x1]⟩

/-- **C25** (reversal): when the range starts elsewhere the inner points are inserted at shifted times; here the reversed path even starts
at a configuration in the middle of the original. -/
theorem C25_reverse_counterexample :
    ((built (fun _ => 0) (fun _ => 7) (2, 4) none [(3, fun _ => 1)]).reverse.toOption.bind fun r : Ipath ℚ (Unit → ℚ) =>
      (r.eval (vecSpace ℚ Unit) 0).toOption.map (· ())) = some (1 : ℚ) ∧
    ((built (fun _ => 0) (fun _ => 7) (2, 4) none [(3, fun _ => 1)] : Ipath ℚ (Unit → ℚ)).eval (vecSpace ℚ Unit) 4).toOption.map (· ()) = some (7 : ℚ) := by
  constructor <;> decide +kernel

/-- The example used above is a consistent path. -/
example : GoodI (vecSpace ℚ Unit) (built (fun _ => 0) (fun _ => 7) (0, 4) none [(3, fun _ => 1), (1, fun _ => 5)]) ∧
    (built (fun _ => 0) (fun _ => 7) (0, 4) none [(3, fun _ => 1), (1, fun _ => 5)] : Ipath ℚ (Unit → ℚ)).pr.1 = 0 := by
  refine ⟨⟨built_good _ _ _ _ _ (by norm_num) ?_, fun x _ y _ _ _ => vec_geoPair _ _, rfl⟩, rfl⟩
  intro x hx
  fin_cases hx <;> constructor <;> norm_num

/-! ## C25: velocity bound -/

/-- `f` is the piecewise interpolation of the points of `l`. -/
def PieceLin {ι : Type} (f : K → ι → K) : Pts K (ι → K) → Prop
  | x :: y :: r => (∀ s, x.1 ≤ s → s ≤ y.1 → ∀ i, f s i = x.2 i + (s - x.1) / (y.1 - x.1) * (y.2 i - x.2 i)) ∧ PieceLin f (y :: r)
  | _ => True

theorem velLoop_mono {ι : Type} (t1 : K) (l : Pts K (ι → K)) (res r : ι → K) (h : velLoop t1 l res = .ok r) (i : ι) : res i ≤ r i := by
  induction l generalizing res with
  | nil => simp [velLoop] at h
  | cons c l ih =>
    cases l with
    | nil =>
      simp only [velLoop] at h
      split at h
      · simp at h
      · rw [← Except.ok.inj h]
    | cons n l =>
      simp only [velLoop] at h
      split at h
      · exact (le_max_left _ _).trans (ih _ h)
      · rw [← Except.ok.inj h]

theorem velLoop_sound {ι : Type} (f : K → ι → K) (t1 : K) (l : Pts K (ι → K)) (hs : Sorted l) (hf : PieceLin f l) (res r : ι → K)
    (h : velLoop t1 l res = .ok r) (x : K × (ι → K)) (hx : l.head? = some x) (s s' : K) (h1 : x.1 ≤ s) (h2 : s ≤ s') (h3 : s' ≤ t1) (i : ι) :
    |f s' i - f s i| ≤ r i * (s' - s) := by
  induction l generalizing res x s s' with
  | nil => simp at hx
  | cons c l ih =>
    rw [List.head?_cons, Option.some.injEq] at hx
    subst hx
    rcases eq_or_lt_of_le h2 with heq | hlt
    · subst heq; simp
    have hct : c.1 < t1 := (h1.trans_lt hlt).trans_le h3
    cases l with
    | nil => simp [velLoop, hct] at h
    | cons n l =>
      simp only [velLoop, if_pos hct] at h
      have hcn : c.1 < n.1 := (List.pairwise_cons.1 hs).1 n List.mem_cons_self
      have hL := sub_pos.2 hcn
      have hsp : |n.2 i - c.2 i| / (n.1 - c.1) ≤ r i := (le_max_right _ _).trans (velLoop_mono _ _ _ _ h i)
      have step : ∀ u v, c.1 ≤ u → u ≤ v → v ≤ n.1 → |f v i - f u i| ≤ r i * (v - u) := by
        intro u v hu huv hv
        have e : f v i - f u i = (n.2 i - c.2 i) / (n.1 - c.1) * (v - u) := by
          rw [hf.1 v (hu.trans huv) hv i, hf.1 u hu (huv.trans hv) i]
          field_simp; ring
        rw [e, abs_mul, abs_div, abs_of_pos hL, abs_of_nonneg (sub_nonneg.2 huv)]
        exact mul_le_mul_of_nonneg_right hsp (sub_nonneg.2 huv)
      have rest := fun u v hu huv hv => ih (List.pairwise_cons.1 hs).2 hf.2 _ h n rfl u v hu huv hv
      rcases le_total s' n.1 with hn | hn
      · exact step s s' h1 h2 hn
      · rcases le_total n.1 s with hn' | hn'
        · exact rest s s' hn' h2 h3
        · have a1 := step s n.1 h1 hn' (le_refl _)
          have a2 := rest n.1 s' (le_refl _) hn h3
          have e : f s' i - f s i = (f s' i - f n.1 i) + (f n.1 i - f s i) := by ring
          rw [e]
          refine (abs_add_le _ _).trans ?_
          linarith

theorem pieceLin_of {ι : Type} (f : K → ι → K) (l : Pts K (ι → K))
    (h : ∀ (j : Nat) (hj : j + 1 < l.length), ∀ s, (l[j]).1 ≤ s → s ≤ (l[j + 1]).1 → ∀ i,
      f s i = (l[j]).2 i + (s - (l[j]).1) / ((l[j + 1]).1 - (l[j]).1) * ((l[j + 1]).2 i - (l[j]).2 i)) : PieceLin f l := by
  induction l with
  | nil => trivial
  | cons a r ih =>
    cases r with
    | nil => trivial
    | cons b r =>
      refine ⟨h 0 (by simp), ih fun j hj => ?_⟩
      exact h (j + 1) (by simpa using hj)

theorem velLoop_defined {ι : Type} (t1 : K) (l : Pts K (ι → K)) (h : ∃ x ∈ l, t1 ≤ x.1) (res : ι → K) : ∃ r, velLoop t1 l res = .ok r := by
  induction l generalizing res with
  | nil => obtain ⟨x, hx, _⟩ := h; simp at hx
  | cons c l ih =>
    obtain ⟨x, hx, hl⟩ := h
    cases l with
    | nil =>
      rw [List.mem_singleton] at hx
      subst hx
      exact ⟨res, by simp [velLoop, not_lt.2 hl]⟩
    | cons n l =>
      by_cases hc : c.1 < t1
      · simp only [velLoop, if_pos hc]
        rcases List.mem_cons.1 hx with rfl | hx
        · exact absurd hc (not_lt.2 hl)
        · exact ih ⟨x, hx, hl⟩ _
      · exact ⟨res, by simp [velLoop, hc]⟩

/-- **C25** (velocity bound): when `t0` is the time of a way point, `velocityBound(t0, t1)` is defined and bounds the speed of each
coordinate on `[t0, t1]`.  Partial: `C25_velocity_counterexample` shows that it does not when `t0` is inside a segment. -/
theorem C25_velocity_partial {ι : Type} {p : Ipath K (ι → K)} (h : GoodPts p) (x : K × (ι → K)) (hx : x ∈ p.pts) (t1 : K) (ht : t1 ≤ p.pr.2) :
    ∃ B, p.velocityBound x.1 t1 = .ok B ∧ ∀ s s', x.1 ≤ s → s ≤ s' → s' ≤ t1 → ∀ q q', p.impl (vecSpace K ι) s = .ok q →
      p.impl (vecSpace K ι) s' = .ok q' → ∀ i, |q' i - q i| ≤ B i * (s' - s) := by
  obtain ⟨j, hj, rfl⟩ := List.getElem_of_mem hx
  unfold Ipath.velocityBound
  rw [lowerBound_key h.sorted hj]
  have hsd : Sorted (p.pts.drop j) := h.sorted.sublist (List.drop_sublist _ _)
  obtain ⟨ql, hql⟩ := h.last
  have hlast : ∃ y ∈ p.pts.drop j, t1 ≤ y.1 := by
    obtain ⟨k, hk, he⟩ := List.getElem_of_mem hql
    have hkj : j ≤ k := by
      by_contra hn
      have := h.sorted.lt hj (not_le.1 hn)
      rw [he] at this
      exact absurd (h.range _ hx).2 (not_le.2 this)
    refine ⟨p.pts[k], ?_, by rw [he]; exact ht⟩
    rw [List.mem_iff_getElem]
    exact ⟨k - j, by simp; omega, by simp [Nat.add_sub_cancel' hkj]⟩
  obtain ⟨B, hB⟩ := velLoop_defined t1 _ hlast (fun _ => 0)
  refine ⟨B, hB, fun s s' h1 h2 h3 q q' hq hq' i => ?_⟩
  let f : K → ι → K := fun s => match p.impl (vecSpace K ι) s with
    | .ok q => q
    | .error _ => fun _ => 0
  have hf : PieceLin f (p.pts.drop j) := by
    refine pieceLin_of f _ fun k hk s k1 k2 i => ?_
    simp only [List.getElem_drop, List.length_drop] at hk k1 k2 ⊢
    have hk' : j + k + 1 < p.pts.length := by omega
    have := Ipath.impl_seg' (vecSpace K ι) h (List.getElem_mem (Nat.lt_of_succ_lt hk')) (List.getElem_mem hk')
      (h.sorted.lt hk' (Nat.lt_succ_self _)) (h.sorted.consec_noKey hk') s k1 k2
    simp only [f, this]
    rfl
  have hd : (p.pts.drop j).head? = some p.pts[j] := by rw [List.head?_drop, List.getElem?_eq_getElem hj]
  have := velLoop_sound f t1 _ hsd hf _ B hB _ hd s s' h1 h2 h3 i
  simpa only [f, hq, hq'] using this

/-- **C25** (velocity bound): the segment containing `t0` is skipped when `t0` is not the time of a way point: the bound on `[1/2, 2]` of
a path that moves at speed 10 until time 1 and then stops is 0. -/
theorem C25_velocity_counterexample :
    let p : Ipath ℚ (Unit → ℚ) := built (fun _ => 0) (fun _ => 10) (0, 2) none [(1, fun _ => 10)]
    GoodPts p ∧ (p.velocityBound (1 / 2) 2).toOption.map (· ()) = some 0 ∧
    (p.impl (vecSpace ℚ Unit) (1 / 2)).toOption.map (· ()) = some 5 ∧ (p.impl (vecSpace ℚ Unit) 1).toOption.map (· ()) = some 10 := by
  refine ⟨built_good _ _ _ _ _ (by norm_num) ?_, by decide +kernel, by decide +kernel, by decide +kernel⟩
  intro x hx
  fin_cases hx
  constructor <;> norm_num

end Verif.PathV
