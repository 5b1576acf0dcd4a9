import Verif.SplineOpt.Groups
import Verif.SplineOpt.LoopExamples
set_option linter.unusedSectionVars false

/-!
# The optimizer in Lie groups: continuity of the result in commutative groups, ball joints (C89, C93)

Splines of degree 1 and cost of order 1 (`SplineGradientBased_bezier1` with the default value of its parameter), with the weights of
`computeLambdasFromSplineLength`.
-/
namespace Verif.SplineOpt
open Verif.Spline
open scoped Quaternion

variable {Q : Type}

theorem integral_one (i j : ℕ) (hi : i < 2) (hj : j < 2) : integral 1 1 i j = if i = j then 1 else -1 := by
  interval_cases i <;> interval_cases j <;> simp [integral, binom, sgn, Nat.factorial]

theorem sni_one {s : Spl Q} (hn : s.n = 1) (h0 : s.s0 = 0) (h1 : s.s1 = 1) (m : ℕ) :
    s.squaredNormIntegral m 1 = some (∑ d ∈ Finset.range m, (s.P 1 d - s.P 0 d) ^ 2) := by
  have hI : ∀ i j, i < 2 → j < 2 → (s.Ic 1 i j).getD 0 = if i = j then 1 else -1 := by
    intro i j hi hj
    unfold Spl.Ic
    rw [hn, h0, h1, if_neg (by norm_num), if_neg (by norm_num), if_pos (by norm_num), integral_one i j hi hj]
    simp
  unfold Spl.squaredNormIntegral
  rw [hn, if_neg (by norm_num)]
  congr 1
  simp only [Finset.sum_range_succ, Finset.sum_range_zero, zero_add, Nat.reduceAdd]
  rw [hI 0 0 (by norm_num) (by norm_num), hI 0 1 (by norm_num) (by norm_num), hI 1 0 (by norm_num) (by norm_num), hI 1 1 (by norm_num) (by norm_num)]
  simp only [if_true, zero_ne_one, one_ne_zero, if_false, mul_one, mul_neg]
  rw [← sub_eq_zero]
  have : ∀ a b c d e : ℝ, a + -b + (-c + d) - e = a - b - c + d - e := by intros; ring
  rw [this, ← Finset.sum_sub_distrib, ← Finset.sum_sub_distrib, ← Finset.sum_add_distrib, ← Finset.sum_sub_distrib]
  exact Finset.sum_eq_zero fun d _ => by ring

/-- The change of the junction that makes the two pieces equally long in the tangent space. -/
noncomputable def half : ℕ → ℝ := fun d => (turn2 d - turn1 d) / 2

theorem sum3 (f : ℕ → ℝ) : ∑ d ∈ Finset.range 3, f d = f 0 + f 1 + f 2 := by
  simp [Finset.sum_range_succ]

/-- What the rows say of splines of degree 1. -/
theorem sat_one {q0 q1 : Q} {v w : ℕ → ℝ} {s t : Spl Q} (hs : Sat 3 2 (equalities 3 1 0 (inputTwo 0 3 q0 q1 v w 1 1)) [s, t]) (d : ℕ) (hd : d < 3) :
    s.P 0 d = 0 ∧ t.P 0 d - s.P 1 d = - v d ∧ t.P 1 d = w d := by
  have hB : ∀ (q : Q) (x y p : ℕ → ℝ) (u : ℝ), ∑ i ∈ Finset.range 2, p i * bf (rampS 0 q x y 1) 0 u i = p 0 * (1 - u) + p 1 * u := by
    intro q x y p u
    have : ∀ i, bf (rampS 0 q x y 1) 0 u i = basis 1 0 u i := by
      intro i
      unfold bf
      rw [show (rampS 0 q x y 1).s1 - (rampS 0 q x y 1).s0 = 1 from sub_zero 1]
      simp [rampS]
    simp only [this, Finset.sum_range_succ, Finset.sum_range_zero, zero_add]
    have b0 : basis 1 0 u 0 = 1 - u := by simp [basis, binom, sgn]
    have b1 : basis 1 0 u 1 = u := by simp [basis, binom, sgn]
    rw [b0, b1]
  have hrow : ∀ r ∈ orderRows 3 2 (inputTwo 0 3 q0 q1 v w 1 1) 0, r.Holds (concat 3 2 [s, t]) :=
    fun r hr => hs r (List.mem_append_right _ (List.mem_flatMap.2 ⟨0, by simp, hr⟩))
  unfold orderRows at hrow
  simp only [inputTwo, List.head?_cons, List.getLast?_cons_cons, List.getLast?_singleton, List.length_cons, List.length_nil] at hrow
  refine ⟨?_, ?_, ?_⟩
  · have := hrow _ (List.mem_append_left _ (List.mem_append_left _ (List.mem_map.2 ⟨d, List.mem_range.2 hd, rfl⟩)))
    rw [contRow_start (s' := s) rfl hd, hB, hB] at this
    simpa [rampS, ramp] using this
  · have := hrow _ (List.mem_append_left _ (List.mem_append_right _ (by
      rw [midRows]
      exact List.mem_append_left _ (List.mem_map.2 ⟨d, mem_union.2 ⟨hd, Or.inl (List.mem_range.2 hd)⟩, rfl⟩))))
    have hr := contRow_mid (m := 3) (nb := 2) (j := 0) (splines := [s, t])
            (s := rampS 0 q0 0 v 1) (t := rampS 0 q1 0 w 1) rfl rfl hd (bf (rampS 0 q0 0 v 1) 0 1)
            (bf (rampS 0 q1 0 w 1) 0 0) (0 == 0)
    rw [zero_mul] at hr
    rw [hr, hB, hB, hB, hB] at this
    simpa [rampS, ramp] using this
  · have := hrow _ (List.mem_append_right _ (List.mem_map.2 ⟨d, List.mem_range.2 hd, rfl⟩))
    rw [contRow_end (s' := t) rfl hd, hB, hB] at this
    simpa [rampS, ramp] using this

theorem ang_half : ang half = Real.pi * √2 / 4 := by
  unfold ang half turn1 turn2
  have : ((if (0:ℕ) = 1 then Real.pi / 2 else 0) - (if (0:ℕ) = 0 then Real.pi / 2 else 0)) / 2 = - (Real.pi / 4) := by simp; ring
  rw [Real.sqrt_eq_iff_mul_self_eq (by positivity) (by positivity)]
  have h2 : √2 * √2 = (2 : ℝ) := Real.mul_self_sqrt (by norm_num)
  simp
  nlinarith

theorem junction_left : (expQ (turn1 + half)).imK = 0 := by
  show _ * (turn1 + half) 2 = 0
  simp [turn1, turn2, half]

theorem junction_right : (expQ turn1 * expQ half).imK ≠ 0 := by
  have hp : 0 < √(2 : ℝ) := by positivity
  have h2 : √2 * √2 = (2 : ℝ) := Real.mul_self_sqrt (by norm_num)
  have hs : √(2:ℝ) < 2 := by nlinarith
  have hang : ang half ≠ 0 := by rw [ang_half]; positivity
  have hsin : 0 < Real.sin (ang half / 2) := by
    apply Real.sin_pos_of_pos_of_lt_pi
    · rw [ang_half]; positivity
    · rw [ang_half]; nlinarith [Real.pi_pos]
  rw [Quaternion.imK_mul, expQ_turn1]
  have hj : (expQ half).imJ = Real.sin (ang half / 2) / ang half * half 1 := by
    show (if ang half = 0 then _ else _) * _ = _
    rw [if_neg hang]
  have hk : (expQ half).imK = 0 := by
    show _ * half 2 = 0
    simp [half, turn1, turn2]
  show √2 / 2 * (expQ half).imK + √2 / 2 * (expQ half).imJ - 0 * (expQ half).imI + 0 * (expQ half).re ≠ 0
  rw [hj, hk]
  have hh : half 1 = Real.pi / 4 := by simp [half, turn1, turn2]; ring
  rw [hh]
  have : 0 < ang half := by rw [ang_half]; positivity
  have : 0 < √2 / 2 * (Real.sin (ang half / 2) / ang half * (Real.pi / 4)) := by positivity
  intro h
  linarith

/-- The weights. -/
noncomputable def lamB : List ℝ := [((Real.pi / 2) ^ 2)⁻¹, ((Real.pi / 2) ^ 2)⁻¹]

theorem optimum_le (out' : List (Spl ℍ[ℝ])) (hl : List.Forall₂ Like out' ((inputTwo 0 3 (1 : ℍ[ℝ]) (integrateSO3 1 turn1) turn1 turn2 1 1).map Prod.fst))
    (hs : Sat 3 2 (equalities 3 1 0 (inputTwo 0 3 (1 : ℍ[ℝ]) (integrateSO3 1 turn1) turn1 turn2 1 1)) out') :
    ∃ c c', value 3 1 lamB (movedTwo 0 (1 : ℍ[ℝ]) (integrateSO3 1 turn1) turn1 turn2 half 1 1) = some c ∧ value 3 1 lamB out' = some c' ∧ c ≤ c' := by
  obtain ⟨s, t, rfl, hls, hlt⟩ : ∃ s t, out' = [s, t] ∧ Like s (rampS 0 (1 : ℍ[ℝ]) 0 turn1 1) ∧ Like t (rampS 0 (integrateSO3 1 turn1) 0 turn2 1) := by
    simp only [inputTwo, List.map_cons, List.map_nil] at hl
    cases hl with
    | cons a hl =>
      cases hl with
      | cons b hl => cases hl; exact ⟨_, _, rfl, a, b⟩
  have hv := sat_one hs
  simp only [movedTwo, value, lamB]
  rw [sni_one rfl rfl rfl, sni_one rfl rfl rfl, sni_one hls.1 hls.2.2.1 hls.2.2.2, sni_one hlt.1 hlt.2.2.1 hlt.2.2.2]
  refine ⟨_, _, rfl, rfl, ?_⟩
  rw [sum3, sum3, sum3, sum3]
  obtain ⟨a0, b0, c0⟩ := hv 0 (by norm_num)
  obtain ⟨a1, b1, c1⟩ := hv 1 (by norm_num)
  obtain ⟨a2, b2, c2⟩ := hv 2 (by norm_num)
  have hpos : 0 < ((Real.pi / 2) ^ 2)⁻¹ := by positivity
  simp only [rampS, ramp, le_refl, if_true, Pi.add_apply, Pi.zero_apply, half, turn1, turn2, a0, a1, a2, c0, c1, c2]
  simp only [turn1, turn2] at b0 b1 b2 c0 c1 c2
  norm_num at b0 b1 b2 ⊢
  rw [← mul_add, ← mul_add]
  apply mul_le_mul_of_nonneg_left _ hpos.le
  rw [show t.P 0 0 = s.P 1 0 - Real.pi / 2 by linarith, show t.P 0 1 = s.P 1 1 by linarith]
  nlinarith [sq_nonneg (s.P 1 0 - Real.pi / 4), sq_nonneg (s.P 1 1 - Real.pi / 4), sq_nonneg (s.P 1 2), sq_nonneg (t.P 0 2), sq_nonneg (t.P 0 1)]

/-- C89: with a ball joint, the optimum of the cost under the equality constraints itself is not continuous.  Quarter turn about the first axis, then about
the second one, as two pieces that follow each other; `lam` are the weights that the optimizer computes from these pieces.  Pieces `out` have the least
cost of all the pieces that satisfy the constraints, and the orientation jumps at their junction. -/
theorem C89_optimum_counterexample : ∃ (l : List (Spl ℍ[ℝ] × List ℕ)) (out : List (Spl ℍ[ℝ])) (xs lam : List ℝ),
    Valid 3 1 l ∧ Follow integrateSO3 (l.map Prod.fst) ∧ SmoothDer 3 0 (l.map Prod.fst) ∧
    (l.map fun x => x.1.squaredNormIntegral 3 1) = xs.map some ∧ lambdas xs = lam.map some ∧
    List.Forall₂ Like out (l.map Prod.fst) ∧ Sat 3 2 (equalities 3 1 0 l) out ∧
    (∀ out', List.Forall₂ Like out' (l.map Prod.fst) → Sat 3 2 (equalities 3 1 0 l) out' →
      ∃ c c', value 3 1 lam out = some c ∧ value 3 1 lam out' = some c' ∧ c ≤ c') ∧
    ∃ s t, out = [s, t] ∧ s.compute integrateSO3 s.s1 ≠ t.compute integrateSO3 t.s0 ∧ s.compute integrateSO3 s.s1 ≠ -t.compute integrateSO3 t.s0 := by
  obtain ⟨h1, h2, h3, h4, h5, -, -, -⟩ :=
    C89_junction 0 3 integrateSO3 integrateSO3_zero 1 (integrateSO3 1 turn1) turn1 turn2 half 1 1 one_pos one_pos rfl
  have hx : 0 < (Real.pi / 2) ^ 2 := by positivity
  refine ⟨_, _, [(Real.pi / 2) ^ 2, (Real.pi / 2) ^ 2], lamB, h1, h2, h3, ?_, ?_, h4, h5, ?_, _, _, rfl, ?_⟩
  · simp only [inputTwo, List.map_cons, List.map_nil]
    rw [sni_one rfl rfl rfl, sni_one rfl rfl rfl, sum3, sum3]
    simp [rampS, ramp, turn1, turn2]
  · simp only [lamB, lambdas, List.map_cons, List.map_nil, maxCoeff, max_self]
    rw [if_pos (by norm_num; nlinarith), if_neg hx.ne']
  · exact optimum_le
  · have e1 : (rampS 0 (1 : ℍ[ℝ]) 0 (turn1 + half) 1).compute integrateSO3 (rampS 0 (1 : ℍ[ℝ]) 0 (turn1 + half) 1).s1 = expQ (turn1 + half) :=
      (rampS_ends _ _ _ one_pos _).2.trans (one_mul _)
    have e2 : (rampS 0 (integrateSO3 1 turn1) half turn2 1).compute integrateSO3 (rampS 0 (integrateSO3 1 turn1) half turn2 1).s0 = expQ turn1 * expQ half := by
      refine (rampS_ends _ _ _ one_pos _).1.trans ?_
      unfold integrateSO3
      rw [one_mul]
    rw [e1, e2]
    constructor
    · intro he
      have := congrArg QuaternionAlgebra.imK he
      rw [junction_left] at this
      exact junction_right this.symm
    · intro he
      have := congrArg QuaternionAlgebra.imK he
      rw [Quaternion.imK_neg, junction_left] at this
      exact junction_right (neg_eq_zero.1 this.symm)

/-! ## The loop of the optimizer -/

/-- C93: for a robot whose configuration space is a commutative group, whatever the loop of the optimizer returns follows the same ends without jump, with the
class of continuity of the input, at whatever iteration it stops. -/
theorem C93_commutative {κ : Type} [AddCommGroup Q] (c : Cfg κ) (n K : ℕ) {integrate : Q → (ℕ → ℝ) → Q} (hc : Commutative c.m integrate) (l : List (Spl Q × List ℕ)) (bnd : List Row)
    (hnb : c.nb = n + 1) (w : WF c (l.map Prod.fst)) (hv : Valid c.m n l) (hK : K ≤ 2 * (n + 1)) (hf : Follow integrate (l.map Prod.fst)) (hs : SmoothDer c.m K (l.map Prod.fst))
    (env : ℕ → Env Q κ) (hq : ∀ t, Solves c (l.map Prod.fst) (equalities c.m n K l) bnd (env t)) (x : κ)
    (hx : Optimal c (l.map Prod.fst) (equalities c.m n K l) bnd [] x) (h0 : Feasible c (equalities c.m n K l) bnd [] (l.map Prod.fst)) (fuel : ℕ) (out : LSt Q κ)
    (h : optLoop c env fuel 0 (initSt c (l.map Prod.fst) x) = .ok (some out)) :
    Follow integrate out.splines ∧ SmoothDer c.m K out.splines ∧ SameEndsQ integrate out.splines (l.map Prod.fst) ∧ c.cost out.splines ≤ c.cost (l.map Prod.fst) := by
  obtain ⟨h1, -, h3⟩ := C93_cost c _ w _ bnd env hq x hx h0 fuel out h
  rw [hnb] at h1
  obtain ⟨a, b, d⟩ := C89_commutative hc hv hK hf hs out.splines (like_out c env _ x fuel out h) h1
  exact ⟨a, b, d, h3⟩

theorem expQ_congr {v w : ℕ → ℝ} (h : ∀ d < 3, v d = w d) : expQ v = expQ w := by
  have h0 := h 0 (by norm_num)
  have h1 := h 1 (by norm_num)
  have h2 := h 2 (by norm_num)
  have ha : ang v = ang w := by unfold ang; rw [h0, h1, h2]
  unfold expQ
  rw [ha, h0, h1, h2]

/-- Parameters of the optimizer: the default ones, but `checkOptimum`.  The variables of the reduced program are the coordinates of the junction. -/
noncomputable def cfgB : Cfg (ℕ → ℝ) where
  m := 3
  nb := 2
  order := 1
  lam := lamB
  alphaInit := 2 / 10
  costThreshold := 1 / 100
  alwaysStopAtFirst := true
  reorderIntervals := false
  linearizeAtEachStep := false
  returnOptimum := false
  checkOptimum := true
  nVar := 3
  sol := fun u => concat 3 2 (movedTwo 0 (1 : ℍ[ℝ]) (integrateSO3 1 turn1) turn1 turn2 u 1 1)
  rank := fun _ => 0

/-- The two quarter turns. -/
noncomputable def inB : List (Spl ℍ[ℝ] × List ℕ) := inputTwo 0 3 (1 : ℍ[ℝ]) (integrateSO3 1 turn1) turn1 turn2 1 1

/-- What `updateSplines` makes of the optimum. -/
theorem splinesOf_parts : ∃ s t, splinesOf cfgB (inB.map Prod.fst) half = [s, t] ∧ Like s (rampS 0 (1 : ℍ[ℝ]) 0 turn1 1) ∧ Like t (rampS 0 (integrateSO3 1 turn1) 0 turn2 1) ∧
    ∀ i < 2, ∀ d < 3, s.P i d = (rampS 0 (1 : ℍ[ℝ]) 0 (turn1 + half) 1).P i d ∧ t.P i d = (rampS 0 (integrateSO3 1 turn1) half turn2 1).P i d := by
  refine ⟨_, _, rfl, ⟨rfl, rfl, rfl, rfl⟩, ⟨rfl, rfl, rfl, rfl⟩, fun i hi d hd => ⟨?_, ?_⟩⟩
  · have := concat_at (m := 3) (nb := 2) (splines := movedTwo 0 (1 : ℍ[ℝ]) (integrateSO3 1 turn1) turn1 turn2 half 1 1) (j := 0) rfl hi hd
    rw [zero_mul] at this
    exact this
  · have := concat_at (m := 3) (nb := 2) (splines := movedTwo 0 (1 : ℍ[ℝ]) (integrateSO3 1 turn1) turn1 turn2 half 1 1) (j := 1) rfl hi hd
    rw [one_mul] at this
    show concat 3 2 _ (0 + 3 * 2 + (i * 3 + d)) = _
    rw [zero_add]
    exact this

theorem splinesOf_sat : Sat 3 2 (equalities 3 1 0 inB) (splinesOf cfgB (inB.map Prod.fst) half) := by
  have hc : concat 3 2 (splinesOf cfgB (inB.map Prod.fst) half) = concat 3 2 (movedTwo 0 (1 : ℍ[ℝ]) (integrateSO3 1 turn1) turn1 turn2 half 1 1) := by
    funext k
    by_cases hk : k < 2 * (3 * 2)
    · exact (C89_updateSplines 3 2 (inB.map Prod.fst) _).1 k hk
    · have : 2 ≤ k / (3 * 2) := by omega
      unfold concat
      rw [List.getElem?_eq_none (by show 2 ≤ _; exact this), List.getElem?_eq_none (by show 2 ≤ _; exact this)]
  intro r hr
  rw [hc]
  exact (C89_junction 0 3 integrateSO3 integrateSO3_zero 1 (integrateSO3 1 turn1) turn1 turn2 half 1 1 one_pos one_pos rfl).2.2.2.2.1 r hr

theorem splinesOf_value : value 3 1 lamB (splinesOf cfgB (inB.map Prod.fst) half) =
    value 3 1 lamB (movedTwo 0 (1 : ℍ[ℝ]) (integrateSO3 1 turn1) turn1 turn2 half 1 1) := by
  obtain ⟨s, t, he, hs, ht, hP⟩ := splinesOf_parts
  rw [he]
  simp only [movedTwo, value, lamB]
  rw [sni_one hs.1 hs.2.2.1 hs.2.2.2, sni_one ht.1 ht.2.2.1 ht.2.2.2, sni_one (s := rampS 0 (1 : ℍ[ℝ]) 0 (turn1 + half) 1) rfl rfl rfl,
    sni_one (s := rampS 0 (integrateSO3 1 turn1) half turn2 1) rfl rfl rfl]
  have e1 : ∀ d ∈ Finset.range 3, (s.P 1 d - s.P 0 d) ^ 2 = ((rampS 0 (1 : ℍ[ℝ]) 0 (turn1 + half) 1).P 1 d - (rampS 0 (1 : ℍ[ℝ]) 0 (turn1 + half) 1).P 0 d) ^ 2 := by
    intro d hd
    have hd := Finset.mem_range.1 hd
    rw [(hP 1 (by norm_num) d hd).1, (hP 0 (by norm_num) d hd).1]
  have e2 : ∀ d ∈ Finset.range 3, (t.P 1 d - t.P 0 d) ^ 2 = ((rampS 0 (integrateSO3 1 turn1) half turn2 1).P 1 d - (rampS 0 (integrateSO3 1 turn1) half turn2 1).P 0 d) ^ 2 := by
    intro d hd
    have hd := Finset.mem_range.1 hd
    rw [(hP 1 (by norm_num) d hd).2, (hP 0 (by norm_num) d hd).2]
  rw [Finset.sum_congr rfl e1, Finset.sum_congr rfl e2]

/-- C93: with a ball joint, the optimizer returns a path that is not continuous though each of its pieces is valid: quarter turns about the first, then about the
second axis, no obstacle, programs solved, weights computed by the optimizer, parameter `checkOptimum`.  At their junction the first piece ends at one orientation and
the second one begins at another one. -/
theorem C93_rotation_counterexample (env : ℕ → Env ℍ[ℝ] (ℕ → ℝ)) (hs : (env 0).stop = false) (hv : ∀ i s, (env 0).valid i s = none) :
    Follow integrateSO3 (inB.map Prod.fst) ∧ Optimal cfgB (inB.map Prod.fst) (equalities 3 1 0 inB) [] [] half ∧
    ∃ out s t, optLoop cfgB env 2 0 (initSt cfgB (inB.map Prod.fst) half) = .ok (some out) ∧ out.splines = [s, t] ∧
      s.compute integrateSO3 s.s1 ≠ t.compute integrateSO3 t.s0 ∧ s.compute integrateSO3 s.s1 ≠ -t.compute integrateSO3 t.s0 := by
  refine ⟨(C89_junction 0 3 integrateSO3 integrateSO3_zero 1 (integrateSO3 1 turn1) turn1 turn2 half 1 1 one_pos one_pos rfl).2.1, ⟨⟨splinesOf_sat, ?_, ?_⟩, ?_⟩, ?_⟩
  · intro r hr; cases hr
  · intro r hr; cases hr
  · intro S hl hS
    obtain ⟨c, c', h1, h2, h3⟩ := optimum_le S hl hS.1
    show (value 3 1 lamB (splinesOf cfgB (inB.map Prod.fst) half)).getD 0 ≤ (value 3 1 lamB S).getD 0
    rw [splinesOf_value, h1, h2]
    exact h3
  · obtain ⟨out, ho, hsame⟩ := C93_unsolved_counterexample cfgB rfl rfl rfl env (inB.map Prod.fst) half hs hv
    obtain ⟨s, t, he, hsl, htl, hP⟩ := splinesOf_parts
    rw [he] at hsame
    obtain ⟨s', t', hst, h1, h2⟩ : ∃ s' t', out.splines = [s', t'] ∧ Same 3 s' s ∧ Same 3 t' t := by
      generalize out.splines = o at hsame
      cases hsame with
      | cons a hl =>
        cases hl with
        | cons b hl => cases hl; exact ⟨_, _, rfl, a, b⟩
    have ls : Like s' (rampS 0 (1 : ℍ[ℝ]) 0 turn1 1) :=
      ⟨h1.1.1.trans hsl.1, h1.1.2.1.trans hsl.2.1, h1.1.2.2.1.trans hsl.2.2.1, h1.1.2.2.2.trans hsl.2.2.2⟩
    have lt : Like t' (rampS 0 (integrateSO3 1 turn1) 0 turn2 1) :=
      ⟨h2.1.1.trans htl.1, h2.1.2.1.trans htl.2.1, h2.1.2.2.1.trans htl.2.2.1, h2.1.2.2.2.trans htl.2.2.2⟩
    have hvel : ∀ (a b : Spl ℍ[ℝ]) (u : ℝ), a.n = 1 → b.n = 1 → (∀ i < 2, ∀ d < 3, a.P i d = b.P i d) → expQ (a.velocity u) = expQ (b.velocity u) := by
      intro a b u ha hb hab
      refine expQ_congr fun d hd => ?_
      unfold Spl.velocity
      rw [ha, hb]
      exact Finset.sum_congr rfl fun i hi => by rw [hab i (Finset.mem_range.1 hi) d hd]
    have r1 : s'.s0 < s'.s1 := by rw [ls.2.2.1, ls.2.2.2]; exact one_pos
    have r2 : t'.s0 < t'.s1 := by rw [lt.2.2.1, lt.2.2.2]; exact one_pos
    have e1 : s'.compute integrateSO3 s'.s1 = expQ (turn1 + half) := by
      rw [(compute_ends r1 _).2]
      unfold integrateSO3
      rw [ls.2.1, hvel s' (rampS 0 (1 : ℍ[ℝ]) 0 (turn1 + half) 1) 1 ls.1 rfl (fun i hi d hd => (h1.2 i d hd).trans (hP i hi d hd).1)]
      have h := (rampS_ends (h := 0) (1 : ℍ[ℝ]) 0 (turn1 + half) one_pos integrateSO3).2
      have h' := (compute_ends (s := rampS 0 (1 : ℍ[ℝ]) 0 (turn1 + half) 1) one_pos integrateSO3).2
      exact (h'.symm.trans h).trans (one_mul _)
    have e2 : t'.compute integrateSO3 t'.s0 = expQ turn1 * expQ half := by
      rw [(compute_ends r2 _).1]
      unfold integrateSO3
      rw [lt.2.1, hvel t' (rampS 0 (integrateSO3 1 turn1) half turn2 1) 0 lt.1 rfl (fun i hi d hd => (h2.2 i d hd).trans (hP i hi d hd).2)]
      have h := (rampS_ends (h := 0) (integrateSO3 1 turn1) half turn2 one_pos integrateSO3).1
      have h' := (compute_ends (s := rampS 0 (integrateSO3 1 turn1) half turn2 1) one_pos integrateSO3).1
      refine (h'.symm.trans h).trans ?_
      unfold integrateSO3
      rw [one_mul]
    refine ⟨out, s', t', ho, hst, ?_⟩
    rw [e1, e2]
    constructor
    · intro he
      have := congrArg QuaternionAlgebra.imK he
      rw [junction_left] at this
      exact junction_right this.symm
    · intro he
      have := congrArg QuaternionAlgebra.imK he
      rw [Quaternion.imK_neg, junction_left] at this
      exact junction_right (neg_eq_zero.1 this.symm)

/-- An environment that meets the hypotheses. -/
example : ∃ env : ℕ → Env ℍ[ℝ] (ℕ → ℝ), (env 0).stop = false ∧ ∀ i s, (env 0).valid i s = none :=
  ⟨fun _ => ⟨false, fun _ _ => none, fun _ => true, fun _ _ _ => 0, fun _ _ => 0, fun _ => none⟩, rfl, fun _ _ => rfl⟩

end Verif.SplineOpt
