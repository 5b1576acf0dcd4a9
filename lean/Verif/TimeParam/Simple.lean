import Verif.TimeParam.Polynomial
import Mathlib.Topology.Order.IntermediateValue
import Mathlib.Tactic.Positivity
import Mathlib.Analysis.SpecialFunctions.Sqrt
set_option linter.unusedSectionVars false

/-!
# `pathOptimization::SimpleTimeParameterization` (C50)

Computations on real numbers: rounding, overflow to infinity (`isfinite` tests) are not modelled, except the infinite values that the code
uses on purpose (velocity limits, inverse of a null velocity).
-/
namespace Verif.TimeParam
open Set

/-- Result of the three functions: coefficients and duration. -/
structure Law where
  a : List ℝ
  T : ℝ

/-- `computeTimeParameterizationFirstOrder`: simple-time-parameterization.cc:48-63. -/
noncomputable def firstOrder (s0 s1 B : ℝ) : Law := ⟨[s0, B], (s1 - s0) / B⟩

/-- `computeTimeParameterizationThirdOrder`: simple-time-parameterization.cc:65-82. -/
noncomputable def thirdOrder (s0 s1 B : ℝ) : Law :=
  let T := 3 * (s1 - s0) / (2 * B)
  let a2 := 3 * (s1 - s0) / (T * T)
  ⟨[s0, 0, a2, -2 * a2 / (3 * T)], T⟩

/-- Duration of `computeTimeParameterizationFifthOrder`: simple-time-parameterization.cc:88-95. -/
noncomputable def fifthT (s0 s1 B C : ℝ) : ℝ :=
  if C > 0 then max (15 * (s1 - s0) / (8 * B)) (√(10 / √3) * √((s1 - s0) / C)) else 15 * (s1 - s0) / (8 * B)

/-- `computeTimeParameterizationFifthOrder`: simple-time-parameterization.cc:84-113. -/
noncomputable def fifthOrder (s0 s1 B C : ℝ) : Law :=
  let T := fifthT s0 s1 B C
  ⟨[s0, 0, 0, 10 * (s1 - s0) / (T * T * T), -15 * (s1 - s0) / (T * T * T * T), 6 * (s1 - s0) / (T * T * T * T * T)], T⟩

/-! ## Specification of a law -/

/-- What a caller expects: the duration is positive, the time interval `[0, T]` is mapped in an increasing way onto `[s0, s1]`, and the
speed is between 0 and `B`. -/
structure Good (l : Law) (s0 s1 B : ℝ) : Prop where
  pos : 0 < l.T
  start : val l.a 0 = s0
  stop : val l.a l.T = s1
  mono : MonotoneOn (val l.a) (Icc 0 l.T)
  onto : val l.a '' Icc 0 l.T = Icc s0 s1
  speed : ∀ t ∈ Icc 0 l.T, ∃ v, jac l.a t 1 = .ok v ∧ HasDerivAt (val l.a) v t ∧ 0 ≤ v ∧ v ≤ B

theorem good_of (l : Law) (s0 s1 B : ℝ) (hl : l.a.length ≤ 10) (hT : 0 < l.T) (h0 : val l.a 0 = s0) (h1 : val l.a l.T = s1)
    (f : ℝ → ℝ) (hf : ∀ t, jac l.a t 1 = .ok (f t)) (hs : ∀ t ∈ Icc 0 l.T, 0 ≤ f t ∧ f t ≤ B) : Good l s0 s1 B := by
  have hd : ∀ t, HasDerivAt (val l.a) (f t) t := fun t => hasDeriv l.a hl t (f t) (hf t)
  have hc : ContinuousOn (val l.a) (Icc 0 l.T) := fun t _ => (hd t).continuousAt.continuousWithinAt
  have hm : MonotoneOn (val l.a) (Icc 0 l.T) := by
    refine monotoneOn_of_deriv_nonneg (convex_Icc 0 l.T) hc (fun t _ => (hd t).differentiableAt.differentiableWithinAt) ?_
    intro t ht
    rw [(hd t).deriv]
    exact (hs t (interior_subset ht)).1
  refine ⟨hT, h0, h1, hm, ?_, fun t ht => ⟨f t, hf t, hd t, hs t ht⟩⟩
  apply Subset.antisymm
  · rintro _ ⟨t, ht, rfl⟩
    constructor
    · rw [← h0]; exact hm ⟨le_refl _, hT.le⟩ ht ht.1
    · rw [← h1]; exact hm ht ⟨hT.le, le_refl _⟩ ht.2
  · rw [← h0, ← h1]
    exact intermediate_value_Icc hT.le hc

/-- C50, order 0: constant speed `B`. -/
theorem C50_order0 (s0 s1 B : ℝ) (hs : s0 < s1) (hB : 0 < B) : Good (firstOrder s0 s1 B) s0 s1 B := by
  refine good_of _ s0 s1 B (by simp [firstOrder]) (div_pos (sub_pos.2 hs) hB) ?_ ?_ (fun _ => B) (fun t => jac_two s0 B t) ?_
  · simp [firstOrder, val, valLoop]
  · simp only [firstOrder, val, valLoop]
    field_simp
    ring
  · intro t _
    exact ⟨hB.le, le_refl _⟩

theorem third_jac (s0 s1 B t : ℝ) (hs : s0 < s1) (hB : 0 < B) :
    jac (thirdOrder s0 s1 B).a t 1 =
      .ok (6 * (s1 - s0) * t * ((thirdOrder s0 s1 B).T - t) / (thirdOrder s0 s1 B).T ^ 3) := by
  have hT : 0 < (thirdOrder s0 s1 B).T := by
    have h1 := sub_pos.2 hs
    simp only [thirdOrder]; positivity
  have e : (thirdOrder s0 s1 B).a = [s0, 0, 3 * (s1 - s0) / ((thirdOrder s0 s1 B).T * (thirdOrder s0 s1 B).T),
      -2 * (3 * (s1 - s0) / ((thirdOrder s0 s1 B).T * (thirdOrder s0 s1 B).T)) / (3 * (thirdOrder s0 s1 B).T)] := rfl
  rw [e, jac_four]
  congr 1
  generalize (thirdOrder s0 s1 B).T = T at hT
  field_simp
  ring

/-- C50, order 1: the speed is null at both ends. -/
theorem C50_order1 (s0 s1 B : ℝ) (hs : s0 < s1) (hB : 0 < B) :
    Good (thirdOrder s0 s1 B) s0 s1 B ∧
    jac (thirdOrder s0 s1 B).a 0 1 = .ok 0 ∧ jac (thirdOrder s0 s1 B).a (thirdOrder s0 s1 B).T 1 = .ok 0 ∧
    jac (thirdOrder s0 s1 B).a ((thirdOrder s0 s1 B).T / 2) 1 = .ok B := by
  have hD := sub_pos.2 hs
  have hT : 0 < (thirdOrder s0 s1 B).T := by simp only [thirdOrder]; positivity
  have hTB : (thirdOrder s0 s1 B).T * (2 * B) = 3 * (s1 - s0) := by
    simp only [thirdOrder]; field_simp
  have hj := fun t => third_jac s0 s1 B t hs hB
  have e : (thirdOrder s0 s1 B).a = [s0, 0, 3 * (s1 - s0) / ((thirdOrder s0 s1 B).T * (thirdOrder s0 s1 B).T),
      -2 * (3 * (s1 - s0) / ((thirdOrder s0 s1 B).T * (thirdOrder s0 s1 B).T)) / (3 * (thirdOrder s0 s1 B).T)] := rfl
  refine ⟨good_of _ s0 s1 B (by rw [e]; simp) hT ?_ ?_ _ hj ?_, ?_, ?_, ?_⟩
  · rw [e]; simp [val, valLoop]
  · rw [e]
    generalize (thirdOrder s0 s1 B).T = T at hT
    simp only [val, valLoop]
    field_simp
    ring
  · intro t ht
    generalize (thirdOrder s0 s1 B).T = T at hT hTB ht
    have h1 : 0 ≤ t * (T - t) := mul_nonneg ht.1 (sub_nonneg.2 ht.2)
    have h2 : 4 * (t * (T - t)) ≤ T ^ 2 := by nlinarith [sq_nonneg (T - 2 * t)]
    constructor
    · rw [mul_assoc]; positivity
    · rw [div_le_iff₀ (by positivity)]
      have : 6 * (s1 - s0) * t * (T - t) = T * B * (4 * (t * (T - t))) := by
        have : 6 * (s1 - s0) = 4 * (T * B) := by linarith
        rw [this]; ring
      rw [this]
      calc T * B * (4 * (t * (T - t))) ≤ T * B * T ^ 2 := mul_le_mul_of_nonneg_left h2 (by positivity)
        _ = B * T ^ 3 := by ring
  · rw [hj]; simp
  · rw [hj]; simp
  · rw [hj]
    congr 1
    generalize (thirdOrder s0 s1 B).T = T at hT hTB
    have : s1 - s0 = T * (2 * B) / 3 := by linarith
    rw [this]
    field_simp
    ring

theorem fifth_pos (s0 s1 B C : ℝ) (hs : s0 < s1) (hB : 0 < B) : 0 < fifthT s0 s1 B C ∧ 15 * (s1 - s0) ≤ fifthT s0 s1 B C * (8 * B) := by
  have hD := sub_pos.2 hs
  have h1 : 15 * (s1 - s0) / (8 * B) ≤ fifthT s0 s1 B C := by
    unfold fifthT; split
    · exact le_max_left _ _
    · exact le_refl _
  have h0 : 0 < 15 * (s1 - s0) / (8 * B) := by positivity
  refine ⟨lt_of_lt_of_le h0 h1, ?_⟩
  rwa [div_le_iff₀ (by positivity)] at h1

theorem jac_six_one (a0 a1 a2 a3 a4 a5 t : ℝ) :
    jac [a0, a1, a2, a3, a4, a5] t 1 = .ok (a1 + 2 * a2 * t + 3 * a3 * t ^ 2 + 4 * a4 * t ^ 3 + 5 * a5 * t ^ 4) := by
  rw [show jac [a0, a1, a2, a3, a4, a5] t 1 = .ok (0 + ((1 : Nat) : ℝ) * a1 * 1 + ((2 : Nat) : ℝ) * a2 * (1 * t) +
    ((3 : Nat) : ℝ) * a3 * (1 * t * t) + ((4 : Nat) : ℝ) * a4 * (1 * t * t * t) + ((5 : Nat) : ℝ) * a5 * (1 * t * t * t * t)) from rfl]
  congr 1
  push_cast
  ring

theorem jac_six_two (a0 a1 a2 a3 a4 a5 t : ℝ) :
    jac [a0, a1, a2, a3, a4, a5] t 2 = .ok (2 * a2 + 6 * a3 * t + 12 * a4 * t ^ 2 + 20 * a5 * t ^ 3) := by
  rw [show jac [a0, a1, a2, a3, a4, a5] t 2 = .ok (0 + ((2 : Nat) : ℝ) * a2 * 1 + ((6 : Nat) : ℝ) * a3 * (1 * t) +
    ((12 : Nat) : ℝ) * a4 * (1 * t * t) + ((20 : Nat) : ℝ) * a5 * (1 * t * t * t)) from rfl]
  congr 1
  push_cast
  ring

theorem fifth_jac (s0 s1 B C t : ℝ) (hs : s0 < s1) (hB : 0 < B) :
    jac (fifthOrder s0 s1 B C).a t 1 = .ok (30 * (s1 - s0) * (t * (fifthT s0 s1 B C - t)) ^ 2 / fifthT s0 s1 B C ^ 5) ∧
    jac (fifthOrder s0 s1 B C).a t 2 =
      .ok (60 * (s1 - s0) * (t * (fifthT s0 s1 B C - t) * (fifthT s0 s1 B C - 2 * t)) / fifthT s0 s1 B C ^ 5) := by
  have hT := (fifth_pos s0 s1 B C hs hB).1
  unfold fifthOrder
  simp only
  generalize fifthT s0 s1 B C = T at hT
  constructor
  · rw [jac_six_one]
    congr 1
    field_simp
    ring
  · rw [jac_six_two]
    congr 1
    field_simp
    ring

/-- C50, order 2: speed and acceleration are null at both ends, and the acceleration does not exceed `C` when `C` is positive. -/
theorem C50_order2 (s0 s1 B C : ℝ) (hs : s0 < s1) (hB : 0 < B) :
    Good (fifthOrder s0 s1 B C) s0 s1 B ∧
    (∀ k, k = 1 ∨ k = 2 → jac (fifthOrder s0 s1 B C).a 0 k = .ok 0 ∧ jac (fifthOrder s0 s1 B C).a (fifthOrder s0 s1 B C).T k = .ok 0) ∧
    (C ≤ 0 → jac (fifthOrder s0 s1 B C).a ((fifthOrder s0 s1 B C).T / 2) 1 = .ok B) ∧
    (0 < C → ∀ t ∈ Icc 0 (fifthOrder s0 s1 B C).T, ∃ v, jac (fifthOrder s0 s1 B C).a t 2 = .ok v ∧ |v| ≤ C) := by
  have hD := sub_pos.2 hs
  obtain ⟨hT, hTB⟩ := fifth_pos s0 s1 B C hs hB
  have hj := fun t => fifth_jac s0 s1 B C t hs hB
  have eT : (fifthOrder s0 s1 B C).T = fifthT s0 s1 B C := rfl
  refine ⟨good_of _ s0 s1 B (by simp [fifthOrder]) hT ?_ ?_ _ (fun t => (hj t).1) ?_, ?_, ?_, ?_⟩
  · simp [fifthOrder, val, valLoop]
  · rw [eT]
    unfold fifthOrder
    simp only [val, valLoop]
    generalize fifthT s0 s1 B C = T at hT
    field_simp
    ring
  · rw [eT]
    intro t ht
    generalize fifthT s0 s1 B C = T at hT hTB ht
    have h1 : 0 ≤ t * (T - t) := mul_nonneg ht.1 (sub_nonneg.2 ht.2)
    have h2 : 4 * (t * (T - t)) ≤ T ^ 2 := by nlinarith [sq_nonneg (T - 2 * t)]
    have h3 : 16 * (t * (T - t)) ^ 2 ≤ T ^ 4 := by nlinarith
    constructor
    · positivity
    · rw [div_le_iff₀ (by positivity)]
      have h4 : 30 * (s1 - s0) * (t * (T - t)) ^ 2 ≤ T * (B * (16 * (t * (T - t)) ^ 2)) := by
        have h5 : 0 ≤ (t * (T - t)) ^ 2 := sq_nonneg _
        nlinarith
      calc _ ≤ _ := h4
        _ ≤ T * (B * T ^ 4) := by gcongr
        _ = B * T ^ 5 := by ring
  · rw [eT]
    rintro k (rfl | rfl)
    · rw [(hj _).1, (hj _).1]; simp
    · rw [(hj _).2, (hj _).2]; simp
  · intro hC
    rw [eT, (hj _).1]
    congr 1
    have hT2 : fifthT s0 s1 B C = 15 * (s1 - s0) / (8 * B) := by
      unfold fifthT; rw [if_neg (not_lt.2 hC)]
    have : s1 - s0 = fifthT s0 s1 B C * (8 * B) / 15 := by
      rw [hT2]; field_simp
    rw [this]
    generalize fifthT s0 s1 B C = T at hT
    field_simp
    ring
  · intro hC t ht
    rw [eT] at ht
    refine ⟨_, (hj t).2, ?_⟩
    -- fourth power of the duration
    have hT4 : 100 / 3 * (s1 - s0) ^ 2 ≤ C ^ 2 * fifthT s0 s1 B C ^ 4 := by
      have h1 : √(10 / √3) * √((s1 - s0) / C) ≤ fifthT s0 s1 B C := by
        unfold fifthT; rw [if_pos hC]; exact le_max_right _ _
      have h2 : 0 ≤ √(10 / √3) * √((s1 - s0) / C) := by positivity
      have h3 := pow_le_pow_left₀ h2 h1 4
      have h4 : (√(10 / √3) * √((s1 - s0) / C)) ^ 4 = 100 / 3 * ((s1 - s0) / C) ^ 2 := by
        have e1 : √(10 / √3) ^ 2 = 10 / √3 := Real.sq_sqrt (by positivity)
        have e2 : √((s1 - s0) / C) ^ 2 = (s1 - s0) / C := Real.sq_sqrt (by positivity)
        have e3 : √3 ^ 2 = (3 : ℝ) := Real.sq_sqrt (by norm_num)
        calc (√(10 / √3) * √((s1 - s0) / C)) ^ 4 = (√(10 / √3) ^ 2) ^ 2 * (√((s1 - s0) / C) ^ 2) ^ 2 := by ring
          _ = 100 / √3 ^ 2 * ((s1 - s0) / C) ^ 2 := by rw [e1, e2]; ring
          _ = _ := by rw [e3]
      rw [h4, div_pow] at h3
      have h5 := mul_le_mul_of_nonneg_left h3 (sq_nonneg C)
      have h6 : C ^ 2 * (100 / 3 * ((s1 - s0) ^ 2 / C ^ 2)) = 100 / 3 * (s1 - s0) ^ 2 := by field_simp
      linarith
    generalize fifthT s0 s1 B C = T at hT ht hT4
    apply abs_le_of_sq_le_sq _ hC.le
    rw [div_pow, div_le_iff₀ (by positivity)]
    -- with y = t (T - t): y² (T² - 4 y) ≤ T⁶ / 108
    have hy : 0 ≤ t * (T - t) := mul_nonneg ht.1 (sub_nonneg.2 ht.2)
    have hz : (T - 2 * t) ^ 2 = T ^ 2 - 4 * (t * (T - t)) := by ring
    have hk : 108 * ((t * (T - t)) ^ 2 * (T - 2 * t) ^ 2) ≤ T ^ 6 := by
      rw [hz]
      generalize t * (T - t) = y at hy
      have : T ^ 6 - 108 * (y ^ 2 * (T ^ 2 - 4 * y)) = 108 * ((y - T ^ 2 / 6) ^ 2 * (4 * y + T ^ 2 / 3)) := by ring
      have h2 : 0 ≤ (y - T ^ 2 / 6) ^ 2 * (4 * y + T ^ 2 / 3) := by positivity
      linarith
    calc (60 * (s1 - s0) * (t * (T - t) * (T - 2 * t))) ^ 2
        = 100 / 3 * (s1 - s0) ^ 2 * (108 * ((t * (T - t)) ^ 2 * (T - 2 * t) ^ 2)) := by ring
      _ ≤ C ^ 2 * T ^ 4 * T ^ 6 := by gcongr
      _ = C ^ 2 * (T ^ 5) ^ 2 := by ring

/-! ## `optimize` -/

/-- A piece of the flattened input path: parameter range, length (of the time range), velocity bound on the parameter range, derivative of
the configuration with respect to the parameter. -/
structure Piece (n : Nat) where
  r0 : ℝ
  r1 : ℝ
  len : ℝ
  v : Fin n → ℝ
  dq : ℝ → Fin n → ℝ

/-- A piece of the result: a copy of an input piece with a new time parameterization on `[0, T]`. -/
structure OPiece (n : Nat) where
  src : Piece n
  law : Law

/-- Parameters of the optimizer and velocity limits of the robot; `none` is an infinite limit. -/
structure Cfg (n : Nat) where
  order : Int
  maxAcc : ℝ
  safety : ℝ
  thr : ℝ
  limit : Fin n → Option ℝ

/-- `ub` after line 195, for a finite velocity limit `l`: simple-time-parameterization.cc:188-195. -/
noncomputable def ubOf (safety l : ℝ) : ℝ := (l + -l) / 2 + safety * (l - (l + -l) / 2)

/-- `lb` after line 196: simple-time-parameterization.cc:188-196. -/
noncomputable def lbOf (safety l : ℝ) : ℝ := (l + -l) / 2 + safety * (-l - (l + -l) / 2)

/-- Minimum with `none` for infinity. -/
noncomputable def minO : Option ℝ → Option ℝ → Option ℝ
  | none, b => b
  | some a, none => some a
  | some a, some b => some (min a b)

/-- A coefficient of `bound.cwiseProduct (v_inv)`: simple-time-parameterization.cc:239-241.  The bound is positive (line 214), so that the
product with an infinite `v_inv` is infinite, and infinite limits stay infinite (lines 198-200). -/
noncomputable def quot (bound : Option ℝ) (v : ℝ) : Option ℝ :=
  match bound with
  | none => none
  | some b => if v = 0 then none else some (b * v⁻¹)

/-- `B`: simple-time-parameterization.cc:240-241. -/
noncomputable def speedB {n : Nat} (c : Cfg n) (v : Fin n → ℝ) : Option ℝ :=
  minO (((List.finRange n).map fun i => quot ((c.limit i).map (ubOf c.safety)) (v i)).foldr minO none)
    (((List.finRange n).map fun i => quot ((c.limit i).map fun l => -lbOf c.safety l) (v i)).foldr minO none)

/-- `|value| ≤ thr` for a result of `derivative`. -/
def small (thr : ℝ) (x : Except Err ℝ) (y : ℝ) : Prop :=
  match x with
  | .ok v => |v - y| ≤ thr
  | .error _ => False

/-- `checkTimeParameterization` accepts: simple-time-parameterization.cc:115-157. -/
def accepts (l : Law) (order : Int) (s0 s1 B C thr : ℝ) : Prop :=
  (|val l.a 0 - s0| < thr ∧ |val l.a l.T - s1| < thr) ∧
  (1 ≤ order → small thr (jac l.a 0 1) 0 ∧ small thr (jac l.a l.T 1) 0 ∧ (C ≤ 0 → small thr (jac l.a (l.T / 2) 1) B)) ∧
  (2 ≤ order → small thr (jac l.a 0 2) 0 ∧ small thr (jac l.a l.T 2) 0)

open Classical in
/-- Body of the loop, from line 236 on: simple-time-parameterization.cc:236-273. -/
noncomputable def paramPiece {n : Nat} (c : Cfg n) (p : Piece n) : Except Err (OPiece n) :=
  match speedB c p.v with
  | none => .error .runtime
  | some B =>
    if B ≤ 0 then .error .runtime
    else
      let go (l : Law) : Except Err (OPiece n) :=
        if accepts l c.order p.r0 p.r1 B c.maxAcc c.thr then .ok ⟨p, l⟩ else .error .logic
      if c.order = 0 then go (firstOrder p.r0 p.r1 B)
      else if c.order = 1 then go (thirdOrder p.r0 p.r1 B)
      else if c.order = 2 then go (fifthOrder p.r0 p.r1 B c.maxAcc)
      else .error .invalid

open Classical in
/-- The loop over the pieces: simple-time-parameterization.cc:226-274. -/
noncomputable def paramLoop {n : Nat} (c : Cfg n) : List (Piece n) → Except Err (List (OPiece n))
  | [] => .ok []
  | p :: l =>
    if p.r0 = p.r1 then paramLoop c l
    else
      match paramPiece c p with
      | .error e => .error e
      | .ok o =>
        match paramLoop c l with
        | .error e => .error e
        | .ok r => .ok (o :: r)

open Classical in
/-- `optimize`: simple-time-parameterization.cc:165-276.  `none`: the input path itself is returned. -/
noncomputable def optimize {n : Nat} (c : Cfg n) (path : List (Piece n)) : Except Err (Option (List (OPiece n))) :=
  if (path.map (·.len)).sum = 0 then .ok none
  else if c.order ≤ 1 ∧ 0 < c.maxAcc then .error .invalid
  else if (∃ i l, c.limit i = some l ∧ ubOf c.safety l ≤ 0) ∧ (∃ i l, c.limit i = some l ∧ 0 ≤ lbOf c.safety l) then .error .invalid
  else
    match paramLoop c path with
    | .error e => .error e
    | .ok r => .ok (some r)

/-- Contract of a piece: its parameter range is an interval and `velocityBound` is a bound. -/
structure PieceOk {n : Nat} (p : Piece n) : Prop where
  range : p.r0 ≤ p.r1
  nonneg : ∀ i, 0 ≤ p.v i
  bound : ∀ s ∈ Icc p.r0 p.r1, ∀ i, |p.dq s i| ≤ p.v i

theorem ubOf_eq (s l : ℝ) : ubOf s l = s * l := by unfold ubOf; ring
theorem lbOf_eq (s l : ℝ) : lbOf s l = -(s * l) := by unfold lbOf; ring

theorem minO_some (a b : Option ℝ) (x : ℝ) (h : minO a b = some x) : (∀ y, a = some y → x ≤ y) ∧ (∀ y, b = some y → x ≤ y) := by
  cases a with
  | none =>
    refine ⟨fun y hy => by simp at hy, fun y hy => ?_⟩
    have : some y = some x := hy ▸ h
    rw [Option.some.inj this]
  | some a =>
    cases b with
    | none =>
      refine ⟨fun y hy => ?_, fun y hy => by simp at hy⟩
      have : some y = some x := hy ▸ h
      rw [Option.some.inj this]
    | some b =>
      have := Option.some.inj h
      refine ⟨fun y hy => ?_, fun y hy => ?_⟩
      · rw [← this, ← Option.some.inj hy]; exact min_le_left _ _
      · rw [← this, ← Option.some.inj hy]; exact min_le_right _ _

theorem foldr_minO_le (l : List (Option ℝ)) (x : ℝ) (h : l.foldr minO none = some x) : ∀ y, some y ∈ l → x ≤ y := by
  induction l generalizing x with
  | nil => intro y hy; simp at hy
  | cons a l ih =>
    intro y hy
    have h' := minO_some a (l.foldr minO none) x h
    rcases List.mem_cons.1 hy with e | e
    · exact h'.1 y e.symm
    · cases hf : l.foldr minO none with
      | none =>
        exfalso
        clear ih h h' hy
        induction l with
        | nil => simp at e
        | cons b l ih =>
          simp only [List.foldr_cons] at hf
          cases b with
          | none => 
            rcases List.mem_cons.1 e with e | e
            · simp at e
            · exact ih e hf
          | some b => cases hl : l.foldr minO none <;> rw [hl] at hf <;> simp [minO] at hf
      | some z => exact le_trans (h'.2 z hf) (ih z hf y e)

theorem foldr_minO_mem (l : List (Option ℝ)) (y : ℝ) (hy : some y ∈ l) : ∃ x, l.foldr minO none = some x ∧ some x ∈ l := by
  induction l with
  | nil => simp at hy
  | cons a l ih =>
    simp only [List.foldr_cons]
    cases hf : l.foldr minO none with
    | none =>
      rcases List.mem_cons.1 hy with e | e
      · subst e
        exact ⟨y, rfl, by simp⟩
      · obtain ⟨x, hx, _⟩ := ih e
        rw [hx] at hf; cases hf
    | some z =>
      have hz : some z ∈ l := by
        clear ih hy
        induction l generalizing z with
        | nil => simp at hf
        | cons b l ih =>
          simp only [List.foldr_cons] at hf
          cases b with
          | none => exact List.mem_cons_of_mem _ (ih z hf)
          | some b =>
            cases hl : l.foldr minO none with
            | none => rw [hl] at hf; simp [minO] at hf; simp [hf]
            | some w =>
              rw [hl] at hf
              simp only [minO] at hf
              have := Option.some.inj hf
              rcases min_choice b w with h | h
              · rw [h] at this; simp [this]
              · rw [h] at this; subst this; exact List.mem_cons_of_mem _ (ih w hl)
      cases a with
      | none => exact ⟨z, rfl, List.mem_cons_of_mem _ hz⟩
      | some a =>
        refine ⟨min a z, rfl, ?_⟩
        rcases min_choice a z with h | h
        · rw [h]; simp
        · rw [h]; exact List.mem_cons_of_mem _ hz

/-- The speed respects the limit of every degree of freedom. -/
theorem speedB_le {n : Nat} (c : Cfg n) (v : Fin n → ℝ) (B : ℝ) (h : speedB c v = some B) (i : Fin n) (l : ℝ) (hl : c.limit i = some l)
    (hv : 0 ≤ v i) : B * v i ≤ c.safety * l ∨ v i = 0 := by
  by_cases h0 : v i = 0
  · exact Or.inr h0
  · left
    have hp : 0 < v i := lt_of_le_of_ne hv (Ne.symm h0)
    have hm : some (ubOf c.safety l * (v i)⁻¹) ∈ (List.finRange n).map fun i => quot ((c.limit i).map (ubOf c.safety)) (v i) := by
      refine List.mem_map.2 ⟨i, List.mem_finRange i, ?_⟩
      simp [quot, hl, h0]
    obtain ⟨x, hx, _⟩ := foldr_minO_mem _ _ hm
    have h1 := (minO_some _ _ _ h).1 x hx
    have h2 := foldr_minO_le _ _ hx _ hm
    have h3 : B ≤ ubOf c.safety l * (v i)⁻¹ := le_trans h1 h2
    rw [ubOf_eq, ← div_eq_mul_inv, le_div_iff₀ hp] at h3
    exact h3

/-- What the result of a piece satisfies. -/
structure PieceSpec {n : Nat} (c : Cfg n) (o : OPiece n) : Prop where
  good : ∃ B, Good o.law o.src.r0 o.src.r1 B
  limits : ∀ t ∈ Icc 0 o.law.T, ∃ v, HasDerivAt (val o.law.a) v t ∧
    ∀ i l, c.limit i = some l → |v * o.src.dq (val o.law.a t) i| ≤ c.safety * l
  rest1 : 1 ≤ c.order → HasDerivAt (val o.law.a) 0 0 ∧ HasDerivAt (val o.law.a) 0 o.law.T
  rest2 : 2 ≤ c.order → jac o.law.a 0 2 = .ok 0 ∧ jac o.law.a o.law.T 2 = .ok 0
  acc : 0 < c.maxAcc → ∀ t ∈ Icc 0 o.law.T, ∃ v, jac o.law.a t 2 = .ok v ∧ |v| ≤ c.maxAcc

theorem accepts0 (s0 s1 B C thr : ℝ) (hs : s0 < s1) (hB : 0 < B) (ht : 0 < thr) : accepts (firstOrder s0 s1 B) 0 s0 s1 B C thr := by
  have g := C50_order0 s0 s1 B hs hB
  refine ⟨⟨by rw [g.start]; simpa using ht, by rw [g.stop]; simpa using ht⟩, fun h => by omega, fun h => by omega⟩

theorem accepts1 (s0 s1 B C thr : ℝ) (hs : s0 < s1) (hB : 0 < B) (ht : 0 < thr) : accepts (thirdOrder s0 s1 B) 1 s0 s1 B C thr := by
  obtain ⟨g, h1, h2, h3⟩ := C50_order1 s0 s1 B hs hB
  refine ⟨⟨by rw [g.start]; simpa using ht, by rw [g.stop]; simpa using ht⟩, fun _ => ⟨?_, ?_, fun _ => ?_⟩, fun h => by omega⟩
  · rw [h1]; simpa [small] using ht.le
  · rw [h2]; simpa [small] using ht.le
  · rw [h3]; simpa [small] using ht.le

theorem accepts2 (s0 s1 B C thr : ℝ) (hs : s0 < s1) (hB : 0 < B) (ht : 0 < thr) : accepts (fifthOrder s0 s1 B C) 2 s0 s1 B C thr := by
  obtain ⟨g, h1, h2, _⟩ := C50_order2 s0 s1 B C hs hB
  refine ⟨⟨by rw [g.start]; simpa using ht, by rw [g.stop]; simpa using ht⟩, fun _ => ⟨?_, ?_, fun hC => ?_⟩, fun _ => ⟨?_, ?_⟩⟩
  · rw [(h1 1 (Or.inl rfl)).1]; simpa [small] using ht.le
  · rw [(h1 1 (Or.inl rfl)).2]; simpa [small] using ht.le
  · rw [h2 hC]; simpa [small] using ht.le
  · rw [(h1 2 (Or.inr rfl)).1]; simpa [small] using ht.le
  · rw [(h1 2 (Or.inr rfl)).2]; simpa [small] using ht.le

theorem piece_limits {n : Nat} (c : Cfg n) (p : Piece n) (hp : PieceOk p) (B : ℝ) (hB : speedB c p.v = some B) (l : Law)
    (hg : Good l p.r0 p.r1 B) (hlim : ∀ i x, c.limit i = some x → 0 ≤ c.safety * x) :
    ∀ t ∈ Icc 0 l.T, ∃ v, HasDerivAt (val l.a) v t ∧ ∀ i x, c.limit i = some x → |v * p.dq (val l.a t) i| ≤ c.safety * x := by
  intro t ht
  obtain ⟨v, _, hd, h0, h1⟩ := hg.speed t ht
  refine ⟨v, hd, fun i x hx => ?_⟩
  have hin : val l.a t ∈ Icc p.r0 p.r1 := by rw [← hg.onto]; exact ⟨t, ht, rfl⟩
  have hb := hp.bound _ hin i
  rw [abs_mul, abs_of_nonneg h0]
  rcases speedB_le c p.v B hB i x hx (hp.nonneg i) with h | h
  · calc v * |p.dq (val l.a t) i| ≤ B * p.v i := mul_le_mul h1 hb (abs_nonneg _) (le_trans h0 h1)
      _ ≤ _ := h
  · rw [h] at hb
    have : |p.dq (val l.a t) i| = 0 := le_antisymm hb (abs_nonneg _)
    rw [this, mul_zero]
    exact hlim i x hx

theorem paramPiece_ok {n : Nat} (c : Cfg n) (p : Piece n) (o : OPiece n) (hp : PieceOk p) (hr : p.r0 ≠ p.r1)
    (hm : ¬(c.order ≤ 1 ∧ 0 < c.maxAcc)) (hlim : ∀ i x, c.limit i = some x → 0 ≤ c.safety * x)
    (h : paramPiece c p = .ok o) : o.src = p ∧ PieceSpec c o := by
  have hs : p.r0 < p.r1 := lt_of_le_of_ne hp.range hr
  unfold paramPiece at h
  cases hB : speedB c p.v with
  | none => rw [hB] at h; simp at h
  | some B =>
    rw [hB] at h
    simp only at h
    by_cases hB0 : B ≤ 0
    · rw [if_pos hB0] at h; cases h
    · rw [if_neg hB0] at h
      have hBp : 0 < B := not_le.1 hB0
      by_cases h0 : c.order = 0
      · rw [if_pos h0] at h
        split at h
        · cases h
          have g := C50_order0 p.r0 p.r1 B hs hBp
          refine ⟨rfl, ⟨B, g⟩, piece_limits c p hp B hB _ g hlim, fun h => by omega, fun h => by omega, fun h => ?_⟩
          exact absurd ⟨by omega, h⟩ hm
        · cases h
      · rw [if_neg h0] at h
        by_cases h1 : c.order = 1
        · rw [if_pos h1] at h
          split at h
          · cases h
            obtain ⟨g, z1, z2, _⟩ := C50_order1 p.r0 p.r1 B hs hBp
            refine ⟨rfl, ⟨B, g⟩, piece_limits c p hp B hB _ g hlim, fun _ => ⟨?_, ?_⟩, fun h => by omega, fun h => ?_⟩
            · exact hasDeriv _ (by simp [thirdOrder]) _ _ z1
            · exact hasDeriv _ (by simp [thirdOrder]) _ _ z2
            · exact absurd ⟨by omega, h⟩ hm
          · cases h
        · rw [if_neg h1] at h
          by_cases h2 : c.order = 2
          · rw [if_pos h2] at h
            split at h
            · cases h
              obtain ⟨g, z, _, za⟩ := C50_order2 p.r0 p.r1 B c.maxAcc hs hBp
              refine ⟨rfl, ⟨B, g⟩, piece_limits c p hp B hB _ g hlim, fun _ => ⟨?_, ?_⟩, fun _ => ?_, za⟩
              · exact hasDeriv _ (by simp [fifthOrder]) _ _ (z 1 (Or.inl rfl)).1
              · exact hasDeriv _ (by simp [fifthOrder]) _ _ (z 1 (Or.inl rfl)).2
              · exact z 2 (Or.inr rfl)
            · cases h
          · rw [if_neg h2] at h; cases h

theorem limits_nonneg {n : Nat} (c : Cfg n)
    (h : ¬((∃ i l, c.limit i = some l ∧ ubOf c.safety l ≤ 0) ∧ (∃ i l, c.limit i = some l ∧ 0 ≤ lbOf c.safety l))) :
    ∀ i x, c.limit i = some x → 0 < c.safety * x := by
  intro i x hx
  by_contra hc
  rw [not_lt] at hc
  exact h ⟨⟨i, x, hx, by rw [ubOf_eq]; exact hc⟩, ⟨i, x, hx, by rw [lbOf_eq]; linarith⟩⟩

open Classical in
theorem paramLoop_ok {n : Nat} (c : Cfg n) (hm : ¬(c.order ≤ 1 ∧ 0 < c.maxAcc)) (hlim : ∀ i x, c.limit i = some x → 0 ≤ c.safety * x)
    (path : List (Piece n)) (hp : ∀ p ∈ path, PieceOk p) (r : List (OPiece n)) (h : paramLoop c path = .ok r) :
    r.map (·.src) = path.filter (fun p => p.r0 ≠ p.r1) ∧ ∀ o ∈ r, PieceSpec c o := by
  induction path generalizing r with
  | nil => cases h; simp
  | cons p l ih =>
    rw [paramLoop] at h
    by_cases hr : p.r0 = p.r1
    · rw [if_pos hr] at h
      have := ih (fun q hq => hp q (List.mem_cons_of_mem _ hq)) r h
      simpa [hr] using this
    · rw [if_neg hr] at h
      cases ho : paramPiece c p with
      | error e => rw [ho] at h; cases h
      | ok o =>
        rw [ho] at h
        simp only at h
        cases hl : paramLoop c l with
        | error e => rw [hl] at h; cases h
        | ok r' =>
          rw [hl] at h
          cases h
          obtain ⟨h1, h2⟩ := ih (fun q hq => hp q (List.mem_cons_of_mem _ hq)) r' hl
          obtain ⟨e1, e2⟩ := paramPiece_ok c p o (hp p (by simp)) hr hm hlim ho
          refine ⟨?_, ?_⟩
          · simp only [List.map_cons, e1, h1]
            rw [List.filter_cons_of_pos (by simpa using hr)]
          · intro x hx
            rcases List.mem_cons.1 hx with rfl | hx
            · exact e2
            · exact h2 x hx

open Classical in
/-- C50 for `optimize`: the pieces of the result are those of the input, in order, except those with an empty parameter range; each is run
from one end to the other with the velocity of every degree of freedom within the limit reduced by the safety factor, speeds null at both
ends for order 1 and 2, accelerations of the parameter null at both ends and bounded by the maximal acceleration for order 2. -/
theorem C50_optimize {n : Nat} (c : Cfg n) (path : List (Piece n)) (hp : ∀ p ∈ path, PieceOk p) (r : List (OPiece n))
    (h : optimize c path = .ok (some r)) :
    r.map (·.src) = path.filter (fun p => p.r0 ≠ p.r1) ∧ ∀ o ∈ r, PieceSpec c o := by
  unfold optimize at h
  split at h
  · cases h
  · split at h
    · cases h
    · split at h
      · cases h
      · rename_i _ hm hz
        cases hl : paramLoop c path with
        | error e => rw [hl] at h; cases h
        | ok r' =>
          rw [hl] at h
          cases h
          exact paramLoop_ok c hm (fun i x hx => (limits_nonneg c hz i x hx).le) path hp r hl

/-- C50: `optimize` succeeds as soon as the order is 0, 1 or 2, no maximal acceleration is given with orders 0 and 1, velocity limits are
positive, and every piece with a non-empty parameter range has a positive velocity bound on a degree of freedom with a finite limit. In
particular the final check never fails. -/
theorem C50_defined {n : Nat} (c : Cfg n) (path : List (Piece n)) (hp : ∀ p ∈ path, PieceOk p) (ho : 0 ≤ c.order ∧ c.order ≤ 2)
    (hm : ¬(c.order ≤ 1 ∧ 0 < c.maxAcc)) (hthr : 0 < c.thr) (hlim : ∀ i x, c.limit i = some x → 0 < c.safety * x)
    (hv : ∀ p ∈ path, p.r0 ≠ p.r1 → ∃ i x, c.limit i = some x ∧ 0 < p.v i) : ∃ r, optimize c path = .ok r := by
  unfold optimize
  by_cases hlen : (path.map (·.len)).sum = 0
  · rw [if_pos hlen]; exact ⟨_, rfl⟩
  · rw [if_neg hlen, if_neg hm, if_neg]
    · have key : ∃ r, paramLoop c path = .ok r := by
        clear hlen
        induction path with
        | nil => exact ⟨_, rfl⟩
        | cons p l ih =>
          obtain ⟨r, hr⟩ := ih (fun q hq => hp q (List.mem_cons_of_mem _ hq)) (fun q hq => hv q (List.mem_cons_of_mem _ hq))
          rw [paramLoop]
          by_cases hne : p.r0 = p.r1
          · rw [if_pos hne]; exact ⟨r, hr⟩
          · rw [if_neg hne]
            have hs : p.r0 < p.r1 := lt_of_le_of_ne (hp p (by simp)).range hne
            obtain ⟨i, x, hx, hi⟩ := hv p (by simp) hne
            have hm1 : some (ubOf c.safety x * (p.v i)⁻¹) ∈ (List.finRange n).map fun i => quot ((c.limit i).map (ubOf c.safety)) (p.v i) := by
              refine List.mem_map.2 ⟨i, List.mem_finRange i, ?_⟩
              simp [quot, hx, hi.ne']
            have hm2 : some (-lbOf c.safety x * (p.v i)⁻¹) ∈
                (List.finRange n).map fun i => quot ((c.limit i).map fun l => -lbOf c.safety l) (p.v i) := by
              refine List.mem_map.2 ⟨i, List.mem_finRange i, ?_⟩
              simp [quot, hx, hi.ne']
            obtain ⟨b1, hb1, hb1m⟩ := foldr_minO_mem _ _ hm1
            obtain ⟨b2, hb2, hb2m⟩ := foldr_minO_mem _ _ hm2
            have pos1 : 0 < b1 := by
              obtain ⟨j, _, hj⟩ := List.mem_map.1 hb1m
              cases hlj : c.limit j with
              | none => rw [hlj] at hj; simp [quot] at hj
              | some y =>
                rw [hlj] at hj
                by_cases hz : p.v j = 0
                · simp [quot, hz] at hj
                · simp only [Option.map_some, quot, if_neg hz] at hj
                  rw [← Option.some.inj hj, ubOf_eq]
                  exact mul_pos (hlim j y hlj) (inv_pos.2 (lt_of_le_of_ne ((hp p (by simp)).nonneg j) (Ne.symm hz)))
            have pos2 : 0 < b2 := by
              obtain ⟨j, _, hj⟩ := List.mem_map.1 hb2m
              cases hlj : c.limit j with
              | none => rw [hlj] at hj; simp [quot] at hj
              | some y =>
                rw [hlj] at hj
                by_cases hz : p.v j = 0
                · simp [quot, hz] at hj
                · simp only [Option.map_some, quot, if_neg hz] at hj
                  rw [← Option.some.inj hj, lbOf_eq, neg_neg]
                  exact mul_pos (hlim j y hlj) (inv_pos.2 (lt_of_le_of_ne ((hp p (by simp)).nonneg j) (Ne.symm hz)))
            have hB : speedB c p.v = some (min b1 b2) := by unfold speedB; rw [hb1, hb2]; rfl
            have hBp : 0 < min b1 b2 := lt_min pos1 pos2
            have hpp : ∃ o, paramPiece c p = .ok o := by
              unfold paramPiece
              rw [hB]
              simp only
              rw [if_neg (not_le.2 hBp)]
              rcases (by omega : c.order = 0 ∨ c.order = 1 ∨ c.order = 2) with e | e | e
              · rw [if_pos e, e, if_pos (accepts0 _ _ _ _ _ hs hBp hthr)]; exact ⟨_, rfl⟩
              · rw [if_neg (by omega), if_pos e, e, if_pos (accepts1 _ _ _ _ _ hs hBp hthr)]; exact ⟨_, rfl⟩
              · rw [if_neg (by omega), if_neg (by omega), if_pos e, e, if_pos (accepts2 _ _ _ _ _ hs hBp hthr)]; exact ⟨_, rfl⟩
            obtain ⟨o, ho'⟩ := hpp
            rw [ho', hr]
            exact ⟨_, rfl⟩
      obtain ⟨r, hr⟩ := key
      rw [hr]
      exact ⟨_, rfl⟩
    · rintro ⟨⟨i, x, hx, h⟩, _⟩
      rw [ubOf_eq] at h
      exact absurd (hlim i x hx) (not_lt.2 h)

/-- C50: a path of non-null length that contains a motionless piece with a non-empty parameter range is refused. -/
theorem C50_still_counterexample {n : Nat} (c : Cfg n) (p : Piece n) (hl : p.len ≠ 0) (hr : p.r0 ≠ p.r1) (hv : ∀ i, p.v i = 0)
    (hm : ¬(c.order ≤ 1 ∧ 0 < c.maxAcc)) (hlim : ∀ i x, c.limit i = some x → 0 < c.safety * x) :
    optimize c [p] = .error .runtime := by
  have hB : speedB c p.v = none := by
    have e : ∀ f : ℝ → ℝ, ((List.finRange n).map fun i => quot ((c.limit i).map f) (p.v i)).foldr minO none = none := by
      intro f
      induction List.finRange n with
      | nil => rfl
      | cons i l ih =>
        simp only [List.map_cons, List.foldr_cons, ih]
        cases hx : c.limit i <;> simp [quot, hv i, minO]
    unfold speedB
    rw [e, e]; rfl
  unfold optimize
  rw [if_neg (by simpa using hl), if_neg hm, if_neg]
  · rw [paramLoop, if_neg hr]
    unfold paramPiece
    rw [hB]
  · rintro ⟨⟨i, x, hx, h⟩, _⟩
    rw [ubOf_eq] at h
    exact absurd (hlim i x hx) (not_lt.2 h)

/-- A configuration and a path that satisfy the hypotheses of `C50_defined` and hence, together with its conclusion, of `C50_optimize`. -/
noncomputable def cfgEx : Cfg 2 := ⟨2, 1, 1 / 2, 1 / 1000000, fun i => if i = 0 then some 2 else none⟩
noncomputable def pieceEx : Piece 2 := ⟨0, 3, 3, fun _ => 1, fun _ _ => 1⟩

example : ∃ r, optimize cfgEx [pieceEx] = .ok (some r) ∧ r ≠ [] := by
  obtain ⟨r, hr⟩ := C50_defined cfgEx [pieceEx] (by
      intro p hp; rw [List.mem_singleton.1 hp]
      exact ⟨by norm_num [pieceEx], fun _ => by norm_num [pieceEx], fun _ _ _ => by norm_num [pieceEx]⟩)
    (by norm_num [cfgEx]) (by norm_num [cfgEx]) (by norm_num [cfgEx])
    (by intro i x hx; unfold cfgEx at hx; by_cases h : i = 0 <;> simp [h] at hx; rw [← hx]; norm_num [cfgEx])
    (by intro p hp _; rw [List.mem_singleton.1 hp]; exact ⟨0, 2, by simp [cfgEx], by norm_num [pieceEx]⟩)
  cases r with
  | none =>
    exfalso
    unfold optimize at hr
    rw [if_neg (by norm_num [pieceEx])] at hr
    split at hr
    · cases hr
    · split at hr
      · cases hr
      · split at hr <;> cases hr
  | some r =>
    refine ⟨r, hr, ?_⟩
    have h := (C50_optimize cfgEx [pieceEx] (by
      intro p hp; rw [List.mem_singleton.1 hp]
      exact ⟨by norm_num [pieceEx], fun _ => by norm_num [pieceEx], fun _ _ _ => by norm_num [pieceEx]⟩) r hr).1
    rintro rfl
    rw [List.filter_cons_of_pos (by norm_num [pieceEx])] at h
    simp at h

end Verif.TimeParam
