import Verif.Kino.Path
set_option linter.unusedSectionVars false

/-!
# Kinodynamic steering method (C56, C82)

Any number of translation degrees of freedom (three in the code), each with its bounds.
-/
namespace Verif.Kino

/-! ## Time required by several degrees of freedom -/

/-- `belong`: steering-kinodynamic.cc:53-55. -/
def belong (t : ℝ) (i : ℝ × ℝ) : Prop := i.1 < t ∧ t < i.2

/-- Update of the smallest upper bound: steering-kinodynamic.cc:69-71.  `none` is infinity. -/
noncomputable def ubStep (T : ℝ) (m : Option ℝ) (i : ℝ × ℝ) : Option ℝ :=
  match m with
  | none => if T < i.2 then some i.2 else none
  | some x => if i.2 < x ∧ T < i.2 then some i.2 else some x

/-- Smallest upper bound greater than `T`: steering-kinodynamic.cc:65, 67-72. -/
noncomputable def nextUB (l : List (ℝ × ℝ)) (T : ℝ) : Option ℝ := l.foldl (ubStep T) none

open Classical in
/-- `computeMaxRequiredTime`: steering-kinodynamic.cc:57-76, with a bound on the number of iterations; `none` when the bound is reached or the time is
infinite. -/
noncomputable def requiredTime : ℕ → ℝ → List (ℝ × ℝ) → Option ℝ
  | 0, _, _ => none
  | n + 1, T, l =>
    if ∃ i ∈ l, belong T i then
      match nextUB l T with
      | none => none
      | some T' => requiredTime n T' l
    else some T

theorem nextUB_spec (l : List (ℝ × ℝ)) (T : ℝ) :
    (nextUB l T = none → ∀ i ∈ l, ¬ T < i.2) ∧ (∀ x, nextUB l T = some x → T < x ∧ (∃ i ∈ l, i.2 = x) ∧ ∀ i ∈ l, T < i.2 → x ≤ i.2) := by
  have key : ∀ (l : List (ℝ × ℝ)) (m : Option ℝ), (∀ y, m = some y → T < y) →
      let r := l.foldl (ubStep T) m
      (r = none → m = none ∧ ∀ i ∈ l, ¬ T < i.2) ∧
      (∀ x, r = some x → T < x ∧ (m = some x ∨ ∃ i ∈ l, i.2 = x) ∧ (∀ y, m = some y → x ≤ y) ∧ ∀ i ∈ l, T < i.2 → x ≤ i.2) := by
    intro l
    induction l with
    | nil =>
      intro m hm r
      refine ⟨fun h => ⟨h, by simp⟩, fun x hx => ?_⟩
      have hx' : m = some x := hx
      exact ⟨hm x hx', Or.inl hx', fun y hy => by rw [hx'] at hy; exact le_of_eq (Option.some.inj hy), by simp⟩
    | cons i l ih =>
      intro m hm r
      have hr : r = l.foldl (ubStep T) (ubStep T m i) := rfl
      rw [hr]
      cases m with
      | none =>
        by_cases hT : T < i.2
        · rw [show ubStep T none i = some i.2 from if_pos hT]
          obtain ⟨k1, k2⟩ := ih (some i.2) (fun y hy => by rw [← Option.some.inj hy]; exact hT)
          refine ⟨fun h => absurd (k1 h).1 (by simp), fun x hx => ?_⟩
          obtain ⟨a1, a2, a3, a4⟩ := k2 x hx
          refine ⟨a1, Or.inr ?_, fun y hy => (by cases hy), fun j hj hTj => ?_⟩
          · rcases a2 with h | ⟨j, hj, h⟩
            · exact ⟨i, by simp, Option.some.inj h⟩
            · exact ⟨j, by simp [hj], h⟩
          · rcases List.mem_cons.1 hj with rfl | hj
            · exact a3 _ rfl
            · exact a4 j hj hTj
        · rw [show ubStep T none i = none from if_neg hT]
          obtain ⟨k1, k2⟩ := ih none (fun y hy => by cases hy)
          refine ⟨fun h => ⟨rfl, fun j hj => ?_⟩, fun x hx => ?_⟩
          · rcases List.mem_cons.1 hj with rfl | hj
            · exact hT
            · exact (k1 h).2 j hj
          · obtain ⟨a1, a2, a3, a4⟩ := k2 x hx
            refine ⟨a1, Or.inr ?_, fun y hy => (by cases hy), fun j hj hTj => ?_⟩
            · rcases a2 with h | ⟨j, hj, h⟩
              · cases h
              · exact ⟨j, by simp [hj], h⟩
            · rcases List.mem_cons.1 hj with rfl | hj
              · exact absurd hTj hT
              · exact a4 j hj hTj
      | some z =>
        have hz := hm z rfl
        by_cases hc : i.2 < z ∧ T < i.2
        · rw [show ubStep T (some z) i = some i.2 from if_pos hc]
          obtain ⟨k1, k2⟩ := ih (some i.2) (fun y hy => by rw [← Option.some.inj hy]; exact hc.2)
          refine ⟨fun h => absurd (k1 h).1 (by simp), fun x hx => ?_⟩
          obtain ⟨a1, a2, a3, a4⟩ := k2 x hx
          refine ⟨a1, Or.inr ?_, fun y hy => ?_, fun j hj hTj => ?_⟩
          · rcases a2 with h | ⟨j, hj, h⟩
            · exact ⟨i, by simp, Option.some.inj h⟩
            · exact ⟨j, by simp [hj], h⟩
          · rw [← Option.some.inj hy]; exact le_trans (a3 _ rfl) hc.1.le
          · rcases List.mem_cons.1 hj with rfl | hj
            · exact a3 _ rfl
            · exact a4 j hj hTj
        · rw [show ubStep T (some z) i = some z from if_neg hc]
          obtain ⟨k1, k2⟩ := ih (some z) (fun y hy => by rw [← Option.some.inj hy]; exact hz)
          refine ⟨fun h => absurd (k1 h).1 (by simp), fun x hx => ?_⟩
          obtain ⟨a1, a2, a3, a4⟩ := k2 x hx
          refine ⟨a1, ?_, a3, fun j hj hTj => ?_⟩
          · rcases a2 with h | ⟨j, hj, h⟩
            · exact Or.inl h
            · exact Or.inr ⟨j, by simp [hj], h⟩
          · rcases List.mem_cons.1 hj with rfl | hj
            · have : ¬ j.2 < z := fun h => hc ⟨h, hTj⟩
              exact le_trans (a3 z rfl) (not_lt.1 this)
            · exact a4 j hj hTj
  obtain ⟨k1, k2⟩ := key l none (fun y hy => by cases hy)
  refine ⟨fun h => (k1 h).2, fun x hx => ?_⟩
  obtain ⟨a1, a2, _, a4⟩ := k2 x hx
  refine ⟨a1, ?_, a4⟩
  rcases a2 with h | h
  · cases h
  · exact h

open Classical in
/-- Number of intervals whose end is after `T`. -/
noncomputable def after (l : List (ℝ × ℝ)) (T : ℝ) : ℕ := l.countP (fun i => decide (T < i.2))

theorem after_lt {l : List (ℝ × ℝ)} {T T' : ℝ} (h : T < T') (he : ∃ i ∈ l, i.2 = T') : after l T' < after l T := by
  have mono : ∀ l : List (ℝ × ℝ), after l T' ≤ after l T := by
    intro l
    apply List.countP_mono_left
    intro i _ hi
    simp only [decide_eq_true_eq] at hi ⊢
    linarith
  induction l with
  | nil => simp at he
  | cons j l ih =>
    obtain ⟨i, hi, hi2⟩ := he
    have e1 : after (j :: l) T' = after l T' + if T' < j.2 then 1 else 0 := by
      unfold after; rw [List.countP_cons]; simp
    have e2 : after (j :: l) T = after l T + if T < j.2 then 1 else 0 := by
      unfold after; rw [List.countP_cons]; simp
    rw [e1, e2]
    rcases List.mem_cons.1 hi with rfl | hi
    · rw [if_neg (by rw [hi2]; exact lt_irrefl _), if_pos (by rw [hi2]; exact h)]
      have := mono l
      omega
    · have := ih ⟨i, hi, hi2⟩
      by_cases h1 : T' < j.2
      · rw [if_pos h1, if_pos (by linarith)]; omega
      · rw [if_neg h1]; split <;> omega

/-- C82: the loop ends, and the time returned is the smallest one that is not smaller than the given one and that is not in an infeasible interval. -/
theorem C82_requiredTime (l : List (ℝ × ℝ)) (T : ℝ) : ∃ R, requiredTime (l.length + 1) T l = some R ∧ T ≤ R ∧ (∀ i ∈ l, ¬ (i.1 < R ∧ R < i.2)) ∧
    ∀ R', T ≤ R' → R' < R → ∃ i ∈ l, i.1 < R' ∧ R' < i.2 := by
  have key : ∀ (n : ℕ) (T : ℝ), after l T < n → ∃ R, requiredTime n T l = some R ∧ T ≤ R ∧ (∀ i ∈ l, ¬ (i.1 < R ∧ R < i.2)) ∧
      ∀ R', T ≤ R' → R' < R → ∃ i ∈ l, i.1 < R' ∧ R' < i.2 := by
    intro n
    induction n with
    | zero => intro T h; exact absurd h (Nat.not_lt_zero _)
    | succ n ih =>
      intro T h
      by_cases hin : ∃ i ∈ l, belong T i
      · obtain ⟨i, hi, hb1, hb2⟩ := hin
        cases hn : nextUB l T with
        | none => exact absurd hb2 ((nextUB_spec l T).1 hn i hi)
        | some T' =>
          obtain ⟨a1, a2, a3⟩ := (nextUB_spec l T).2 T' hn
          obtain ⟨R, r1, r2, r3, r4⟩ := ih T' (by have := after_lt a1 a2; omega)
          refine ⟨R, ?_, by linarith, r3, fun R' h1 h2 => ?_⟩
          · rw [requiredTime, if_pos ⟨i, hi, hb1, hb2⟩, hn]; exact r1
          · by_cases h3 : T' ≤ R'
            · exact r4 R' h3 h2
            · exact ⟨i, hi, by linarith, lt_of_lt_of_le (not_le.1 h3) (a3 i hi hb2)⟩
      · refine ⟨T, by rw [requiredTime, if_neg hin], le_rfl, fun i hi hc => hin ⟨i, hi, hc⟩, fun R' h1 h2 => by linarith⟩
  refine key _ T ?_
  have : after l T ≤ l.length := List.countP_le_length
  omega

/-! ## The vertical axis -/

/-- Quadratic equation of the vertical axis: steering-kinodynamic.cc:443-461. -/
noncomputable def solve13Z (A e s p1 p2 v1 v2 : ℝ) : ℝ :=
  let a1 := s * A
  let a := a1
  let b := 2 * v1
  let c := (1 / 2 * (v1 + v2) * (v2 - v1) / (-a1)) - (p2 - p1)
  let q := -(1 / 2) * (b + sgn b * √(b * b - 4 * a * c))
  let x1 := if e < |a| then q / a else s * A
  let x2 := if e < |q| then c / q else s * A
  max x1 x2

/-- Fastest trajectory along the vertical axis: steering-kinodynamic.cc:435-491. -/
noncomputable def segmentsZ (A V e s p1 p2 v1 v2 : ℝ) : Traj :=
  let a1 := s * A
  let a2 := -a1
  let vLim := s * V
  let x := solve13Z A e s p1 p2 v1 v2
  let minT1 := max 0 (-((v2 - v1) / a2))
  if minT1 ≤ x ∧ ¬ V < |v1 + x * a1| then ⟨a1, x, 0, (v2 - v1) / a2 + x, vLim⟩
  else ⟨a1, (vLim - v1) / a1, (v1 * v1 + v2 * v2 - 2 * vLim * vLim) / (2 * vLim * a1) + (p2 - p1) / vLim, (v2 - vLim) / a2, vLim⟩

/-- The coefficient tested by the vertical axis. -/
noncomputable def q13 (A s p1 p2 v1 v2 : ℝ) : ℝ :=
  -(1 / 2) * (2 * v1 + sgn (2 * v1) * √(2 * v1 * (2 * v1) - 4 * (s * A) * ((1 / 2 * (v1 + v2) * (v2 - v1) / (-(s * A))) - (p2 - p1))))

theorem segmentsZ_eq {A V e s p1 p2 v1 v2 : ℝ} (he : 0 ≤ e) (hA : e < |s * A|) (hq : e < |q13 A s p1 p2 v1 v2|) :
    segmentsZ A V e s p1 p2 v1 v2 = segments A V s p1 p2 v1 v2 := by
  have hx : solve13Z A e s p1 p2 v1 v2 = solve13 (s * A) p1 p2 v1 v2 := by
    unfold solve13Z solve13
    have hq' := hq
    unfold q13 at hq'
    simp only [if_pos hA, if_pos hq']
    rw [if_pos (abs_pos.1 (lt_of_le_of_lt he hA)), if_pos (abs_pos.1 (lt_of_le_of_lt he hq'))]
  unfold segmentsZ segments
  simp only [hx]

/-! ## The steering method -/

/-- A degree of freedom: bounds and ends. `z` is true for the vertical axis when it is not synchronized with the others. -/
structure Dof where
  A : ℝ
  V : ℝ
  p1 : ℝ
  p2 : ℝ
  v1 : ℝ
  v2 : ℝ
  z : Bool

/-- `Kinodynamic::fixedTimeTrajectory`: steering-kinodynamic.cc:392-584; the path along the degree of freedom. -/
noncomputable def Dof.fixed (e : ℝ) (d : Dof) (T : ℝ) : KP :=
  if |d.v2 - d.v1| < e ∧ |d.p2 - d.p1| < e then ⟨d.p1, d.v1, d.p2, d.v2, T, 0, 0, 0, T, 0, 0⟩
  else if d.z = true ∧ d.v2 = 0 then
    let t := segmentsZ d.A d.V e (sigma d.A d.p1 d.p2 d.v1 d.v2) d.p1 d.p2 d.v1 d.v2
    ⟨d.p1, d.v1, d.p2, d.v2, T, t.a1, if d.v1 = 0 then T - t.t1 - t.tv - t.t2 else 0, t.t1, t.tv, t.t2, t.vLim⟩
  else
    let t := fixedTime d.A d.V e T d.p1 d.p2 d.v1 d.v2
    ⟨d.p1, d.v1, d.p2, d.v2, T, t.a1, 0, t.t1, t.tv, t.t2, t.vLim⟩

/-- The minimal times and the infeasible intervals: steering-kinodynamic.cc:95-111.  When there is no movement, the interval is not modified and the previous one is
pushed again (`prev`; the initial one contains no time). -/
noncomputable def minTimes (e : ℝ) : List Dof → ℝ → Option (ℝ × ℝ) → List (Option (ℝ × ℝ)) → ℝ × List (Option (ℝ × ℝ))
  | [], Tmax, _, l => (Tmax, l)
  | d :: ds, Tmax, prev, l =>
    let T := computeMinTime d.A d.V e d.p1 d.p2 d.v1 d.v2
    let i := if |d.p2 - d.p1| < e ∧ |d.v2 - d.v1| < e then prev else infeasible d.A d.V d.p1 d.p2 d.v1 d.v2
    minTimes e ds (if Tmax < T then T else Tmax) i (l ++ [i])

/-- Result of the steering method. -/
inductive Steer where
  | straight
  | kino (len : ℝ) (ds : List KP)
  | loop

/-- `Kinodynamic::impl_compute`: steering-kinodynamic.cc:78-182; `eps` is the machine precision. -/
noncomputable def steer (eps e : ℝ) (ds : List Dof) : Steer :=
  let r := minTimes e ds 0 none []
  if r.1 ≤ eps then .straight
  else
    match requiredTime (r.2.length + 1) r.1 (r.2.filterMap id) with
    | none => .loop
    | some T => .kino T (ds.map (fun d => d.fixed e T))

theorem minTimes_spec (e : ℝ) (ds : List Dof) : ∀ (Tmax : ℝ) (prev : Option (ℝ × ℝ)) (l : List (Option (ℝ × ℝ))),
    Tmax ≤ (minTimes e ds Tmax prev l).1 ∧ (∀ i ∈ l, i ∈ (minTimes e ds Tmax prev l).2) ∧
    (∀ d ∈ ds, computeMinTime d.A d.V e d.p1 d.p2 d.v1 d.v2 ≤ (minTimes e ds Tmax prev l).1) ∧
    (∀ d ∈ ds, ¬ (|d.p2 - d.p1| < e ∧ |d.v2 - d.v1| < e) → infeasible d.A d.V d.p1 d.p2 d.v1 d.v2 ∈ (minTimes e ds Tmax prev l).2) ∧
    (∀ i ∈ (minTimes e ds Tmax prev l).2, i ∈ l ∨ i = prev ∨ ∃ d ∈ ds, i = infeasible d.A d.V d.p1 d.p2 d.v1 d.v2) ∧
    ((minTimes e ds Tmax prev l).1 = Tmax ∨ ∃ d ∈ ds, (minTimes e ds Tmax prev l).1 = computeMinTime d.A d.V e d.p1 d.p2 d.v1 d.v2) := by
  induction ds with
  | nil =>
    intro Tmax prev l
    exact ⟨le_rfl, fun i hi => hi, by simp, by simp, fun i hi => Or.inl hi, Or.inl rfl⟩
  | cons d ds ih =>
    intro Tmax prev l
    unfold minTimes
    simp only
    obtain ⟨a1, a2, a3, a4, a5, a6⟩ := ih (if Tmax < computeMinTime d.A d.V e d.p1 d.p2 d.v1 d.v2 then computeMinTime d.A d.V e d.p1 d.p2 d.v1 d.v2 else Tmax)
      (if |d.p2 - d.p1| < e ∧ |d.v2 - d.v1| < e then prev else infeasible d.A d.V d.p1 d.p2 d.v1 d.v2)
      (l ++ [if |d.p2 - d.p1| < e ∧ |d.v2 - d.v1| < e then prev else infeasible d.A d.V d.p1 d.p2 d.v1 d.v2])
    have hmax : Tmax ≤ (if Tmax < computeMinTime d.A d.V e d.p1 d.p2 d.v1 d.v2 then computeMinTime d.A d.V e d.p1 d.p2 d.v1 d.v2 else Tmax) ∧
        computeMinTime d.A d.V e d.p1 d.p2 d.v1 d.v2 ≤ (if Tmax < computeMinTime d.A d.V e d.p1 d.p2 d.v1 d.v2 then computeMinTime d.A d.V e d.p1 d.p2 d.v1 d.v2 else Tmax) := by
      split
      · exact ⟨by linarith, le_rfl⟩
      · exact ⟨le_rfl, by linarith⟩
    refine ⟨le_trans hmax.1 a1, fun i hi => a2 i (by simp [hi]), fun x hx => ?_, fun x hx hne => ?_, fun i hi => ?_, ?_⟩
    · rcases List.mem_cons.1 hx with rfl | hx
      · exact le_trans hmax.2 a1
      · exact a3 x hx
    · rcases List.mem_cons.1 hx with rfl | hx
      · exact a2 _ (by simp [if_neg hne])
      · exact a4 x hx hne
    · have hprev : (if |d.p2 - d.p1| < e ∧ |d.v2 - d.v1| < e then prev else infeasible d.A d.V d.p1 d.p2 d.v1 d.v2) = prev ∨
          (if |d.p2 - d.p1| < e ∧ |d.v2 - d.v1| < e then prev else infeasible d.A d.V d.p1 d.p2 d.v1 d.v2) = infeasible d.A d.V d.p1 d.p2 d.v1 d.v2 := by
        split
        · exact Or.inl rfl
        · exact Or.inr rfl
      have hi' : ∀ i, i = (if |d.p2 - d.p1| < e ∧ |d.v2 - d.v1| < e then prev else infeasible d.A d.V d.p1 d.p2 d.v1 d.v2) →
          i = prev ∨ ∃ x ∈ d :: ds, i = infeasible x.A x.V x.p1 x.p2 x.v1 x.v2 := by
        intro i hi
        rcases hprev with h | h
        · exact Or.inl (hi.trans h)
        · exact Or.inr ⟨d, by simp, hi.trans h⟩
      rcases a5 i hi with h | h | ⟨x, hx, h⟩
      · rcases List.mem_append.1 h with h | h
        · exact Or.inl h
        · exact Or.inr (hi' i (by simpa using h))
      · exact Or.inr (hi' i h)
      · exact Or.inr (Or.inr ⟨x, by simp [hx], h⟩)
    · rcases a6 with h | ⟨x, hx, h⟩
      · by_cases hlt : Tmax < computeMinTime d.A d.V e d.p1 d.p2 d.v1 d.v2
        · rw [if_pos hlt] at h ⊢
          exact Or.inr ⟨d, by simp, h⟩
        · rw [if_neg hlt] at h ⊢
          exact Or.inl h
      · exact Or.inr ⟨x, by simp [hx], h⟩

/-- C82: the duration of the path is the smallest one that is at least the minimal time of each degree of freedom and is in none of the infeasible intervals of
those that move. -/
theorem C82_steer (eps e : ℝ) (heps : 0 ≤ eps) (ds : List Dof) :
    (steer eps e ds = .straight ∧ ∀ d ∈ ds, computeMinTime d.A d.V e d.p1 d.p2 d.v1 d.v2 ≤ eps) ∨
    ∃ T, steer eps e ds = .kino T (ds.map (fun d => d.fixed e T)) ∧ eps < T ∧ (∀ d ∈ ds, computeMinTime d.A d.V e d.p1 d.p2 d.v1 d.v2 ≤ T) ∧
      (∀ d ∈ ds, ¬ (|d.p2 - d.p1| < e ∧ |d.v2 - d.v1| < e) → ∀ i, infeasible d.A d.V d.p1 d.p2 d.v1 d.v2 = some i → ¬ (i.1 < T ∧ T < i.2)) ∧
      (∀ T', T' < T → (∃ d ∈ ds, T' < computeMinTime d.A d.V e d.p1 d.p2 d.v1 d.v2) ∨
        ∃ d ∈ ds, ∃ i, infeasible d.A d.V d.p1 d.p2 d.v1 d.v2 = some i ∧ i.1 < T' ∧ T' < i.2) := by
  obtain ⟨_, _, a3, a4, a5, a6⟩ := minTimes_spec e ds 0 none []
  unfold steer
  simp only
  by_cases h : (minTimes e ds 0 none []).1 ≤ eps
  · rw [if_pos h]
    exact Or.inl ⟨rfl, fun d hd => le_trans (a3 d hd) h⟩
  · rw [if_neg h]
    right
    have h' := not_le.1 h
    generalize hr : minTimes e ds 0 none [] = r at *
    -- the number of iterations
    have hmono : ∀ (n m : ℕ) (T : ℝ) (l : List (ℝ × ℝ)) (R : ℝ), n ≤ m → requiredTime n T l = some R → requiredTime m T l = some R := by
      intro n
      induction n with
      | zero => intro m T l R _ hR; cases hR
      | succ n ih =>
        intro m T l R hm hR
        obtain ⟨m, rfl⟩ : ∃ k, m = k + 1 := ⟨m - 1, by omega⟩
        rw [requiredTime] at hR ⊢
        split at hR
        · rename_i hin
          rw [if_pos hin]
          cases hn : nextUB l T with
          | none => rw [hn] at hR; cases hR
          | some T' =>
            rw [hn] at hR
            exact ih m T' l R (by omega) hR
        · rename_i hin
          rw [if_neg hin]; exact hR
    obtain ⟨R, r1, r2, r3, r4⟩ := C82_requiredTime (r.2.filterMap id) r.1
    have r1' := hmono _ (r.2.length + 1) _ _ _ (by have := List.length_filterMap_le id r.2; omega) r1
    rw [r1']
    have hmem : ∀ i, some i ∈ r.2 → i ∈ r.2.filterMap id := by
      intro i hi
      rw [List.mem_filterMap]
      exact ⟨some i, hi, rfl⟩
    refine ⟨R, rfl, by linarith, fun d hd => le_trans (a3 d hd) r2, fun d hd hne i hi => ?_, fun T' hT' => ?_⟩
    · exact r3 i (hmem i (by rw [← hi]; exact a4 d hd hne))
    · by_cases hle : r.1 ≤ T'
      · right
        obtain ⟨i, hi, hb⟩ := r4 T' hle hT'
        rw [List.mem_filterMap] at hi
        obtain ⟨o, ho, hoi⟩ := hi
        have hoi' : o = some i := hoi
        subst hoi'
        rcases a5 _ ho with h1 | h1 | ⟨d, hd, h1⟩
        · simp at h1
        · cases h1
        · exact ⟨d, hd, i, h1.symm, hb⟩
      · left
        rcases a6 with h1 | ⟨d, hd, h1⟩
        · linarith
        · exact ⟨d, hd, by rw [← h1]; exact not_le.1 hle⟩

/-- From the phases to the path. -/
theorem coherent_of_reaches {A V p1 p2 v1 v2 t0 : ℝ} {t : Traj} (h : Reaches A V p1 p2 v1 v2 t) (h0 : 0 ≤ t0) (hz : v1 * t0 = 0) :
    KP.Coherent ⟨p1, v1, p2, v2, t0 + t.T, t.a1, t0, t.t1, t.tv, t.t2, t.vLim⟩ := by
  refine ⟨h0, h.t1, h.tv, h.t2, by show t0 + t.t1 + t.tv + t.t2 = t0 + t.T; unfold Traj.T; ring, h.lim, ?_⟩
  show run [(t0, 0), (t.t1, t.a1), (t.tv, 0), (t.t2, -t.a1)] (p1, v1) (t0 + t.T) = (p2, v2)
  rw [← h.target]
  have hp : phase (p1, v1) t0 0 = (p1, v1) := by unfold phase; ext <;> simp [hz]
  have g1 := h.t1
  have gv := h.tv
  have g2 := h.t2
  unfold Traj.final Traj.T
  by_cases c0 : t0 + (t.t1 + t.tv + t.t2) ≤ t0
  · have z1 : t.t1 = 0 := by linarith
    have z2 : t.tv = 0 := by linarith
    have z3 : t.t2 = 0 := by linarith
    rw [run, if_pos c0, z1, z2, z3, phase_zero, phase_zero, phase_zero]
    simp only [add_zero]; exact hp
  · rw [run, if_neg c0, hp]
    by_cases c1 : t0 + (t.t1 + t.tv + t.t2) - t0 ≤ t.t1
    · have z2 : t.tv = 0 := by linarith
      have z3 : t.t2 = 0 := by linarith
      rw [run, if_pos c1, z2, z3, phase_zero, phase_zero]
      congr 1; ring
    · rw [run, if_neg c1]
      by_cases c2 : t0 + (t.t1 + t.tv + t.t2) - t0 - t.t1 ≤ t.tv
      · have z3 : t.t2 = 0 := by linarith
        rw [run, if_pos c2, z3, phase_zero]
        congr 1; ring
      · rw [run, if_neg c2, run, if_pos (by linarith)]
        congr 1; ring

/-- C56: the path returned by the steering method, along each degree of freedom: it goes from the initial position and velocity to the final ones, its parameters
are consistent, velocity and acceleration stay within the bounds.  Excluded: vertical axis not synchronized, and the degenerate cases of
`C56_fixedTime_partial`. -/
theorem C56_steer_partial {eps e : ℝ} {ds : List Dof} {T : ℝ} {ks : List KP} (heps : 0 ≤ eps) (he : 0 ≤ e) (hTe : e < T * T)
    (hs : steer eps e ds = .kino T ks) {d : Dof} (hd : d ∈ ds) (hA : 0 < d.A) (hV : 0 < d.V) (h1 : |d.v1| ≤ d.V) (h2 : |d.v2| ≤ d.V) (hz : d.z = false)
    (hm : ¬ (|d.p2 - d.p1| < e ∧ |d.v2 - d.v1| < e)) (hq : e < |q20 T d.p1 d.p2 d.v1 d.v2|) :
    d.fixed e T ∈ ks ∧ (d.fixed e T).Coherent ∧ (d.fixed e T).len = T ∧
    (d.fixed e T).eval 0 = (d.p1, d.v1) ∧ (d.fixed e T).eval T = (d.p2, d.v2) ∧ |(d.fixed e T).a1| ≤ d.A ∧
    ∀ t, 0 ≤ t → t ≤ T → |((d.fixed e T).eval t).2| ≤ d.V := by
  rcases C82_steer eps e heps ds with ⟨h, _⟩ | ⟨T', h, hT0, hmin, hinf, _⟩
  · rw [h] at hs; cases hs
  · rw [h] at hs
    injection hs with e1 e2
    subst e1
    obtain ⟨r1, r2⟩ := C56_fixedTime_partial hA hV he h1 h2 hTe (lt_of_le_of_lt heps hT0) hm hq (hmin d hd) (hinf d hd hm)
    have hfix : d.fixed e T' = ⟨d.p1, d.v1, d.p2, d.v2, T', (fixedTime d.A d.V e T' d.p1 d.p2 d.v1 d.v2).a1, 0, (fixedTime d.A d.V e T' d.p1 d.p2 d.v1 d.v2).t1,
        (fixedTime d.A d.V e T' d.p1 d.p2 d.v1 d.v2).tv, (fixedTime d.A d.V e T' d.p1 d.p2 d.v1 d.v2).t2, (fixedTime d.A d.V e T' d.p1 d.p2 d.v1 d.v2).vLim⟩ := by
      unfold Dof.fixed
      rw [if_neg (fun hc => hm ⟨hc.2, hc.1⟩), if_neg (by rw [hz]; simp)]
    have hco := coherent_of_reaches r1 (le_refl 0) (mul_zero _)
    rw [r2, zero_add, ← hfix] at hco
    have hlen : (d.fixed e T').len = T' := by rw [hfix]
    obtain ⟨_, c2, c3⟩ := C80_eval hco
    refine ⟨?_, hco, hlen, ?_, ?_, ?_, fun t ht0 ht1 => ?_⟩
    · rw [← e2]; exact List.mem_map_of_mem hd
    · rw [c2, hfix]
    · rw [hlen] at c3
      rw [c3, hfix]
    · rw [hfix]; exact r1.acc
    · refine C80_velocity hco ?_ ?_ ?_ ht0 (by rw [hlen]; exact ht1)
      · rw [hfix]; exact h1
      · rw [hfix]; exact h2
      · rw [hfix]; exact r1.vel

/-- C56: along the vertical axis when it is not synchronized and the final velocity is null, the trajectory is the fastest one; the robot waits before moving if it
is at rest, otherwise it waits at the target.  (Case of a null coefficient excluded.) -/
theorem C56_vertical_partial {eps e : ℝ} {ds : List Dof} {T : ℝ} {ks : List KP} (heps : 0 ≤ eps) (he : 0 ≤ e)
    (hs : steer eps e ds = .kino T ks) {d : Dof} (hd : d ∈ ds) (hA : e < d.A) (hV : 0 < d.V) (h1 : |d.v1| ≤ d.V) (hz : d.z = true) (hz2 : d.v2 = 0)
    (hm : ¬ (|d.p2 - d.p1| < e ∧ |d.v2 - d.v1| < e)) (hq : e < |q13 d.A (sigma d.A d.p1 d.p2 d.v1 d.v2) d.p1 d.p2 d.v1 d.v2|) :
    d.fixed e T ∈ ks ∧ Reaches d.A d.V d.p1 d.p2 d.v1 d.v2 ⟨(d.fixed e T).a1, (d.fixed e T).t1, (d.fixed e T).tv, (d.fixed e T).t2, (d.fixed e T).vLim⟩ ∧
    (d.v1 = 0 → (d.fixed e T).Coherent) ∧
    (d.v1 ≠ 0 → (d.fixed e T).t0 = 0 ∧ (d.fixed e T).t1 + (d.fixed e T).tv + (d.fixed e T).t2 ≤ T ∧
      ∀ t, (d.fixed e T).t1 + (d.fixed e T).tv + (d.fixed e T).t2 < t → (d.fixed e T).eval t = (d.p2, 0)) := by
  have hA0 : 0 < d.A := lt_of_le_of_lt he hA
  rcases C82_steer eps e heps ds with ⟨h, _⟩ | ⟨T', h, hT0, hmin, _, _⟩
  · rw [h] at hs; cases hs
  · rw [h] at hs
    injection hs with e1 e2
    subst e1
    obtain ⟨k1, k2, _⟩ := sigma_cases d.A d.p1 d.p2 d.v1 d.v2
    have hr := segments_reaches hA0 hV h1 (by rw [hz2, abs_zero]; exact hV.le) k1 k2
    have hsA : e < |sigma d.A d.p1 d.p2 d.v1 d.v2 * d.A| := by
      rw [abs_mul, abs_of_pos hA0]
      rcases k1 with h | h <;> rw [h] <;> simpa using hA
    have hseg := segmentsZ_eq (V := d.V) he hsA hq
    have hT := hmin d hd
    have hmt : computeMinTime d.A d.V e d.p1 d.p2 d.v1 d.v2 = (segments d.A d.V (sigma d.A d.p1 d.p2 d.v1 d.v2) d.p1 d.p2 d.v1 d.v2).T := if_neg hm
    rw [hmt] at hT
    have hfix : d.fixed e T' = ⟨d.p1, d.v1, d.p2, d.v2, T', (segments d.A d.V (sigma d.A d.p1 d.p2 d.v1 d.v2) d.p1 d.p2 d.v1 d.v2).a1,
        if d.v1 = 0 then T' - (segments d.A d.V (sigma d.A d.p1 d.p2 d.v1 d.v2) d.p1 d.p2 d.v1 d.v2).t1 - (segments d.A d.V (sigma d.A d.p1 d.p2 d.v1 d.v2) d.p1 d.p2 d.v1 d.v2).tv -
          (segments d.A d.V (sigma d.A d.p1 d.p2 d.v1 d.v2) d.p1 d.p2 d.v1 d.v2).t2 else 0,
        (segments d.A d.V (sigma d.A d.p1 d.p2 d.v1 d.v2) d.p1 d.p2 d.v1 d.v2).t1, (segments d.A d.V (sigma d.A d.p1 d.p2 d.v1 d.v2) d.p1 d.p2 d.v1 d.v2).tv,
        (segments d.A d.V (sigma d.A d.p1 d.p2 d.v1 d.v2) d.p1 d.p2 d.v1 d.v2).t2, (segments d.A d.V (sigma d.A d.p1 d.p2 d.v1 d.v2) d.p1 d.p2 d.v1 d.v2).vLim⟩ := by
      unfold Dof.fixed
      rw [if_neg (fun hc => hm ⟨hc.2, hc.1⟩), if_pos ⟨hz, hz2⟩]
      simp only [hseg]
    rw [hfix]
    generalize segments d.A d.V (sigma d.A d.p1 d.p2 d.v1 d.v2) d.p1 d.p2 d.v1 d.v2 = t at *
    have hTe : t.T = t.t1 + t.tv + t.t2 := rfl
    refine ⟨?_, hr, fun h0 => ?_, fun h0 => ?_⟩
    · rw [← e2, ← hfix]; exact List.mem_map_of_mem hd
    · have hco := coherent_of_reaches hr (show 0 ≤ T' - t.t1 - t.tv - t.t2 by linarith) (by rw [h0]; ring)
      have : T' - t.t1 - t.tv - t.t2 + t.T = T' := by rw [hTe]; ring
      rw [this] at hco
      rw [if_pos h0]
      exact hco
    · refine ⟨by show (if d.v1 = 0 then _ else _) = _; rw [if_neg h0], by show t.t1 + t.tv + t.t2 ≤ T'; linarith, fun x hx => ?_⟩
      have hx' : t.t1 + t.tv + t.t2 < x := hx
      have g1 := hr.t1
      have gv := hr.tv
      have g2 := hr.t2
      rw [if_neg h0]
      unfold KP.eval
      simp only
      have hT0' : 0 < T' := lt_of_le_of_lt heps hT0
      rw [if_neg (by rintro (h | h) <;> linarith)]
      by_cases hxT : x = T'
      · rw [if_pos hxT, hz2]
      · rw [if_neg hxT, if_neg (by linarith), if_neg (by linarith), if_neg (by linarith), if_neg (by linarith), hz2]

/-- A steering problem that meets the hypotheses: from rest to rest over a distance 3, with velocity limit reached. -/
example : steer 0 (1 / 1000) [⟨1, 1, 0, 3, 0, 0, false⟩] = .kino 4 [Dof.fixed (1 / 1000) ⟨1, 1, 0, 3, 0, 0, false⟩ 4] ∧ (1 / 1000 : ℝ) < |q20 4 0 3 0 0| := by
  have hT : computeMinTime 1 1 (1 / 1000) 0 3 0 0 = 4 := by
    unfold computeMinTime
    rw [if_neg (by norm_num)]
    have hdp : deltaPacc 1 0 0 = 0 := by norm_num [deltaPacc]
    have hsg : sigma 1 0 3 0 0 = 1 := by simp [sigma, sgnenum, hdp]
    have hdisc : disc 1 1 0 3 0 0 = 3 := by norm_num [disc]
    rw [hsg, (segments_eq (A := 1) (V := 1) (s := 1) (p1 := 0) (p2 := 3) (v1 := 0) (v2 := 0) one_pos one_pos (Or.inl rfl) (by rw [hdp]; norm_num)).2
      (by rw [hdisc]; exact Real.lt_sqrt_of_sq_lt (by norm_num)), hdisc]
    norm_num [Traj.T]
  have hi : infeasible 1 1 0 3 0 0 = none := by unfold infeasible; simp
  refine ⟨?_, ?_⟩
  · have hm : minTimes (1 / 1000) [⟨1, 1, 0, 3, 0, 0, false⟩] 0 none [] = (4, [none]) := by
      unfold minTimes minTimes
      simp only [hT, hi]
      norm_num
    unfold steer
    simp only [hm]
    rw [if_neg (by norm_num)]
    simp [requiredTime]
  · rw [q20_abs]
    norm_num [sgn]
    have := Real.sqrt_nonneg (144 : ℝ)
    rw [abs_of_pos (by linarith)]
    linarith

end Verif.Kino
