import Verif.Projector.Global
import Mathlib.Algebra.Order.Archimedean.Basic
import Mathlib.Tactic.NormNum
set_option linter.unusedSectionVars false

/-!
# The global path projector without bound on the hessian: initial configurations, termination and counterexamples (C95)
-/
namespace Verif.Proj
open Verif.PathV
variable {K C : Type} [Field K] [LinearOrder K] [IsStrictOrderedRing K]

/-! ## Initial configurations -/

/-- Times at which a path that is not an interpolated path is sampled: the first one is `step`, then every 0.99 `step`, up to the length. -/
theorem samples_spec [Archimedean K] (at_ : K → C) {step : K} (hs : 0 < step) (L t : K) :
    ∃ n : ℕ, (∀ k < n, t + k * (step * (99 / 100)) < L) ∧ L ≤ t + n * (step * (99 / 100)) ∧
      ∀ fuel, n < fuel → samples at_ step L fuel t = some ((List.range n).map fun k : ℕ => at_ (t + k * (step * (99 / 100)))) := by
  have hpos : 0 < step * (99 / 100) := by positivity
  obtain ⟨m, hm⟩ := Archimedean.arch (L - t) hpos
  rw [nsmul_eq_mul] at hm
  induction m generalizing t with
  | zero =>
    refine ⟨0, fun k hk => by omega, ?_, ?_⟩
    · push_cast at hm ⊢; linarith
    · intro fuel hf
      obtain ⟨f, rfl⟩ : ∃ f, fuel = f + 1 := ⟨fuel - 1, by omega⟩
      rw [samples, if_neg (by push_cast at hm; linarith)]; rfl
  | succ m ih =>
    by_cases h : t < L
    · obtain ⟨n, h1, h2, h3⟩ := ih (t + step * (99 / 100)) (by push_cast at hm; linarith)
      refine ⟨n + 1, ?_, ?_, ?_⟩
      · intro k hk
        rcases Nat.eq_zero_or_pos k with rfl | hk0
        · simpa using h
        · obtain ⟨k', rfl⟩ : ∃ k', k = k' + 1 := ⟨k - 1, by omega⟩
          have := h1 k' (by omega)
          push_cast; linarith
      · push_cast; linarith
      · intro fuel hf
        obtain ⟨f, rfl⟩ : ∃ f, fuel = f + 1 := ⟨fuel - 1, by omega⟩
        rw [samples, if_pos h, h3 f (by omega), Option.map_some, List.range_succ_eq_map, List.map_cons, List.map_map]
        congr 1
        congr 1
        · simp
        · refine List.map_congr_left fun k _ => ?_
          simp only [Function.comp]
          congr 1
          push_cast; ring
    · refine ⟨0, fun k hk => by omega, by push_cast; linarith, ?_⟩
      intro fuel hf
      obtain ⟨f, rfl⟩ : ∃ f, fuel = f + 1 := ⟨fuel - 1, by omega⟩
      rw [samples, if_neg h]; rfl

/-- C95: the initial list contains the ends of the path and its configurations at times which are separated by at most `step` from each other and from the ends;
there are only two of them if and only if the path is not longer than `step`. -/
theorem C95_initial [Archimedean K] (at_ : K → C) (ini fin : C) {step : K} (hs : 0 < step) (L : K) :
    ∃ ts : List K, (∀ t ∈ ts, step ≤ t ∧ t < L) ∧ (0 :: (ts ++ [L])).IsChain (fun x y => y - x ≤ step) ∧ (ts = [] ↔ L ≤ step) ∧
      ∃ f0, ∀ fuel ≥ f0, initialConfigs at_ ini fin step L fuel = some (ini :: (ts.map at_ ++ [fin])) := by
  obtain ⟨n, h1, h2, h3⟩ := samples_spec at_ hs L step
  refine ⟨(List.range n).map fun k : ℕ => step + k * (step * (99 / 100)), ?_, ?_, ?_, n + 1, ?_⟩
  · intro t ht
    obtain ⟨k, hk, rfl⟩ := List.mem_map.1 ht
    refine ⟨?_, h1 k (List.mem_range.1 hk)⟩
    have : (0 : K) ≤ k * (step * (99 / 100)) := by positivity
    linarith
  · rw [List.isChain_iff_getElem]
    intro i hi
    simp only [List.length_cons, List.length_append, List.length_map, List.length_range, List.length_nil] at hi
    have hget : ∀ j, (hj : j < (0 :: ((List.range n).map (fun k : ℕ => step + (k : K) * (step * (99 / 100))) ++ [L])).length) →
        (0 :: ((List.range n).map (fun k : ℕ => step + (k : K) * (step * (99 / 100))) ++ [L]))[j] = if j = 0 then 0 else if j = n + 1 then L else step + ((j : K) - 1) * (step * (99 / 100)) := by
      intro j hj
      simp only [List.length_cons, List.length_append, List.length_map, List.length_range, List.length_nil] at hj
      cases j with
      | zero => simp
      | succ j =>
        rw [List.getElem_cons_succ, if_neg (by omega)]
        by_cases hjn : j = n
        · subst hjn
          rw [if_pos rfl, List.getElem_append_right (by simp)]
          simp
        · rw [if_neg (by omega), List.getElem_append_left (by simp; omega), List.getElem_map, List.getElem_range]
          push_cast; ring
    rw [hget, hget, if_neg (by omega)]
    by_cases hi0 : i = 0
    · subst hi0
      by_cases hn : 0 + 1 = n + 1
      · rw [if_pos hn, if_pos rfl]
        have : n = 0 := by omega
        subst this
        push_cast at h2; linarith
      · rw [if_neg hn, if_pos rfl]; push_cast; linarith
    · rw [if_neg hi0, if_neg (by omega : ¬ i = n + 1)]
      by_cases hn : i + 1 = n + 1
      · rw [if_pos hn]
        obtain rfl : i = n := by omega
        linarith
      · rw [if_neg hn]; push_cast; linarith
  · rw [List.map_eq_nil_iff, List.range_eq_nil]
    constructor
    · rintro rfl; push_cast at h2; linarith
    · intro hL
      by_contra hn
      have := h1 0 (by omega)
      push_cast at this; linarith
  · intro fuel hf
    unfold initialConfigs
    rw [h3 fuel (by omega), Option.map_some, List.map_map]
    rfl

example : initialConfigs (K := ℚ) id 0 2 1 2 5 = some [0, 1, 199 / 100, 2] := by decide +kernel

/-- A path not longer than `step` is returned as is; so is an interpolated path with two way points, whatever their distance. -/
theorem C95_short (E : GlEnv K C) (G : GlParams K) (A : ℕ → Answers C) (fr fuel : ℕ) (cons : Option (Cst K C)) (cfgs : List C) :
    (cfgs.length = 2 → global E G A fr fuel cons cfgs = .same) ∧ (global E G A fr fuel cons cfgs = .lengthError ↔ cfgs.length < 2) := by
  match cfgs with
  | [] => exact ⟨fun h => (by cases h), by simp [global]⟩
  | [a] => exact ⟨fun h => (by cases h), by simp [global]⟩
  | [a, b] => exact ⟨fun _ => rfl, by simp [global]⟩
  | a :: b :: c :: l =>
    refine ⟨fun h => (by simp at h), ?_⟩
    constructor
    · intro h
      rw [global] at h
      cases hl : globalLoop E G A fr fuel 0 0 ⟨a, ((b :: c :: l).dropLast).map fun q => ⟨q, false, 0⟩, ((b :: c :: l).getLast?.toList).map fun q => ⟨q, true, 0⟩⟩ with
      | none => rw [hl] at h; cases h
      | some st => rw [hl] at h; cases h
    · intro h; simp at h; omega

/-! ## Termination of `reinterpolate` -/

/-- Assumptions: `mid` is the middle, and the triangle inequality. -/
structure MidContract (E : GlEnv K C) : Prop extends GlContract E where
  left : ∀ a b, E.dist a (E.mid a b) = E.dist a b / 2
  right : ∀ a b, E.dist (E.mid a b) b = E.dist a b / 2
  tri : ∀ a b c, E.dist a c ≤ E.dist a b + E.dist b c

/-- A bound on the number of iterations caused by an item. -/
def cost (D l : K) : K := max (5 * (l / D) - 1) (min (5 * (l / D) + 1) (21 / 20))

theorem cost_pos (D l : K) (hD : 0 < D) (h : D / 100 ≤ l) : 1 ≤ cost D l := by
  have h1 : 1 / 100 ≤ l / D := by rw [le_div_iff₀ hD]; linarith
  unfold cost
  exact le_max_of_le_right (le_min (by linarith) (by norm_num))

theorem cost_half (D l : K) (hD : 0 < D) (h : D < l) : 2 * cost D (l / 2) + 1 ≤ cost D l := by
  have h1 : 1 < l / D := by rw [lt_div_iff₀ hD]; linarith
  have e : l / 2 / D = l / D / 2 := by ring
  unfold cost
  rw [e]
  have : cost D l = cost D l := rfl
  have hm : max (5 * (l / D / 2) - 1) (min (5 * (l / D / 2) + 1) (21 / 20)) = 5 * (l / D / 2) - 1 := by
    refine max_eq_left (min_le_of_right_le ?_)
    linarith
  rw [hm]
  refine le_max_of_le_left ?_
  linarith

theorem cost_merge (D x y d : K) (hD : 0 < D) (hx : x < D / 100) (hx0 : 0 ≤ x) (hd : d ≤ x + y) : cost D d + 1 ≤ cost D x + cost D y := by
  have h1 : x / D < 1 / 100 := by rw [div_lt_iff₀ hD]; linarith
  have h0 : 0 ≤ x / D := div_nonneg hx0 hD.le
  have h2 : d / D ≤ x / D + y / D := by rw [← add_div]; exact div_le_div_of_nonneg_right hd hD.le
  have hcx : cost D x = 5 * (x / D) + 1 := by
    unfold cost
    rw [min_eq_left (by linarith), max_eq_right (by linarith)]
  rw [hcx]
  unfold cost
  rcases max_cases (5 * (d / D) - 1) (min (5 * (d / D) + 1) (21 / 20)) with ⟨e, _⟩ | ⟨e, _⟩
  · rw [e]
    have := le_max_left (5 * (y / D) - 1) (min (5 * (y / D) + 1) (21 / 20))
    linarith
  · rw [e]
    have h3 := le_max_right (5 * (y / D) - 1) (min (5 * (y / D) + 1) (21 / 20))
    have h4 := min_le_left (5 * (d / D) + 1) (21 / 20)
    have h5 := min_le_right (5 * (d / D) + 1) (21 / 20)
    rcases min_cases (5 * (y / D) + 1) (21 / 20) with ⟨e2, _⟩ | ⟨e2, _⟩ <;> linarith

theorem cost_nonneg (D x : K) (hD : 0 < D) (hx : 0 ≤ x) : 1 ≤ cost D x := by
  have h0 : 0 ≤ x / D := div_nonneg hx hD.le
  unfold cost
  exact le_max_of_le_right (le_min (by linarith) (by norm_num))

theorem reinterpolate_ends {E : GlEnv K C} (hE : MidContract E) {D : K} (hD : 0 < D) (fuel : ℕ) (prev : C) (front back : List (Item K C)) (n : ℤ) (hex : Exact E prev front)
    (hf : (front.map fun it => cost D it.l).sum < fuel) : ∃ r, reinterpolate E D fuel prev front back n = some r := by
  induction fuel generalizing prev front n with
  | zero =>
    exfalso
    have : 0 ≤ (front.map fun it => cost D it.l).sum := by
      clear hf
      induction front generalizing prev with
      | nil => simp
      | cons it l ih =>
        rw [List.map_cons, List.sum_cons]
        have := cost_nonneg D it.l hD (by rw [hex.1]; exact hE.pos _ _)
        have := ih _ hex.2
        linarith
    push_cast at hf
    linarith
  | succ fuel ih =>
    cases front with
    | nil => exact ⟨_, rfl⟩
    | cons it l =>
      obtain ⟨h1, h2⟩ := hex
      rw [List.map_cons, List.sum_cons] at hf
      push_cast at hf
      have hn : 0 ≤ it.l := by rw [h1]; exact hE.pos _ _
      rw [reinterpolate.eq_def]
      simp only
      by_cases hl : D < it.l
      · rw [if_pos hl]
        refine ih _ _ _ ⟨rfl, rfl, h2⟩ ?_
        simp only [List.map_cons, List.sum_cons]
        rw [hE.left, hE.right, ← h1]
        have := cost_half D it.l hD hl
        linarith
      · rw [if_neg hl]
        by_cases hs : it.l < D / 100
        · rw [if_pos hs]
          cases l with
          | nil => exact ⟨_, rfl⟩
          | cons nx l =>
            obtain ⟨h3, h4⟩ := h2
            refine ih _ _ _ ⟨rfl, h4⟩ ?_
            simp only [List.map_cons, List.sum_cons] at hf ⊢
            have := cost_merge D it.l nx.l (E.dist prev nx.q) hD hs hn (by rw [h1, h3]; exact hE.tri _ _ _)
            linarith
        · rw [if_neg hs]
          obtain ⟨r, hr⟩ := ih it.q l n h2 (by have := cost_pos D it.l hD (not_lt.1 hs); linarith)
          rw [hr]
          exact ⟨_, rfl⟩

theorem Exact.take {E : GlEnv K C} {a : C} {l l' : List (Item K C)} (h : Exact E a (l ++ l')) : Exact E a l := (exact_append.1 h).1

theorem sweep_done {E : GlEnv K C} {A : Answers C} (l : List (Item K C)) (i : ℕ) (prev : C) (pu : Bool) (h : Semi E pu prev l) :
    Exact E prev (sweep E A i prev pu l).done ∧ (sweep E A i prev pu l).done.length + ((sweep E A i prev pu l).rest.getD []).length = l.length ∧
      ((sweep E A i prev pu l).rest ≠ none → pu = true ∨ (sweep E A i prev pu l).done ≠ []) := by
  induction l generalizing i prev pu with
  | nil => exact ⟨trivial, rfl, fun h => absurd rfl h⟩
  | cons it l ih =>
    obtain ⟨h1, h2⟩ := h
    rw [sweep]
    by_cases hb : it.b = true
    · rw [if_pos hb]
      rw [hb] at h2
      obtain ⟨k1, k2, k3⟩ := ih (i + 1) it.q false h2
      refine ⟨?_, by simp only [List.length_cons]; omega, fun _ => Or.inr (by simp)⟩
      cases pu with
      | true => exact ⟨rfl, k1⟩
      | false =>
        rcases h1 with h1 | h1 | h1
        · cases h1
        · rw [hb] at h1; cases h1
        · exact ⟨h1, k1⟩
    · rw [if_neg hb]
      have hb' : it.b = false := by simpa using hb
      rw [hb'] at h2
      by_cases hj : (pu && A.jump i) = true
      · rw [if_pos hj]
        rw [Bool.and_eq_true] at hj
        exact ⟨trivial, by simp, fun _ => Or.inl hj.1⟩
      · rw [if_neg hj]
        obtain ⟨k1, k2, k3⟩ := ih (i + 1) (A.step i it.q).2 true (Semi.any h2)
        exact ⟨⟨rfl, k1⟩, by simp only [List.length_cons]; omega, fun _ => Or.inr (by simp)⟩

theorem step_front {E : GlEnv K C} {A : Answers C} {st : GlSt K C} (h : Semi E false st.first st.front) :
    (projectOneStep E A st).2.first = st.first ∧ Exact E st.first (projectOneStep E A st).2.front ∧ (projectOneStep E A st).2.size = st.size := by
  obtain ⟨k1, k2, k3⟩ := sweep_done (A := A) st.front 0 st.first false h
  unfold projectOneStep
  cases hr : (sweep E A 0 st.first false st.front).rest with
  | some rest =>
    rw [hr] at k2 k3
    simp only [hr]
    refine ⟨trivial, ?_, ?_⟩
    · have hne : (sweep E A 0 st.first false st.front).done ≠ [] := by
        rcases k3 (by simp) with e | e
        · cases e
        · exact e
      rw [← List.dropLast_append_getLast hne] at k1
      exact k1.take
    · unfold GlSt.size
      rcases k3 (by simp) with e | e
      · cases e
      · simp only [Option.getD_some] at k2
        simp only [List.length_dropLast, List.length_append, List.getLast?_eq_some_getLast e, Option.toList_some, List.length_singleton]
        have := List.length_pos_iff.2 e
        omega
  | none =>
    rw [hr] at k2
    simp only [hr]
    refine ⟨trivial, k1, ?_⟩
    unfold GlSt.size
    simp only [Option.getD_none, List.length_nil, add_zero] at k2
    have : ∀ (x : K) (l : List (Item K C)), (setHead x l).length = l.length := by intro x l; cases l <;> rfl
    by_cases hu : (sweep E A 0 st.first false st.front).upd = true
    · rw [if_pos hu]; simp only [this]; omega
    · rw [if_neg hu]; simp only; omega

theorem reinterpolate_front {E : GlEnv K C} {M : K} {fuel : ℕ} {prev : C} {front back : List (Item K C)} {n : ℤ} {front' back' : List (Item K C)} {n' : ℤ}
    (h : reinterpolate E M fuel prev front back n = some (front', back', n')) (hex : Exact E prev front) : Exact E prev front' := by
  induction fuel generalizing prev front n front' n' with
  | zero => cases h
  | succ fuel ih =>
    cases front with
    | nil => rw [reinterpolate] at h; cases h; trivial
    | cons it l =>
      rw [reinterpolate.eq_def] at h
      simp only at h
      by_cases h1 : M < it.l
      · rw [if_pos h1] at h; exact ih h ⟨rfl, rfl, hex.2⟩
      · rw [if_neg h1] at h
        by_cases h2 : it.l < M / 100
        · rw [if_pos h2] at h
          cases l with
          | nil => cases h; trivial
          | cons nx l => exact ih h ⟨rfl, hex.2.2⟩
        · rw [if_neg h2] at h
          cases hr : reinterpolate E M fuel it.q l back n with
          | none => rw [hr] at h; cases h
          | some r =>
            rw [hr] at h
            cases h
            exact ⟨hex.1, ih hr hex.2⟩

/-- C95: a call to `reinterpolate` ends.  The hypothesis on the state holds in the beginning (no configuration is projected) and after each call. -/
theorem C95_reinterpolate_terminates [Archimedean K] {E : GlEnv K C} (hE : MidContract E) {D : K} (hD : 0 < D) (A : Answers C) (st : GlSt K C) (h : Semi E false st.first st.front) :
    ∃ f0, ∀ fr ≥ f0, ∃ front back n, reinterpolate E D fr (projectOneStep E A st).2.first (projectOneStep E A st).2.front (projectOneStep E A st).2.back 0 = some (front, back, n) ∧
      Semi E false (projectOneStep E A st).2.first front := by
  obtain ⟨h1, h2, -⟩ := step_front (A := A) h
  obtain ⟨f0, hf0⟩ := exists_nat_gt (((projectOneStep E A st).2.front.map fun it => cost D it.l).sum)
  refine ⟨f0, fun fr hfr => ?_⟩
  obtain ⟨⟨front, back, n⟩, hr⟩ := reinterpolate_ends hE hD fr st.first (projectOneStep E A st).2.front (projectOneStep E A st).2.back 0 h2
    (lt_of_lt_of_le hf0 (by exact_mod_cast hfr))
  rw [h1]
  refine ⟨front, back, n, hr, ?_⟩
  exact (reinterpolate_front hr h2).semi false

theorem Semi.init {E : GlEnv K C} (a : C) (l : List C) (pu : Bool) : Semi (K := K) E pu a (l.map fun q => ⟨q, false, 0⟩) := by
  induction l generalizing a pu with
  | nil => trivial
  | cons q l ih => exact ⟨Or.inr (Or.inl rfl), ih _ _⟩

/-- C95: once there are `maxCfgNum` configurations, the loop ends within `maxIter + 1` iterations. -/
theorem C95_full_terminates {E : GlEnv K C} (G : GlParams K) (A : ℕ → Answers C) (fr fuel t nbIter : ℕ) (st : GlSt K C) (h : Semi E false st.first st.front) (hs : G.maxNum ≤ st.size)
    (hf : G.maxIter < nbIter + fuel) (hf1 : 0 < fuel) : ∃ st', globalLoop E G A fr fuel t nbIter st = some st' ∧ st'.size = st.size := by
  induction fuel generalizing t nbIter st with
  | zero => omega
  | succ fuel ih =>
    obtain ⟨h1, h2, h3⟩ := step_front (A := A t) h
    rw [globalLoop]
    by_cases hr : (projectOneStep E (A t) st).1 = true
    · simp only; rw [if_pos hr]; exact ⟨_, rfl, h3⟩
    · simp only; rw [if_neg hr, if_neg (by rw [h3]; omega)]
      by_cases hn : G.maxIter < nbIter + 1
      · rw [if_pos hn]; exact ⟨_, rfl, h3⟩
      · rw [if_neg hn]
        obtain ⟨st', e1, e2⟩ := ih (t + 1) (nbIter + 1) _ (by rw [h1]; exact h2.semi false) (by rw [h3]; exact hs) (by omega) (by omega)
        exact ⟨st', e1, by rw [e2, h3]⟩

/-! ## Instances -/

/-- The line, with the usual distance. -/
def line : GlEnv ℚ ℚ := ⟨fun a b => |a - b|, fun a b => (a + b) / 2⟩

theorem line_contract : MidContract line where
  pos a b := abs_nonneg _
  sep a b h := by have := abs_eq_zero.1 h; linarith
  left a b := by show |a - (a + b) / 2| = |a - b| / 2; rw [show a - (a + b) / 2 = (a - b) / 2 by ring, abs_div]; norm_num
  right a b := by show |(a + b) / 2 - b| = |a - b| / 2; rw [show (a + b) / 2 - b = (a - b) / 2 by ring, abs_div]; norm_num
  tri a b c := by
    show |a - c| ≤ |a - b| + |b - c|
    rw [show a - c = (a - b) + (b - c) by ring]
    exact abs_add_le _ _

/-- A solver which divides by two and is satisfied below 3/5. -/
def halving : Answers ℚ := ⟨fun _ q => (decide (q / 2 ≤ 3 / 5), q / 2), fun _ => false⟩

theorem halving_sound : Sound (fun q => q ≤ 3 / 5) halving := fun _ _ h => of_decide_eq_true h

/-- Way points of the result. -/
def GlOut.wps : GlOut K C → Option (Bool × List (K × C))
  | .path ok ip => some (ok, ip.pts)
  | _ => none

/-- An instance of the theorems: the run ends with success and six way points. -/
example : (global line ⟨1 / 2, 10, 100⟩ (fun _ => halving) 50 50 none [0, 1 / 2, 199 / 200, 1]).wps = some (true, [(0, 0), (1 / 4, 1 / 4), (199 / 400, 199 / 400), (1, 1)]) := by
  decide +kernel

/-- Another one, with failure: the second configuration is not projected after two iterations. -/
example : (global line ⟨1 / 2, 1, 100⟩ (fun _ => halving) 50 50 none [0, 1, 8, 9]).wps = some (false, [(0, 0), (1 / 2, 1 / 2), (17 / 32, 15 / 32)]) := by
  decide +kernel

/-! ## Counterexamples -/

/-- The last segment is not checked: for a path of any length, a solver that sends all configurations on the first one makes the projector succeed with a path that goes straight from the first configuration
to the last one. -/
theorem C95_last_counterexample (L : ℚ) (hL : 0 < L) (mids : List ℚ) (hm : mids ≠ []) (step : ℚ) (hs : 0 ≤ step) (maxIter maxNum fr fuel : ℕ) :
    (global line ⟨step, maxIter, maxNum⟩ (fun _ => ⟨fun _ _ => (true, 0), fun _ => false⟩) fr (fuel + 1) none (0 :: (mids ++ [L]))).wps = some (true, [(0, 0), (L, L)]) := by
  have hsw : ∀ (l : List ℚ) (i : ℕ) (pu : Bool), sweep line ⟨fun _ _ => (true, 0), fun _ => false⟩ i 0 pu (l.map fun q => ⟨q, false, 0⟩) = ⟨l.map fun _ => ⟨0, true, 0⟩, none, true, if l = [] then pu else true⟩ := by
    intro l
    induction l with
    | nil => intro i pu; rfl
    | cons q l ih =>
      intro i pu
      rw [List.map_cons, sweep]
      simp only [Bool.and_false, Bool.false_eq_true, if_false, ih]
      cases l <;> simp [line]
  have hlast : ∀ l : List ℚ, lastQ (0 : ℚ) (l.map fun _ => (⟨0, true, 0⟩ : Item ℚ ℚ)) = 0 := by
    intro l
    rcases lastQ_mem (0 : ℚ) (l.map fun _ => (⟨0, true, 0⟩ : Item ℚ ℚ)) with e | ⟨it, hit, e⟩
    · exact e
    · obtain ⟨_, _, rfl⟩ := List.mem_map.1 hit; exact e
  have hscan : ∀ l : List ℚ, scan step (l.map fun _ => (⟨0, true, 0⟩ : Item ℚ ℚ)) = (l.map fun _ => ⟨0, true, 0⟩, true) := by
    intro l
    induction l with
    | nil => rfl
    | cons q l ih => rw [List.map_cons, scan, if_neg (by simpa using hs), ih]
  have hcomp : ∀ (l : List ℚ) (l' : List (Item ℚ ℚ)), comp 0 ((l.map fun _ => (⟨0, true, 0⟩ : Item ℚ ℚ)) ++ l') = comp 0 l' := by
    intro l l'
    induction l with
    | nil => rfl
    | cons q l ih => rw [List.map_cons, List.cons_append, comp, if_pos rfl, ih]
  have hex : ∀ l : List ℚ, Exact line 0 (l.map fun _ => (⟨0, true, 0⟩ : Item ℚ ℚ)) := by
    intro l
    induction l with
    | nil => trivial
    | cons q l ih => exact ⟨by simp [line], ih⟩
  have hstep : projectOneStep line ⟨fun _ _ => (true, 0), fun _ => false⟩ ⟨0, mids.map fun q => ⟨q, false, 0⟩, [⟨L, true, 0⟩]⟩ = (true, ⟨0, mids.map fun _ => ⟨0, true, 0⟩, [⟨L, true, L⟩]⟩) := by
    unfold projectOneStep
    simp only [hsw, if_neg hm, if_true]
    rw [hlast]
    simp [line, lastQ, setHead, abs_of_pos hL]
  have hrun : globalLoop line ⟨step, maxIter, maxNum⟩ (fun _ => ⟨fun _ _ => (true, 0), fun _ => false⟩) fr (fuel + 1) 0 0 ⟨0, mids.map fun q => ⟨q, false, 0⟩, [⟨L, true, 0⟩]⟩ =
      some ⟨0, mids.map fun _ => ⟨0, true, 0⟩, [⟨L, true, L⟩]⟩ := by
    rw [globalLoop]; simp only [hstep]; rfl
  obtain ⟨ok, ip, he⟩ : ∃ ok ip, global line ⟨step, maxIter, maxNum⟩ (fun _ => ⟨fun _ _ => (true, 0), fun _ => false⟩) fr (fuel + 1) none (0 :: (mids ++ [L])) = .path ok ip := by
    cases mids with
    | nil => exact absurd rfl hm
    | cons q l =>
      obtain ⟨q', l', e⟩ : ∃ q' l', l ++ [L] = q' :: l' := by cases l <;> exact ⟨_, _, rfl⟩
      rw [List.cons_append, e, global, ← e, ← List.cons_append, List.dropLast_concat, List.getLast?_concat]
      simp only [Option.toList_some, List.map_cons, List.map_nil]
      simp only [List.map_cons] at hrun
      rw [hrun]
      exact ⟨_, _, rfl⟩
  rw [he]
  obtain ⟨st, h1, h2⟩ := global_path he
  rw [hrun] at h1
  cases h1
  unfold createPath at h2
  simp only [List.dropLast_concat, List.getLast?_concat, hscan, if_true, Option.toList_some] at h2
  cases h2
  show some (true, (build none 0 _).pts) = _
  have hb : Exact line (lastQ (0 : ℚ) (mids.map fun _ => (⟨0, true, 0⟩ : Item ℚ ℚ))) [⟨L, true, L⟩] := ⟨by rw [hlast]; simp [line, abs_of_pos hL], trivial⟩
  rw [(build_pts line_contract.toGlContract none 0 _ (exact_append.2 ⟨hex mids, hb⟩)).1, hcomp]
  simp [comp, hL.ne']

/-- After a discontinuity is detected, lengths that are not up to date are used, up to the last configuration: the projector succeeds with a path that goes straight from the first configuration to the last one in a time which is
not their distance, though all intermediate configurations are projected. -/
theorem C95_jump_counterexample :
    (global line ⟨1, 10, 100⟩ (fun _ => ⟨fun _ q => (true, q), fun i => decide (i = 1)⟩) 50 50 none [0, 1, 199 / 100, 2]).wps = some (true, [(0, 0), (1, 2)]) := by decide +kernel

/-- The loop may not end, though the solver is a function: a configuration is added and removed forever, and adding one resets the number of iterations. -/
def cyclic : Answers ℚ := ⟨fun _ q => (false, if q = 1 / 2 then 3 / 2 else if q = 3 / 2 then 1 / 2 else if q = 3 / 4 then 1 / 200 else q), fun _ => false⟩

theorem cyclic_loop (fuel : ℕ) : (∀ t nb x y, nb ≤ 2 → globalLoop line ⟨1, 10, 100⟩ (fun _ => cyclic) 50 fuel t nb ⟨0, [⟨1 / 2, false, x⟩], [⟨10, true, y⟩]⟩ = none) ∧
    ∀ t x y z, globalLoop line ⟨1, 10, 100⟩ (fun _ => cyclic) 50 fuel t 1 ⟨0, [⟨3 / 4, false, x⟩, ⟨3 / 2, false, y⟩], [⟨10, true, z⟩]⟩ = none := by
  induction fuel with
  | zero => exact ⟨fun _ _ _ _ _ => rfl, fun _ _ _ _ => rfl⟩
  | succ fuel ih =>
    constructor
    · intro t nb x y hnb
      have h1 : projectOneStep line cyclic ⟨0, [⟨1 / 2, false, x⟩], [⟨10, true, y⟩]⟩ = (false, ⟨0, [⟨3 / 2, false, 3 / 2⟩], [⟨10, true, 17 / 2⟩]⟩) := by
        simp only [projectOneStep, sweep, cyclic, line, lastQ, setHead]
        norm_num [abs_of_pos, abs_of_neg]
      have h2 : reinterpolate line 1 50 0 [⟨3 / 2, false, 3 / 2⟩] [⟨10, true, 17 / 2⟩] 0 = some ([⟨3 / 4, false, 3 / 4⟩, ⟨3 / 2, false, 3 / 4⟩], [⟨10, true, 17 / 2⟩], 1) := by decide +kernel
      rw [globalLoop]
      simp only [h1, h2]
      have h3 : GlSt.size (⟨0, [⟨3 / 2, false, 3 / 2⟩], [⟨10, true, 17 / 2⟩]⟩ : GlSt ℚ ℚ) = 3 := rfl
      simp only [h3]
      exact ih.2 _ _ _ _
    · intro t x y z
      have h1 : projectOneStep line cyclic ⟨0, [⟨3 / 4, false, x⟩, ⟨3 / 2, false, y⟩], [⟨10, true, z⟩]⟩ = (false, ⟨0, [⟨1 / 200, false, 1 / 200⟩, ⟨1 / 2, false, 99 / 200⟩], [⟨10, true, 19 / 2⟩]⟩) := by
        simp only [projectOneStep, sweep, cyclic, line, lastQ, setHead]
        norm_num [abs_of_pos, abs_of_neg]
      have h2 : reinterpolate line 1 50 0 [⟨1 / 200, false, 1 / 200⟩, ⟨1 / 2, false, 99 / 200⟩] [⟨10, true, 19 / 2⟩] 0 = some ([⟨1 / 2, false, 1 / 2⟩], [⟨10, true, 19 / 2⟩], -1) := by decide +kernel
      rw [globalLoop]
      simp only [h1, h2]
      have h3 : GlSt.size (⟨0, [⟨1 / 200, false, 1 / 200⟩, ⟨1 / 2, false, 99 / 200⟩], [⟨10, true, 19 / 2⟩]⟩ : GlSt ℚ ℚ) = 4 := rfl
      simp only [h3]
      exact ih.1 _ _ _ _ (by simp)

/-- C95: the loop may not end. -/
theorem C95_termination_counterexample (fuel : ℕ) : global line ⟨1, 10, 100⟩ (fun _ => cyclic) 50 fuel none [0, 1 / 2, 10] = .running := by
  have := (cyclic_loop fuel).1 0 0 0 0 (by omega)
  rw [global]
  simp only [List.dropLast, List.getLast?, List.getLast, Option.toList_some, List.map_cons, List.map_nil]
  rw [this]

end Verif.Proj
