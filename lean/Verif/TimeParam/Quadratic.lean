import Mathlib.Analysis.SpecialFunctions.Sqrt
import Mathlib.Tactic.Linarith
import Mathlib.Tactic.Ring
import Mathlib.Tactic.FieldSimp
import Mathlib.Tactic.Positivity
set_option linter.unusedSectionVars false

/-!
# `reedsShepp::PiecewiseQuadratic` and `RSTimeParameterization` (C53, C76)

Computations on real numbers.
-/
namespace Verif.TimeParam.RS
open Set

/-- Members of `PiecewiseQuadratic`. -/
structure Quad where
  times : List ℝ
  a : List ℝ
  b : List ℝ
  c : List ℝ
  initVel : ℝ

/-- Constructor: piecewise-quadratic.hh:75-77. -/
def create (initVel : ℝ) : Quad := ⟨[0], [], [], [], initVel⟩

/-- Loop of `findInterval`: piecewise-quadratic.cc:47-49, over the times from rank `i` on. -/
noncomputable def findLoop (t : ℝ) : Nat → List ℝ → Option Nat
  | _, [] => none
  | i, x :: l => if t ≤ x then some (i - 1) else findLoop t (i + 1) l

/-- `findInterval`: piecewise-quadratic.cc:43-51. -/
noncomputable def findInterval (q : Quad) (t : ℝ) : Nat :=
  match findLoop (if t < 0 then 0 else t) 1 q.times.tail with
  | some i => i
  | none => q.times.length - 1

/-- `value`: piecewise-quadratic.cc:53-58.  `none`: an access out of the vectors. -/
noncomputable def value (q : Quad) (t : ℝ) : Option ℝ :=
  let i := findInterval q t
  match q.times[i]?, q.a[i]?, q.b[i]?, q.c[i]? with
  | some ti, some a, some b, some c => some (a * (t - ti) * (t - ti) + b * (t - ti) + c)
  | _, _, _, _ => none

/-- `derivative`: piecewise-quadratic.cc:59-73. -/
noncomputable def derivative (q : Quad) (t : ℝ) (order : Nat) : Option ℝ :=
  let i := findInterval q t
  match q.times[i]? with
  | none => some 0
  | some ti =>
    if order = 1 then
      match q.a[i]?, q.b[i]? with
      | some a, some b => some (2 * a * (t - ti) + b)
      | _, _ => none
    else if order = 2 then (q.a[i]?).map fun a => 2 * a
    else some 0

/-- `derivativeBound`: piecewise-quadratic.cc:74-77. -/
noncomputable def derivativeBound (q : Quad) (low up : ℝ) : Option ℝ :=
  match derivative q low 1, derivative q up 1 with
  | some x, some y => some (max |x| |y|)
  | _, _ => none

/-- `definitionInterval ().second`: piecewise-quadratic.cc:39-41. -/
def duration (q : Quad) : ℝ := q.times.getLastD 0

/-- The seven statements that add a segment of coefficients `a`, `b`, `c` and duration `dt`. -/
def push (q : Quad) (a b c dt : ℝ) : Quad :=
  ⟨q.times ++ [duration q + dt], q.a ++ [a], q.b ++ [b], q.c ++ [c], q.initVel⟩

/-- Body of `addSegments`, `v0` is `initVel_`: piecewise-quadratic.cc:79-183. -/
noncomputable def addTo (q : Quad) (v0 distance accel decel maxVel targetVel : ℝ) : Quad :=
  if distance < 1 / 100000000 then q
  else
    let tacc := (maxVel - v0) / accel
    let tdec := (maxVel - targetVel) / decel
    let dacc := 1 / 2 * tacc * (v0 + maxVel)
    let ddec := 1 / 2 * tdec * (targetVel + maxVel)
    if dacc + ddec < distance then
      let remainingDist := distance - dacc + ddec
      let tint := remainingDist / maxVel
      let q1 := push q (1 / 2 * accel) v0 0 tacc
      let x1 := 1 / 2 * accel * tacc * tacc + v0 * tacc + 0
      let v1 := 2 * (1 / 2 * accel) * tacc + v0
      let q2 := push q1 0 v1 x1 tint
      let x2 := 0 * tint * tint + v1 * tint + x1
      let v2 := 2 * 0 * tint + v1
      push q2 (-(1 / 2) * decel) v2 x2 tdec
    else if distance < 1 / 2 * (v0 * v0 - targetVel * targetVel) / decel then
      let decel2 := 1 / 2 * (v0 * v0 - targetVel * targetVel) / distance
      let tdec := (v0 - targetVel) / decel2
      push q (-(1 / 2) * decel2) v0 0 tdec
    else
      let vmax := √((decel * accel) / (decel + accel) * (2 * distance + v0 * v0 / accel + targetVel * targetVel / decel))
      let tacc := (vmax - v0) / accel
      let tdec := (vmax - targetVel) / decel
      let q1 := push q (1 / 2 * accel) v0 0 tacc
      let x1 := 1 / 2 * accel * tacc * tacc + v0 * tacc + 0
      let v1 := 2 * (1 / 2 * accel) * tacc + v0
      push q1 (-(1 / 2) * decel) v1 x1 tdec

/-- `addSegments`: piecewise-quadratic.cc:79-183. -/
noncomputable def addSegments (q : Quad) (distance accel decel maxVel targetVel : ℝ) : Quad :=
  addTo q q.initVel distance accel decel maxVel targetVel

/-! ## Specification -/

/-- A profile that goes from 0 to `d`, with speed `v0` at the start and `v1` at the end, a speed between 0 and `vmax` and an increasing
position in between. -/
structure Profile (q : Quad) (d v0 v1 vmax : ℝ) : Prop where
  nonneg : 0 ≤ duration q
  start : value q 0 = some 0
  stop : value q (duration q) = some d
  vstart : derivative q 0 1 = some v0
  vstop : derivative q (duration q) 1 = some v1
  speed : ∀ t ∈ Icc 0 (duration q), ∃ v, derivative q t 1 = some v ∧ 0 ≤ v ∧ v ≤ vmax
  mono : ∀ t t', 0 ≤ t → t ≤ t' → t' ≤ duration q → ∃ x x', value q t = some x ∧ value q t' = some x' ∧ x ≤ x'

/-! ## Chains of segments -/

/-- A list of knots (position, speed) fits the vectors: each segment starts at a knot and ends at the next one. -/
def Fits : List ℝ → List ℝ → List ℝ → List ℝ → List (ℝ × ℝ) → Prop
  | [_], [], [], [], [_] => True
  | t :: t' :: ts, a :: as, b :: bs, c :: cs, k :: k' :: ks =>
    t ≤ t' ∧ c = k.1 ∧ b = k.2 ∧ k'.1 = a * (t' - t) * (t' - t) + b * (t' - t) + c ∧ k'.2 = 2 * a * (t' - t) + b ∧
      Fits (t' :: ts) as bs cs (k' :: ks)
  | _, _, _, _, _ => False

theorem findLoop_shift (t : ℝ) (l : List ℝ) (i j : Nat) (h : findLoop t (i + 1) l = some j) :
    i ≤ j ∧ ∀ m, findLoop t (m + 1) l = some (j - i + m) := by
  induction l generalizing i with
  | nil => simp [findLoop] at h
  | cons x l ih =>
    simp only [findLoop] at h ⊢
    by_cases hx : t ≤ x
    · rw [if_pos hx] at h
      have := Option.some.inj h
      refine ⟨by omega, fun m => ?_⟩
      rw [if_pos hx]
      congr 1; omega
    · rw [if_neg hx] at h
      obtain ⟨h1, h2⟩ := ih (i + 1) h
      refine ⟨by omega, fun m => ?_⟩
      rw [if_neg hx, h2 (m + 1)]
      congr 1; omega

/-- The segment found for a time in the range. -/
theorem found (times a b c : List ℝ) (ks : List (ℝ × ℝ)) (hF : Fits times a b c ks) (hl : a ≠ []) (t t0 : ℝ) (h0 : times.head? = some t0)
    (ht0 : t0 ≤ t) (hT : t ≤ times.getLastD 0) :
    ∃ (i : Nat) (ti ti' ai bi ci : ℝ) (k k' : ℝ × ℝ), findLoop t 1 times.tail = some i ∧ times[i]? = some ti ∧ times[i + 1]? = some ti' ∧ a[i]? = some ai ∧ b[i]? = some bi ∧
      c[i]? = some ci ∧ ks[i]? = some k ∧ ks[i + 1]? = some k' ∧ ti ≤ t ∧ t ≤ ti' ∧ ci = k.1 ∧ bi = k.2 ∧
      k'.1 = ai * (ti' - ti) * (ti' - ti) + bi * (ti' - ti) + ci ∧ k'.2 = 2 * ai * (ti' - ti) + bi := by
  induction times generalizing a b c ks t0 with
  | nil => simp [Fits] at hF
  | cons x ts ih =>
    match ts, a, b, c, ks, hF, hl with
    | [], [], [], [], [_], _, hl => exact absurd rfl hl
    | x' :: ts, ai :: as, bi :: bs, ci :: cs, k :: k' :: ks, hF, _ =>
      obtain ⟨e1, e2, e3, e4, e5, e6⟩ := hF
      have hx : x = t0 := by simpa using h0
      by_cases h : t ≤ x'
      · refine ⟨0, x, x', ai, bi, ci, k, k', ?_, rfl, rfl, rfl, rfl, rfl, rfl, rfl, by rw [hx]; exact ht0, h, e2, e3, e4, e5⟩
        simp [findLoop, h]
      · have has : as ≠ [] := by
          rintro rfl
          match ts, bs, cs, ks, e6 with
          | [], [], [], [], _ => exact h (by simpa using hT)
        obtain ⟨i, ti, ti', aj, bj, cj, kj, kj', g0, g1, g2, g3, g4, g5, g6, g7, g8⟩ :=
          ih as bs cs (k' :: ks) e6 has x' rfl (not_le.1 h).le (by simpa using hT)
        refine ⟨i + 1, ti, ti', aj, bj, cj, kj, kj', ?_, by simpa using g1, by simpa using g2, by simpa using g3, by simpa using g4,
          by simpa using g5, by simpa using g6, by simpa using g7, g8⟩
        have := (findLoop_shift t ts 0 i g0).2 1
        simp only [List.tail_cons, findLoop]
        rw [if_neg h]
        simpa using this

/-- Along a chain whose knots have speeds in `[0, vmax]`, equal times mean equal knots, and positions increase. -/
theorem knots_mono (times a b c : List ℝ) (ks : List (ℝ × ℝ)) (hF : Fits times a b c ks) (hv : ∀ k ∈ ks, 0 ≤ k.2) (i j : Nat) (hij : i ≤ j)
    (ti tj : ℝ) (ki kj : ℝ × ℝ) (h1 : times[i]? = some ti) (h2 : times[j]? = some tj) (h3 : ks[i]? = some ki) (h4 : ks[j]? = some kj) :
    ti ≤ tj ∧ ki.1 ≤ kj.1 ∧ (ti = tj → ki = kj) := by
  induction times generalizing a b c ks i j ti tj ki kj with
  | nil => simp [Fits] at hF
  | cons x ts ih =>
    match ts, a, b, c, ks, hF with
    | [], [], [], [], [k], _ =>
      have : i = 0 := by
        by_contra hne
        rw [show i = (i - 1) + 1 from by omega] at h1; simp at h1
      have : j = 0 := by
        by_contra hne
        rw [show j = (j - 1) + 1 from by omega] at h2; simp at h2
      subst_vars
      simp_all
    | x' :: ts, ai :: as, bi :: bs, ci :: cs, k :: k' :: ks, hF =>
      obtain ⟨e1, e2, e3, e4, e5, e6⟩ := hF
      have IH := ih as bs cs (k' :: ks) e6 (fun z hz => hv z (List.mem_cons_of_mem _ hz))
      have hk : k.1 ≤ k'.1 ∧ (x = x' → k = k') := by
        have v0 := hv k (by simp)
        have v1 := hv k' (by simp)
        have hd : 0 ≤ x' - x := sub_nonneg.2 e1
        constructor
        · have : k'.1 - k.1 = (x' - x) * ((k.2 + k'.2) / 2) := by rw [e4, e5, e2, e3]; ring
          have h5 : 0 ≤ (x' - x) * ((k.2 + k'.2) / 2) := mul_nonneg hd (by linarith)
          linarith
        · intro e
          have hd0 : x' - x = 0 := by rw [e]; ring
          rw [hd0] at e4 e5
          have p1 : k.1 = k'.1 := by rw [e4, e2]; ring
          have p2 : k.2 = k'.2 := by rw [e5, e3]; ring
          exact Prod.ext p1 p2
      cases i with
      | zero =>
        cases j with
        | zero =>
          have := h1.symm.trans h2
          have h' := h3.symm.trans h4
          rw [Option.some.inj this, Option.some.inj h']
          exact ⟨le_refl _, le_refl _, fun _ => rfl⟩
        | succ j =>
          obtain ⟨m1, m2, m3⟩ := IH 0 j (by omega) x' tj k' kj rfl (by simpa using h2) rfl (by simpa using h4)
          have hx : ti = x := by simpa using h1.symm
          have hki : ki = k := by simpa using h3.symm
          subst hx hki
          refine ⟨le_trans e1 m1, le_trans hk.1 m2, fun e => ?_⟩
          have q1 : ti = x' := le_antisymm e1 (by rw [e]; exact m1)
          rw [hk.2 q1]
          exact m3 (by rw [← q1]; exact e)
      | succ i =>
        cases j with
        | zero => omega
        | succ j => exact IH i j (by omega) ti tj ki kj (by simpa using h1) (by simpa using h2) (by simpa using h3) (by simpa using h4)

theorem fits_length (times a b c : List ℝ) (ks : List (ℝ × ℝ)) (hF : Fits times a b c ks) :
    ks.length = times.length ∧ times.length = a.length + 1 := by
  induction times generalizing a b c ks with
  | nil => simp [Fits] at hF
  | cons x ts ih =>
    match ts, a, b, c, ks, hF with
    | [], [], [], [], [k], _ => simp
    | x' :: ts, ai :: as, bi :: bs, ci :: cs, k :: k' :: ks, hF =>
      have := ih as bs cs (k' :: ks) hF.2.2.2.2.2
      simp only [List.length_cons] at this ⊢
      omega

/-- A chain of segments from knot `(0, v0)` to knot `(d, v1)` with speeds in `[0, vmax]` at the knots is a profile. -/
theorem profile_of_fits (q : Quad) (ks : List (ℝ × ℝ)) (hF : Fits q.times q.a q.b q.c ks) (hne : q.a ≠ []) (h0 : q.times.head? = some 0)
    (d v0 v1 vmax : ℝ) (hs : ks.head? = some (0, v0)) (he : ks.getLast? = some (d, v1)) (hv : ∀ k ∈ ks, 0 ≤ k.2 ∧ k.2 ≤ vmax) :
    Profile q d v0 v1 vmax := by
  obtain ⟨len1, len2⟩ := fits_length _ _ _ _ _ hF
  have h0' : q.times[0]? = some 0 := by rw [← List.head?_eq_getElem?]; exact h0
  have hs' : ks[0]? = some (0, v0) := by rw [← List.head?_eq_getElem?]; exact hs
  have hT : q.times[q.times.length - 1]? = some (duration q) := by
    have hl : q.times.length - 1 < q.times.length := by omega
    unfold duration
    rw [List.getLastD_eq_getLast?, List.getLast?_eq_getElem?, List.getElem?_eq_getElem hl]; rfl
  have he' : ks[q.times.length - 1]? = some (d, v1) := by
    rw [← len1, ← List.getLast?_eq_getElem?]; exact he
  have hmono := knots_mono _ _ _ _ _ hF (fun k hk => (hv k hk).1)
  have hT0 : 0 ≤ duration q := (hmono 0 _ (by omega) _ _ _ _ h0' hT hs' he').1
  -- evaluation at a time of the range
  have ev : ∀ t, 0 ≤ t → t ≤ duration q → ∃ (i : Nat) (ti ti' ai : ℝ) (k k' : ℝ × ℝ), q.times[i]? = some ti ∧ q.times[i + 1]? = some ti' ∧
      ks[i]? = some k ∧ ks[i + 1]? = some k' ∧ ti ≤ t ∧ t ≤ ti' ∧
      k'.1 = ai * (ti' - ti) * (ti' - ti) + k.2 * (ti' - ti) + k.1 ∧ k'.2 = 2 * ai * (ti' - ti) + k.2 ∧
      value q t = some (ai * (t - ti) * (t - ti) + k.2 * (t - ti) + k.1) ∧ derivative q t 1 = some (2 * ai * (t - ti) + k.2) ∧
      0 ≤ 2 * ai * (t - ti) + k.2 ∧ 2 * ai * (t - ti) + k.2 ≤ vmax ∧ findInterval q t = i ∧ q.a[i]? = some ai := by
    intro t t0 tT
    obtain ⟨i, ti, ti', ai, bi, ci, k, k', f0, f1, f2, f3, f4, f5, f6, f7, f8, f9, f10, f11, f12, f13⟩ :=
      found _ _ _ _ _ hF hne t 0 h0 t0 tT
    have hfi : findInterval q t = i := by
      unfold findInterval
      rw [if_neg (not_lt.2 t0), f0]
    rw [f10, f11] at f12
    rw [f11] at f13
    have hk := hv k (List.mem_of_getElem? f6)
    have hk' := hv k' (List.mem_of_getElem? f7)
    have hsp : 0 ≤ 2 * ai * (t - ti) + k.2 ∧ 2 * ai * (t - ti) + k.2 ≤ vmax := by
      have u1 : 0 ≤ t - ti := sub_nonneg.2 f8
      have u2 : t - ti ≤ ti' - ti := by linarith
      rcases le_total 0 ai with ha | ha
      · have w1 : 2 * ai * (t - ti) ≤ 2 * ai * (ti' - ti) := mul_le_mul_of_nonneg_left u2 (by linarith)
        have w0 : 0 ≤ 2 * ai * (t - ti) := mul_nonneg (by linarith) u1
        constructor <;> linarith
      · have w1 : 2 * ai * (ti' - ti) ≤ 2 * ai * (t - ti) := mul_le_mul_of_nonpos_left u2 (by linarith)
        have w0 : 2 * ai * (t - ti) ≤ 0 := mul_nonpos_of_nonpos_of_nonneg (by linarith) u1
        constructor <;> linarith
    refine ⟨i, ti, ti', ai, k, k', f1, f2, f6, f7, f8, f9, f12, f13, ?_, ?_, hsp.1, hsp.2, hfi, f3⟩
    · unfold value; simp only; rw [hfi, f1, f3, f4, f5, f10, f11]
    · unfold derivative; simp only; rw [hfi, f1, f3, f4, f11]; simp
  refine ⟨hT0, ?_, ?_, ?_, ?_, ?_, ?_⟩
  · obtain ⟨i, ti, ti', ai, k, k', g1, g2, g3, g4, g5, g6, g7, g8, g9, _⟩ := ev 0 (le_refl _) hT0
    obtain ⟨m1, m2, m3⟩ := hmono 0 i (by omega) _ _ _ _ h0' g1 hs' g3
    have e : ti = 0 := le_antisymm g5 m1
    have hk := m3 e.symm
    rw [g9, e, ← hk]; simp
  · obtain ⟨i, ti, ti', ai, k, k', g1, g2, g3, g4, g5, g6, g7, g8, g9, _⟩ := ev (duration q) hT0 (le_refl _)
    have hi : i + 1 < q.times.length := (List.getElem?_eq_some_iff.1 g2).1
    obtain ⟨m1, m2, m3⟩ := hmono (i + 1) (q.times.length - 1) (by omega) _ _ _ _ g2 hT g4 he'
    have e : ti' = duration q := le_antisymm m1 g6
    have hk := m3 e
    rw [g9, ← e, ← g7, hk]
  · obtain ⟨i, ti, ti', ai, k, k', g1, g2, g3, g4, g5, g6, g7, g8, _, g10, _⟩ := ev 0 (le_refl _) hT0
    obtain ⟨m1, m2, m3⟩ := hmono 0 i (by omega) _ _ _ _ h0' g1 hs' g3
    have e : ti = 0 := le_antisymm g5 m1
    have hk := m3 e.symm
    rw [g10, e, ← hk]; simp
  · obtain ⟨i, ti, ti', ai, k, k', g1, g2, g3, g4, g5, g6, g7, g8, _, g10, _⟩ := ev (duration q) hT0 (le_refl _)
    have hi : i + 1 < q.times.length := (List.getElem?_eq_some_iff.1 g2).1
    obtain ⟨m1, m2, m3⟩ := hmono (i + 1) (q.times.length - 1) (by omega) _ _ _ _ g2 hT g4 he'
    have e : ti' = duration q := le_antisymm m1 g6
    have hk := m3 e
    rw [g10, ← e, ← g8, hk]
  · intro t ht
    obtain ⟨i, ti, ti', ai, k, k', _, _, _, _, _, _, _, _, _, g10, g11, g12, _⟩ := ev t ht.1 ht.2
    exact ⟨_, g10, g11, g12⟩
  · intro t t' h1 h2 h3
    obtain ⟨i, ti, ti', ai, k, k', g1, g2, g3, g4, g5, g6, g7, g8, g9, g10, g11, g12, gi, ga⟩ := ev t h1 (le_trans h2 h3)
    obtain ⟨j, tj, tj', aj, l, l', p1, p2, p3, p4, p5, p6, p7, p8, p9, p10, p11, p12, pj, pa⟩ := ev t' (le_trans h1 h2) h3
    refine ⟨_, _, g9, p9, ?_⟩
    rcases lt_trichotomy i j with h | h | h
    · have m := hmono (i + 1) j (by omega) _ _ _ _ g2 p1 g4 p3
      have A : ai * (t - ti) * (t - ti) + k.2 * (t - ti) + k.1 ≤ k'.1 := by
        have vk' := (hv k' (List.mem_of_getElem? g4)).1
        have : k'.1 - (ai * (t - ti) * (t - ti) + k.2 * (t - ti) + k.1) =
            (ti' - t) * (((2 * ai * (t - ti) + k.2) + k'.2) / 2) := by rw [g7, g8]; ring
        have w : 0 ≤ (ti' - t) * (((2 * ai * (t - ti) + k.2) + k'.2) / 2) := mul_nonneg (sub_nonneg.2 g6) (by linarith)
        linarith
      have Bq : l.1 ≤ aj * (t' - tj) * (t' - tj) + l.2 * (t' - tj) + l.1 := by
        have vl := (hv l (List.mem_of_getElem? p3)).1
        have : aj * (t' - tj) * (t' - tj) + l.2 * (t' - tj) = (t' - tj) * (((2 * aj * (t' - tj) + l.2) + l.2) / 2) := by ring
        have w : 0 ≤ (t' - tj) * (((2 * aj * (t' - tj) + l.2) + l.2) / 2) := mul_nonneg (sub_nonneg.2 p5) (by linarith)
        linarith
      linarith [m.2.1]
    · subst h
      have e1 : ti = tj := Option.some.inj (g1.symm.trans p1)
      have e2 : k = l := Option.some.inj (g3.symm.trans p3)
      have e3 : ai = aj := Option.some.inj (ga.symm.trans pa)
      subst e1 e2 e3
      have : ai * (t' - ti) * (t' - ti) + k.2 * (t' - ti) + k.1 - (ai * (t - ti) * (t - ti) + k.2 * (t - ti) + k.1) =
          (t' - t) * (((2 * ai * (t - ti) + k.2) + (2 * ai * (t' - ti) + k.2)) / 2) := by ring
      have w : 0 ≤ (t' - t) * (((2 * ai * (t - ti) + k.2) + (2 * ai * (t' - ti) + k.2)) / 2) :=
        mul_nonneg (sub_nonneg.2 h2) (by linarith)
      linarith
    · exfalso
      have m := hmono (j + 1) i (by omega) _ _ _ _ p2 g1 p4 g3
      have e : t = t' := by linarith [m.1]
      rw [e, pj] at gi
      omega
/-! ## The profile made by `addSegments` -/

theorem duration_push (q : Quad) (a b c dt : ℝ) : duration (push q a b c dt) = duration q + dt := by
  simp [duration, push]

/-- What is travelled during the deceleration from `maxVel`: piecewise-quadratic.cc:97-98. -/
noncomputable def ddecOf (decel maxVel targetVel : ℝ) : ℝ := 1 / 2 * ((maxVel - targetVel) / decel) * (targetVel + maxVel)

/-- There is a constant speed segment (condition of line 100). -/
def Cruise (v0 distance accel decel maxVel targetVel : ℝ) : Prop :=
  (maxVel ^ 2 - v0 ^ 2) / (2 * accel) + (maxVel ^ 2 - targetVel ^ 2) / (2 * decel) < distance

open Classical in
/-- C53 (partial): the profile starts at the initial speed, ends at the target speed, does not exceed the maximal speed and increases; it
travels the required distance except when there is a constant speed segment, in which case it travels twice the deceleration distance in
excess.  The target speed is supposed to be reachable on the distance.  Missing: see the counterexamples. -/
theorem C53_profile_partial (v0 distance accel decel maxVel targetVel : ℝ) (ha : 0 < accel) (hd : 0 < decel) (hM : 0 < maxVel)
    (h0 : 0 ≤ v0) (h0M : v0 ≤ maxVel) (h1 : 0 ≤ targetVel) (h1M : targetVel ≤ maxVel) (hD : 1 / 100000000 ≤ distance)
    (hreach : targetVel ^ 2 - v0 ^ 2 ≤ 2 * accel * distance) :
    Profile (addSegments (create v0) distance accel decel maxVel targetVel)
      (if Cruise v0 distance accel decel maxVel targetVel then distance + (maxVel ^ 2 - targetVel ^ 2) / decel else distance)
      v0 targetVel maxVel := by
  have hDp : 0 < distance := lt_of_lt_of_le (by norm_num) hD
  have eacc : 1 / 2 * ((maxVel - v0) / accel) * (v0 + maxVel) = (maxVel ^ 2 - v0 ^ 2) / (2 * accel) := by field_simp; ring
  have edec : 1 / 2 * ((maxVel - targetVel) / decel) * (targetVel + maxVel) = (maxVel ^ 2 - targetVel ^ 2) / (2 * decel) := by
    field_simp; ring
  have ndec : 0 ≤ (maxVel ^ 2 - targetVel ^ 2) / (2 * decel) := by
    apply div_nonneg _ (by linarith)
    nlinarith
  show Profile (addTo (create v0) v0 distance accel decel maxVel targetVel) _ _ _ _
  unfold addTo
  rw [if_neg (not_lt.2 hD)]
  simp only [eacc, edec]
  by_cases hc : Cruise v0 distance accel decel maxVel targetVel
  · rw [if_pos hc]
    unfold Cruise at hc
    rw [if_pos hc]
    have tacc : 0 ≤ (maxVel - v0) / accel := div_nonneg (by linarith) ha.le
    have tdec : 0 ≤ (maxVel - targetVel) / decel := div_nonneg (by linarith) hd.le
    have trem : 0 ≤ (distance - (maxVel ^ 2 - v0 ^ 2) / (2 * accel) + (maxVel ^ 2 - targetVel ^ 2) / (2 * decel)) / maxVel :=
      div_nonneg (by linarith) hM.le
    refine profile_of_fits _ [(0, v0), ((maxVel ^ 2 - v0 ^ 2) / (2 * accel), maxVel),
      (distance + (maxVel ^ 2 - targetVel ^ 2) / (2 * decel), maxVel), (distance + (maxVel ^ 2 - targetVel ^ 2) / decel, targetVel)]
      ?_ (by simp [push]) (by simp [push, create]) _ _ _ _ rfl rfl ?_
    · simp only [push, duration, create, List.getLastD_cons, List.getLastD_nil, List.nil_append, List.cons_append, Fits, and_true]
      refine ⟨by linarith, trivial, trivial, ?_, ?_, by linarith, ?_, ?_, ?_, ?_, by linarith, ?_, ?_, ?_, ?_⟩
      all_goals (try simp only [zero_add, add_sub_cancel_left, sub_zero])
      all_goals (field_simp; try ring)
    · intro k hk
      simp only [List.mem_cons, List.not_mem_nil, or_false] at hk
      rcases hk with rfl | rfl | rfl | rfl
      · exact ⟨h0, h0M⟩
      · exact ⟨hM.le, le_refl _⟩
      · exact ⟨hM.le, le_refl _⟩
      · exact ⟨h1, h1M⟩
  · rw [if_neg hc]
    unfold Cruise at hc
    rw [if_neg hc]
    rw [not_lt] at hc
    have eb : 1 / 2 * (v0 * v0 - targetVel * targetVel) / decel = (v0 ^ 2 - targetVel ^ 2) / (2 * decel) := by field_simp
    simp only [eb]
    by_cases hb : distance < (v0 ^ 2 - targetVel ^ 2) / (2 * decel)
    · rw [if_pos hb]
      have hlt : 0 < v0 ^ 2 - targetVel ^ 2 := by
        have := lt_trans hDp hb
        by_contra hn
        exact absurd this (not_lt.2 (div_nonpos_of_nonpos_of_nonneg (by linarith) (by linarith)))
      have hv : targetVel < v0 := by nlinarith
      have hd2 : 0 < 1 / 2 * (v0 * v0 - targetVel * targetVel) / distance := by
        apply div_pos _ hDp
        nlinarith
      have hne : v0 * v0 - targetVel * targetVel ≠ 0 := by nlinarith
      refine profile_of_fits _ [(0, v0), (distance, targetVel)] ?_ (by simp [push]) (by simp [push, create]) _ _ _ _ rfl rfl ?_
      · simp only [push, duration, create, List.getLastD_cons, List.getLastD_nil, List.nil_append, List.cons_append, Fits, and_true]
        have ht : 0 ≤ (v0 - targetVel) / (1 / 2 * (v0 * v0 - targetVel * targetVel) / distance) := div_nonneg (by linarith) hd2.le
        refine ⟨by linarith, trivial, trivial, ?_, ?_⟩
        · simp only [zero_add, sub_zero]
          field_simp
          ring
        · simp only [zero_add, sub_zero]
          field_simp
          ring
      · intro k hk
        simp only [List.mem_cons, List.not_mem_nil, or_false] at hk
        rcases hk with rfl | rfl
        · exact ⟨h0, h0M⟩
        · exact ⟨h1, h1M⟩
    · rw [if_neg hb]
      rw [not_lt] at hb
      set V := √((decel * accel) / (decel + accel) * (2 * distance + v0 * v0 / accel + targetVel * targetVel / decel)) with hV
      have hV0 : 0 ≤ V := Real.sqrt_nonneg _
      have hVV : V ^ 2 * (decel + accel) = 2 * distance * (decel * accel) + v0 ^ 2 * decel + targetVel ^ 2 * accel := by
        rw [hV, Real.sq_sqrt (by positivity)]
        field_simp
      rw [div_le_iff₀ (by linarith)] at hb
      have hVv0 : v0 ≤ V := by
        apply le_of_sq_le_sq _ hV0
        have : v0 ^ 2 * (decel + accel) ≤ V ^ 2 * (decel + accel) := by rw [hVV]; nlinarith
        exact le_of_mul_le_mul_right this (by linarith)
      have hVv1 : targetVel ≤ V := by
        apply le_of_sq_le_sq _ hV0
        have : targetVel ^ 2 * (decel + accel) ≤ V ^ 2 * (decel + accel) := by rw [hVV]; nlinarith
        exact le_of_mul_le_mul_right this (by linarith)
      have hVM : V ≤ maxVel := by
        apply le_of_sq_le_sq _ hM.le
        have h2 : distance * (2 * accel * decel) ≤ (maxVel ^ 2 - v0 ^ 2) * decel + (maxVel ^ 2 - targetVel ^ 2) * accel := by
          have := mul_le_mul_of_nonneg_right hc (show 0 ≤ 2 * accel * decel by positivity)
          have e : ((maxVel ^ 2 - v0 ^ 2) / (2 * accel) + (maxVel ^ 2 - targetVel ^ 2) / (2 * decel)) * (2 * accel * decel) =
              (maxVel ^ 2 - v0 ^ 2) * decel + (maxVel ^ 2 - targetVel ^ 2) * accel := by field_simp
          linarith
        have : V ^ 2 * (decel + accel) ≤ maxVel ^ 2 * (decel + accel) := by rw [hVV]; nlinarith
        exact le_of_mul_le_mul_right this (by linarith)
      have tacc : 0 ≤ (V - v0) / accel := div_nonneg (by linarith) ha.le
      have tdec : 0 ≤ (V - targetVel) / decel := div_nonneg (by linarith) hd.le
      refine profile_of_fits _ [(0, v0), ((V ^ 2 - v0 ^ 2) / (2 * accel), V), (distance, targetVel)] ?_ (by simp [push]) (by simp [push, create])
        _ _ _ _ rfl rfl ?_
      · simp only [push, duration, create, List.getLastD_cons, List.getLastD_nil, List.nil_append, List.cons_append, Fits, and_true]
        have hdist : distance = (V ^ 2 - v0 ^ 2) / (2 * accel) + (V ^ 2 - targetVel ^ 2) / (2 * decel) := by
          field_simp
          linarith
        refine ⟨by linarith, trivial, trivial, ?_, ?_, by linarith, ?_, ?_, ?_, ?_⟩
        all_goals (try simp only [zero_add, add_sub_cancel_left, sub_zero])
        · field_simp; ring
        · field_simp; ring
        · field_simp; ring
        · field_simp; ring
        · rw [hdist]; field_simp; ring
        · field_simp; ring
      · intro k hk
        simp only [List.mem_cons, List.not_mem_nil, or_false] at hk
        rcases hk with rfl | rfl | rfl
        · exact ⟨h0, h0M⟩
        · exact ⟨hV0, hVM⟩
        · exact ⟨h1, h1M⟩

/-- C53: with a constant speed segment the profile travels too far: 3 instead of 2 (acceleration, deceleration and maximal speed 1, at rest at
both ends). -/
theorem C53_distance_counterexample :
    value (addSegments (create 0) 2 1 1 1 0) (duration (addSegments (create 0) 2 1 1 1 0)) = some 3 := by
  have h := (C53_profile_partial 0 2 1 1 1 0 one_pos one_pos one_pos (le_refl _) zero_le_one (le_refl _) zero_le_one (by norm_num)
    (by norm_num)).stop
  rw [if_pos (by unfold Cruise; norm_num)] at h
  rw [h]; norm_num

theorem sqrt_eq_of (x y : ℝ) (hy : 0 ≤ y) (h : x = y ^ 2) : √x = y := by rw [h, Real.sqrt_sq hy]

theorem add_ex2 : addSegments (create 0) (7 / 50) 1 1 1 1 = ⟨[0, 4 / 5, 3 / 5], [1 / 2, -(1 / 2)], [0, 4 / 5], [0, 8 / 25], 0⟩ := by
  show addTo (create 0) 0 (7 / 50) 1 1 1 1 = _
  unfold addTo
  rw [if_neg (by norm_num)]
  simp only
  rw [if_neg (by norm_num), if_neg (by norm_num), sqrt_eq_of _ (4 / 5) (by norm_num) (by norm_num)]
  norm_num [push, duration, create]

/-- C53: when the distance is too short to reach the target speed, the second segment has a negative duration: the profile lasts 3/5, at the
end of which the position is 0.18 instead of 0.14 and the speed 0.6 instead of 1. -/
theorem C53_unreachable_counterexample :
    duration (addSegments (create 0) (7 / 50) 1 1 1 1) = 3 / 5 ∧
    (addSegments (create 0) (7 / 50) 1 1 1 1).times = [0, 4 / 5, 3 / 5] ∧
    value (addSegments (create 0) (7 / 50) 1 1 1 1) (3 / 5) = some (9 / 50) ∧
    derivative (addSegments (create 0) (7 / 50) 1 1 1 1) (3 / 5) 1 = some (3 / 5) := by
  rw [add_ex2]
  have hf : findInterval ⟨[0, 4 / 5, 3 / 5], [1 / 2, -(1 / 2)], [0, 4 / 5], [0, 8 / 25], 0⟩ (3 / 5) = 0 := by
    unfold findInterval
    rw [if_neg (by norm_num)]
    simp only [List.tail_cons, findLoop]
    rw [if_pos (by norm_num)]
  refine ⟨by simp [duration], rfl, ?_, ?_⟩
  · unfold value; rw [hf]; norm_num
  · unfold derivative; rw [hf]; norm_num

theorem add_ex3 : addSegments (create 0) 1 1 1 10 0 = ⟨[0, 1, 2], [1 / 2, -(1 / 2)], [0, 1], [0, 1 / 2], 0⟩ := by
  show addTo (create 0) 0 1 1 1 10 0 = _
  unfold addTo
  rw [if_neg (by norm_num)]
  simp only
  rw [if_neg (by norm_num), if_neg (by norm_num), sqrt_eq_of _ 1 (by norm_num) (by norm_num)]
  norm_num [push, duration, create]

/-- C53: the value returned by `derivativeBound` is that of the ends: 0 on a profile from rest to rest whose speed reaches 1. -/
theorem C53_bound_counterexample :
    derivativeBound (addSegments (create 0) 1 1 1 10 0) 0 2 = some 0 ∧ derivative (addSegments (create 0) 1 1 1 10 0) 1 1 = some 1 := by
  rw [add_ex3]
  have f0 : findInterval ⟨[0, 1, 2], [1 / 2, -(1 / 2)], [0, 1], [0, 1 / 2], 0⟩ 0 = 0 := by
    unfold findInterval; norm_num [findLoop]
  have f1 : findInterval ⟨[0, 1, 2], [1 / 2, -(1 / 2)], [0, 1], [0, 1 / 2], 0⟩ 1 = 0 := by
    unfold findInterval; norm_num [findLoop]
  have f2 : findInterval ⟨[0, 1, 2], [1 / 2, -(1 / 2)], [0, 1], [0, 1 / 2], 0⟩ 2 = 1 := by
    unfold findInterval; norm_num [findLoop]
  constructor
  · unfold derivativeBound derivative; rw [f0, f2]; norm_num
  · unfold derivative; rw [f1]; norm_num

/-- C53: `addSegments` on a distance below 1e-8 adds nothing, and the profile has no value. -/
theorem C53_tiny_counterexample (v0 distance accel decel maxVel targetVel t : ℝ) (h : distance < 1 / 100000000) :
    value (addSegments (create v0) distance accel decel maxVel targetVel) t = none := by
  have : addSegments (create v0) distance accel decel maxVel targetVel = create v0 := by
    unfold addSegments addTo; rw [if_pos h]
  rw [this]
  simp [value, create, findInterval, findLoop]

theorem findLoop_between (l : List ℝ) (i : Nat) (x y t : ℝ) (h1 : x ≤ t) (h2 : t ≤ y) (h : findLoop x i l = findLoop y i l) :
    findLoop t i l = findLoop x i l := by
  have lower : ∀ (l : List ℝ) (i j : Nat) (s : ℝ), findLoop s (i + 1) l = some j → i ≤ j := fun l i j s h => (findLoop_shift s l i j h).1
  induction l generalizing i with
  | nil => rfl
  | cons z l ih =>
    simp only [findLoop] at h ⊢
    by_cases hx : x ≤ z
    · by_cases hy : y ≤ z
      · rw [if_pos hx, if_pos (le_trans h2 hy)]
      · rw [if_pos hx, if_neg hy] at h
        cases i with
        | zero =>
          cases hf : findLoop y (0 + 1) l with
          | none => rw [hf] at h; cases h
          | some j =>
            -- the ranks start at 1 in the code; rank 0 is treated for the induction
            by_cases ht : t ≤ z
            · rw [if_pos ht, if_pos hx]
            · rw [if_neg ht, if_pos hx, h]
              have hxl : ∀ (l : List ℝ) (s : ℝ), s ≤ y → findLoop y 1 l = some 0 → findLoop s 1 l = some 0 := by
                intro l s hs hl
                cases l with
                | nil => simp [findLoop] at hl
                | cons w l =>
                  simp only [findLoop] at hl ⊢
                  by_cases hw : y ≤ w
                  · rw [if_pos (le_trans hs hw)]
                  · rw [if_neg hw] at hl
                    have := lower l 1 0 y hl
                    omega
              have h0 : findLoop y 1 l = some 0 := by simpa using h.symm
              have := hxl l t h2 h0
              rw [show (0 : Nat) + 1 = 1 from rfl, this, h0]
        | succ i =>
          have := lower l (i + 1) (i + 1 - 1 + 0) y (by simpa using h.symm)
          omega
    · rw [if_neg hx] at h ⊢
      have hy : ¬ y ≤ z := fun hy => hx (le_trans (le_trans h1 h2) hy)
      rw [if_neg hy] at h
      by_cases ht : t ≤ z
      · exact absurd (le_trans h1 ht) hx
      · rw [if_neg ht]
        exact ih (i + 1) h

theorem findLoop_lt (t : ℝ) (l : List ℝ) (i j : Nat) (h : findLoop t (i + 1) l = some j) : j < i + l.length := by
  induction l generalizing i with
  | nil => simp [findLoop] at h
  | cons x l ih =>
    simp only [findLoop] at h
    split at h
    · have := Option.some.inj h
      simp only [List.length_cons]; omega
    · have := ih (i + 1) h
      simp only [List.length_cons]; omega

/-- C53 (partial): `derivativeBound` is a bound when both ends are on the same segment. -/
theorem C53_bound_partial (q : Quad) (low up t B v : ℝ) (h0 : 0 ≤ low) (h1 : low ≤ t) (h2 : t ≤ up)
    (hs : findInterval q low = findInterval q up) (hB : derivativeBound q low up = some B) (hv : derivative q t 1 = some v) : |v| ≤ B := by
  have hf : findLoop low 1 q.times.tail = findLoop up 1 q.times.tail := by
    have hs' := hs
    unfold findInterval at hs'
    rw [if_neg (not_lt.2 h0), if_neg (not_lt.2 (le_trans h0 (le_trans h1 h2)))] at hs'
    have hlen : q.times.tail.length = q.times.length - 1 := by simp
    cases e1 : findLoop low 1 q.times.tail <;> cases e2 : findLoop up 1 q.times.tail <;> rw [e1, e2] at hs' <;> simp only at hs'
    · have := findLoop_lt _ _ _ _ e2; omega
    · have := findLoop_lt _ _ _ _ e1; omega
    · rw [hs']
  have ht : findInterval q t = findInterval q low := by
    unfold findInterval
    rw [if_neg (not_lt.2 (le_trans h0 h1)), if_neg (not_lt.2 h0), findLoop_between _ 1 low up t h1 h2 hf]
  unfold derivativeBound derivative at hB
  unfold derivative at hv
  rw [ht] at hv
  rw [← hs] at hB
  cases hti : q.times[findInterval q low]? with
  | none =>
    simp only [hti] at hv hB
    rw [← Option.some.inj hv, ← Option.some.inj hB]; simp
  | some ti =>
    simp only [hti, if_true] at hv hB
    cases ha : q.a[findInterval q low]? with
    | none => simp [ha] at hv
    | some a =>
      cases hb : q.b[findInterval q low]? with
      | none => simp [ha, hb] at hv
      | some b =>
        simp only [ha, hb] at hv hB
        rw [← Option.some.inj hv, ← Option.some.inj hB]
        rcases le_total 0 a with hp | hp
        · have e1 : 2 * a * (low - ti) ≤ 2 * a * (t - ti) := mul_le_mul_of_nonneg_left (by linarith) (by linarith)
          have e2 : 2 * a * (t - ti) ≤ 2 * a * (up - ti) := mul_le_mul_of_nonneg_left (by linarith) (by linarith)
          rw [abs_le]
          constructor
          · linarith [neg_abs_le (2 * a * (low - ti) + b), le_max_left |2 * a * (low - ti) + b| |2 * a * (up - ti) + b|]
          · linarith [le_abs_self (2 * a * (up - ti) + b), le_max_right |2 * a * (low - ti) + b| |2 * a * (up - ti) + b|]
        · have e1 : 2 * a * (t - ti) ≤ 2 * a * (low - ti) := mul_le_mul_of_nonpos_left (by linarith) (by linarith)
          have e2 : 2 * a * (up - ti) ≤ 2 * a * (t - ti) := mul_le_mul_of_nonpos_left (by linarith) (by linarith)
          rw [abs_le]
          constructor
          · linarith [neg_abs_le (2 * a * (up - ti) + b), le_max_right |2 * a * (low - ti) + b| |2 * a * (up - ti) + b|]
          · linarith [le_abs_self (2 * a * (low - ti) + b), le_max_left |2 * a * (low - ti) + b| |2 * a * (up - ti) + b|]

/-! ## `RSTimeParameterization` -/

/-- A segment of the flattened path: length, curvature, and whether its final direction is that of the start of the next segment
(rs-time-parameterization.cc:93-98). -/
structure RPiece where
  len : ℝ
  curvature : ℝ
  same : Bool

/-- Parameters: rs-time-parameterization.cc:48-68; `eps` of line 72. -/
structure RCfg where
  minV : ℝ
  maxV : ℝ
  maxW : ℝ
  acc : ℝ
  dec : ℝ
  eps : ℝ

/-- A segment of the result. -/
structure ROut where
  src : RPiece
  v0 : ℝ
  v1 : ℝ
  maxVel : ℝ
  acc : ℝ
  dec : ℝ
  param : Quad

/-- One segment: rs-time-parameterization.cc:86-126. -/
noncomputable def rsPiece (c : RCfg) (v0 : ℝ) (p : RPiece) (last : Bool) : ROut :=
  let targetVel := if last = false ∧ p.same = true then c.minV else 0
  if p.curvature * c.maxV < c.maxW then
    ⟨p, v0, targetVel, c.maxV, c.acc, c.dec, addSegments (create v0) p.len c.acc c.dec c.maxV targetVel⟩
  else
    let m := c.maxW / p.curvature
    ⟨p, v0, targetVel, m, c.acc * m / c.maxV, c.dec * m / c.maxV,
      addSegments (create v0) p.len (c.acc * m / c.maxV) (c.dec * m / c.maxV) m targetVel⟩

/-- The loop: rs-time-parameterization.cc:85-130. -/
noncomputable def rsLoop (c : RCfg) : ℝ → List RPiece → List ROut
  | _, [] => []
  | v, p :: l => if c.eps < p.len then rsPiece c v p l.isEmpty :: rsLoop c c.minV l else rsLoop c v l

/-- `optimize`: rs-time-parameterization.cc:46-132. -/
noncomputable def rsOptimize (c : RCfg) (path : List RPiece) : List ROut := rsLoop c 0 path

/-- Positive parameters; the threshold on lengths is above that of `addSegments`. -/
structure RCfgOk (c : RCfg) : Prop where
  minV : 0 ≤ c.minV
  maxV : 0 < c.maxV
  maxW : 0 < c.maxW
  acc : 0 < c.acc
  dec : 0 < c.dec
  eps : 1 / 100000000 ≤ c.eps

theorem rsPiece_src (c : RCfg) (v : ℝ) (p : RPiece) (b : Bool) : (rsPiece c v p b).src = p ∧ (rsPiece c v p b).v0 = v ∧
    (rsPiece c v p b).v1 = (if b = false ∧ p.same = true then c.minV else 0) ∧
    (rsPiece c v p b).param = addSegments (create v) p.len (rsPiece c v p b).acc (rsPiece c v p b).dec (rsPiece c v p b).maxVel (rsPiece c v p b).v1 := by
  unfold rsPiece
  simp only
  split <;> exact ⟨rfl, rfl, rfl, rfl⟩

theorem rsPiece_limits (c : RCfg) (hc : RCfgOk c) (v : ℝ) (p : RPiece) (hp : 0 ≤ p.curvature) (b : Bool) :
    0 < (rsPiece c v p b).maxVel ∧ (rsPiece c v p b).maxVel ≤ c.maxV ∧ p.curvature * (rsPiece c v p b).maxVel ≤ c.maxW ∧
    0 < (rsPiece c v p b).acc ∧ (rsPiece c v p b).acc ≤ c.acc ∧ 0 < (rsPiece c v p b).dec ∧ (rsPiece c v p b).dec ≤ c.dec := by
  unfold rsPiece
  simp only
  have := hc.maxV
  have := hc.maxW
  have := hc.acc
  have := hc.dec
  split
  · rename_i h
    exact ⟨hc.maxV, le_refl _, h.le, hc.acc, le_refl _, hc.dec, le_refl _⟩
  · rename_i h
    rw [not_lt] at h
    have hk : 0 < p.curvature := by
      rcases lt_or_eq_of_le hp with hk | hk
      · exact hk
      · rw [← hk, zero_mul] at h; linarith
    have hm : c.maxW / p.curvature ≤ c.maxV := by rw [div_le_iff₀ hk]; linarith
    have hm0 : 0 < c.maxW / p.curvature := div_pos hc.maxW hk
    refine ⟨hm0, hm, ?_, by simp only; positivity, ?_, by simp only; positivity, ?_⟩
    · simp only; rw [mul_div_cancel₀ _ hk.ne']
    · simp only
      rw [div_le_iff₀ hc.maxV]
      exact mul_le_mul_of_nonneg_left hm hc.acc.le
    · simp only
      rw [div_le_iff₀ hc.maxV]
      exact mul_le_mul_of_nonneg_left hm hc.dec.le

/-- A segment of the result follows a good profile. -/
structure ROutOk (c : RCfg) (o : ROut) : Prop where
  /-- speed limits of the robot -/
  lin : o.maxVel ≤ c.maxV
  ang : o.src.curvature * o.maxVel ≤ c.maxW
  /-- when the limit is not below the crossing speed and the final speed can be reached: -/
  profile : c.minV ≤ o.maxVel → o.v1 ^ 2 - o.v0 ^ 2 ≤ 2 * o.acc * o.src.len → ∃ d, o.src.len ≤ d ∧ Profile o.param d o.v0 o.v1 o.maxVel ∧
    (¬ Cruise o.v0 o.src.len o.acc o.dec o.maxVel o.v1 → d = o.src.len)

/-- Speeds at the junctions: the first one starts at rest (speed `v`), others at the crossing speed; a segment ends at the crossing speed if
the next one goes in the same direction, at rest otherwise. -/
def Junctions (minV : ℝ) : ℝ → List ROut → Prop
  | _, [] => True
  | v, o :: l => o.v0 = v ∧ (o.v1 = minV ∨ o.v1 = 0) ∧ (o.src.same = false → o.v1 = 0) ∧ Junctions minV minV l

theorem rsLoop_spec (c : RCfg) (hc : RCfgOk c) (path : List RPiece) (hp : ∀ p ∈ path, 0 ≤ p.curvature) (v : ℝ) (hv : v = 0 ∨ v = c.minV) :
    (rsLoop c v path).map (·.src) = path.filter (fun p => decide (c.eps < p.len)) ∧ Junctions c.minV v (rsLoop c v path) ∧
    (∀ o ∈ rsLoop c v path, ROutOk c o) := by
  induction path generalizing v with
  | nil => simp [rsLoop, Junctions]
  | cons p l ih =>
    have hl := fun q hq => hp q (List.mem_cons_of_mem _ hq)
    rw [rsLoop]
    by_cases h : c.eps < p.len
    · rw [if_pos h]
      obtain ⟨i1, i2, i3⟩ := ih hl c.minV (Or.inr rfl)
      obtain ⟨s1, s2, s3, s4⟩ := rsPiece_src c v p l.isEmpty
      obtain ⟨l0, l1, l2, l3, l4, l5, l6⟩ := rsPiece_limits c hc v p (hp p (by simp)) l.isEmpty
      refine ⟨?_, ⟨s2, ?_, ?_, i2⟩, ?_⟩
      · simp only [List.map_cons, s1, i1]
        rw [List.filter_cons_of_pos (by simpa using h)]
      · rw [s3]; split
        · exact Or.inl rfl
        · exact Or.inr rfl
      · intro hs
        rw [s1] at hs
        rw [s3, if_neg (by simp [hs])]
      · intro o ho
        rcases List.mem_cons.1 ho with rfl | ho
        · refine ⟨l1, by rw [s1]; exact l2, fun hm hr => ?_⟩
          rw [s1] at hr ⊢
          have hv1 : 0 ≤ (rsPiece c v p l.isEmpty).v1 ∧ (rsPiece c v p l.isEmpty).v1 ≤ (rsPiece c v p l.isEmpty).maxVel := by
            rw [s3]; split
            · exact ⟨hc.minV, hm⟩
            · exact ⟨le_refl _, l0.le⟩
          have hv0 : 0 ≤ v ∧ v ≤ (rsPiece c v p l.isEmpty).maxVel := by
            rcases hv with e | e
            · exact ⟨e.ge, e.le.trans l0.le⟩
            · exact ⟨by rw [e]; exact hc.minV, e.le.trans hm⟩
          rw [s2] at hr ⊢
          have P := C53_profile_partial v p.len _ _ _ _ l3 l5 l0 hv0.1 hv0.2 hv1.1 hv1.2 (le_trans hc.eps h.le) hr
          rw [← s4] at P
          by_cases hcr : Cruise v p.len (rsPiece c v p l.isEmpty).acc (rsPiece c v p l.isEmpty).dec (rsPiece c v p l.isEmpty).maxVel
            (rsPiece c v p l.isEmpty).v1
          · rw [if_pos hcr] at P
            refine ⟨_, ?_, P, fun hn => absurd hcr hn⟩
            have : 0 ≤ ((rsPiece c v p l.isEmpty).maxVel ^ 2 - (rsPiece c v p l.isEmpty).v1 ^ 2) / (rsPiece c v p l.isEmpty).dec :=
              div_nonneg (by nlinarith [hv1.1, hv1.2]) l5.le
            linarith
          · rw [if_neg hcr] at P
            exact ⟨_, le_refl _, P, fun _ => rfl⟩
        · exact i3 o ho
    · rw [if_neg h]
      obtain ⟨i1, i2, i3⟩ := ih hl v hv
      refine ⟨?_, i2, i3⟩
      rw [i1, List.filter_cons_of_neg (by simpa using h)]

/-- C76 (partial): the result is made of the segments of the input longer than the threshold, in order; each has a profile whose speed is
within the limits of linear and angular speed; the first one starts at rest, and consecutive segments in the same direction agree on the speed
at their junction.  Missing: junctions where the direction changes, distance travelled when there is a constant speed segment (see the
counterexamples). -/
theorem C76_rs_partial (c : RCfg) (hc : RCfgOk c) (path : List RPiece) (hp : ∀ p ∈ path, 0 ≤ p.curvature) :
    (rsOptimize c path).map (·.src) = path.filter (fun p => decide (c.eps < p.len)) ∧ Junctions c.minV 0 (rsOptimize c path) ∧
    (∀ o ∈ rsOptimize c path, ROutOk c o) :=
  rsLoop_spec c hc path hp 0 (Or.inl rfl)

/-- C76: the last segment of the path, if it is kept, ends at rest. -/
theorem C76_last (c : RCfg) (path : List RPiece) (p : RPiece) (h : c.eps < p.len) (v : ℝ) :
    ∃ o, (rsLoop c v (path ++ [p])).getLast? = some o ∧ o.src = p ∧ o.v1 = 0 := by
  induction path generalizing v with
  | nil =>
    refine ⟨rsPiece c v p true, ?_, (rsPiece_src c v p true).1, ?_⟩
    · simp [rsLoop, h]
    · rw [(rsPiece_src c v p true).2.2.1]; simp
  | cons q l ih =>
    rw [List.cons_append, rsLoop]
    split
    · obtain ⟨o, h1, h2⟩ := ih c.minV
      refine ⟨o, ?_, h2⟩
      rw [List.getLast?_cons, h1]; rfl
    · exact ih v

noncomputable def cfgEx : RCfg := ⟨1 / 10, 10, 1, 1, 1, 2 / 100000000⟩

theorem cfgEx_ok : RCfgOk cfgEx := ⟨by norm_num [cfgEx], by norm_num [cfgEx], by norm_num [cfgEx], by norm_num [cfgEx], by norm_num [cfgEx], by norm_num [cfgEx]⟩

/-- C76: at a change of direction the speed jumps from 0 to the crossing speed. -/
theorem C76_cusp_counterexample :
    ∃ o o', rsOptimize cfgEx [⟨1, 0, false⟩, ⟨1, 0, false⟩] = [o, o'] ∧
      derivative o.param (duration o.param) 1 = some 0 ∧ derivative o'.param 0 1 = some (1 / 10) := by
  have e : rsOptimize cfgEx [⟨1, 0, false⟩, ⟨1, 0, false⟩] = [rsPiece cfgEx 0 ⟨1, 0, false⟩ false, rsPiece cfgEx (1 / 10) ⟨1, 0, false⟩ true] := by
    unfold rsOptimize
    rw [rsLoop, if_pos (by norm_num [cfgEx]), rsLoop, if_pos (by norm_num [cfgEx])]
    rfl
  have hJ := C76_rs_partial cfgEx cfgEx_ok [⟨1, 0, false⟩, ⟨1, 0, false⟩] (by intro p hp; simp at hp; rw [hp])
  rw [e] at hJ
  refine ⟨_, _, e, ?_, ?_⟩
  · have h := (hJ.2.2 (rsPiece cfgEx 0 ⟨1, 0, false⟩ false) (by simp)).profile
    have m : (rsPiece cfgEx 0 ⟨1, 0, false⟩ false).maxVel = 10 ∧ (rsPiece cfgEx 0 ⟨1, 0, false⟩ false).v1 = 0 ∧
      (rsPiece cfgEx 0 ⟨1, 0, false⟩ false).v0 = 0 ∧ (rsPiece cfgEx 0 ⟨1, 0, false⟩ false).acc = 1 ∧ (rsPiece cfgEx 0 ⟨1, 0, false⟩ false).src.len = 1 := by
      unfold rsPiece; rw [if_pos (by norm_num [cfgEx])]; norm_num [cfgEx]
    obtain ⟨m1, m2, m3, m4, m5⟩ := m
    obtain ⟨d, _, P, _⟩ := h (by rw [m1]; norm_num [cfgEx]) (by rw [m2, m3, m4, m5]; norm_num)
    rw [P.vstop, m2]
  · have h := (hJ.2.2 (rsPiece cfgEx (1 / 10) ⟨1, 0, false⟩ true) (by simp)).profile
    have m : (rsPiece cfgEx (1 / 10) ⟨1, 0, false⟩ true).maxVel = 10 ∧ (rsPiece cfgEx (1 / 10) ⟨1, 0, false⟩ true).v1 = 0 ∧
      (rsPiece cfgEx (1 / 10) ⟨1, 0, false⟩ true).v0 = 1 / 10 ∧ (rsPiece cfgEx (1 / 10) ⟨1, 0, false⟩ true).acc = 1 ∧
      (rsPiece cfgEx (1 / 10) ⟨1, 0, false⟩ true).src.len = 1 := by
      unfold rsPiece; rw [if_pos (by norm_num [cfgEx])]; norm_num [cfgEx]
    obtain ⟨m1, m2, m3, m4, m5⟩ := m
    obtain ⟨d, _, P, _⟩ := h (by rw [m1]; norm_num [cfgEx]) (by rw [m2, m3, m4, m5]; norm_num)
    rw [P.vstart, m3]

/-- The hypotheses of `C53_bound_partial` on the profile of `add_ex3`, from 0 to 1. -/
example : ∃ B, derivativeBound (addSegments (create 0) 1 1 1 10 0) 0 1 = some B ∧
    findInterval (addSegments (create 0) 1 1 1 10 0) 0 = findInterval (addSegments (create 0) 1 1 1 10 0) 1 := by
  rw [add_ex3]
  have f0 : findInterval ⟨[0, 1, 2], [1 / 2, -(1 / 2)], [0, 1], [0, 1 / 2], 0⟩ 0 = 0 := by
    unfold findInterval; norm_num [findLoop]
  have f1 : findInterval ⟨[0, 1, 2], [1 / 2, -(1 / 2)], [0, 1], [0, 1 / 2], 0⟩ 1 = 0 := by
    unfold findInterval; norm_num [findLoop]
  refine ⟨1, ?_, by rw [f0, f1]⟩
  unfold derivativeBound derivative; rw [f0, f1]; norm_num

end Verif.TimeParam.RS
