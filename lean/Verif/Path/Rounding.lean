import Mathlib.Algebra.Order.Floor.Ring
import Mathlib.Data.Int.Log
import Mathlib.Data.Rat.Floor
import Mathlib.Tactic.Linarith
import Mathlib.Tactic.FieldSimp
import Mathlib.Tactic.Ring
import Mathlib.Tactic.Positivity
import Mathlib.Tactic.NormNum
set_option linter.unusedSectionVars false

/-!
# Path vectors and discretized validation in finite precision (C144)

In most of the model numbers are exact.  Here each addition and subtraction is followed by a rounding function, which is monotone and has a bounded relative error, as additions of floating point numbers without overflow.
`binary p` is the rounding to the nearest number with `p` bits (`p = 53`: the type `double`), without bound on the exponent.
-/
namespace Verif.Rounding

/-- Rounding of the result of an addition or of a subtraction. -/
structure Fl (K : Type) [Field K] [LinearOrder K] where
  rnd : K → K
  u : K
  u0 : 0 ≤ u
  mono : Monotone rnd
  idem : ∀ x, rnd (rnd x) = rnd x
  err : ∀ x, |rnd x - x| ≤ u * |x|

/-! ## Rounding to the nearest number with `p` bits -/

section
variable {K : Type} [Field K] [LinearOrder K] [IsStrictOrderedRing K] [FloorRing K]

/-- Distance between consecutive numbers with `p` bits around `x`. -/
def ulp (p : Nat) (x : K) : K := 2 ^ (Int.log 2 x - p + 1)

/-- Rounding of a positive number. -/
def near (p : Nat) (x : K) : K := ⌊x / ulp p x + 1 / 2⌋ * ulp p x

theorem ulp_pos (p : Nat) (x : K) : 0 < ulp p x := by unfold ulp; exact zpow_pos (by norm_num) _

theorem log_spec {x : K} (hx : 0 < x) : (2 : K) ^ Int.log 2 x ≤ x ∧ x < 2 ^ (Int.log 2 x + 1) := by
  refine ⟨?_, ?_⟩
  · have := Int.zpow_log_le_self (b := 2) one_lt_two hx
    simpa using this
  · have := Int.lt_zpow_succ_log_self (b := 2) one_lt_two x
    simpa using this

theorem near_bounds {p : Nat} (hp : 1 ≤ p) {x : K} (hx : 0 < x) : (2 : K) ^ Int.log 2 x ≤ near p x ∧ near p x ≤ 2 ^ (Int.log 2 x + 1) := by
  obtain ⟨h1, h2⟩ := log_spec hx
  set e := Int.log 2 x
  have hu : ulp p x = 2 ^ (e - p + 1) := rfl
  have hu0 := ulp_pos p x
  have e1 : (2 : K) ^ e = ((2 ^ (p - 1) : ℤ) : K) * ulp p x := by
    rw [hu]
    push_cast
    rw [← zpow_natCast, ← zpow_add₀ (by norm_num)]
    congr 1
    push_cast [hp]
    ring
  have e2 : (2 : K) ^ (e + 1) = ((2 ^ p : ℤ) : K) * ulp p x := by
    rw [hu]
    push_cast
    rw [← zpow_natCast, ← zpow_add₀ (by norm_num)]
    congr 1
    ring
  constructor
  · rw [e1]
    refine mul_le_mul_of_nonneg_right ?_ hu0.le
    have : (2 ^ (p - 1) : ℤ) ≤ ⌊x / ulp p x + 1 / 2⌋ := by
      rw [Int.le_floor]
      have : ((2 ^ (p - 1) : ℤ) : K) ≤ x / ulp p x := by rw [le_div_iff₀ hu0, ← e1]; exact h1
      linarith
    exact_mod_cast this
  · rw [e2]
    refine mul_le_mul_of_nonneg_right ?_ hu0.le
    have : ⌊x / ulp p x + 1 / 2⌋ < (2 ^ p : ℤ) + 1 := by
      rw [Int.floor_lt]
      have : x / ulp p x < ((2 ^ p : ℤ) : K) := by rw [div_lt_iff₀ hu0, ← e2]; exact h2
      push_cast at this ⊢
      linarith
    have : ⌊x / ulp p x + 1 / 2⌋ ≤ (2 ^ p : ℤ) := by omega
    exact_mod_cast this

theorem near_mono {p : Nat} (hp : 1 ≤ p) {x y : K} (hx : 0 < x) (hxy : x ≤ y) : near p x ≤ near p y := by
  have hy := hx.trans_le hxy
  have hl : Int.log 2 x ≤ Int.log 2 y := Int.log_mono_right hx hxy
  rcases hl.eq_or_lt with e | e
  · have hu : ulp p x = ulp p y := by simp [ulp, e]
    unfold near
    rw [hu]
    refine mul_le_mul_of_nonneg_right ?_ (ulp_pos p y).le
    have : ⌊x / ulp p y + 1 / 2⌋ ≤ ⌊y / ulp p y + 1 / 2⌋ := Int.floor_le_floor (by
      have := div_le_div_of_nonneg_right hxy (ulp_pos p y).le
      linarith)
    exact_mod_cast this
  · refine (near_bounds hp hx).2.trans (le_trans ?_ (near_bounds hp hy).1)
    exact zpow_le_zpow_right₀ (by norm_num) (by omega)

theorem near_err (p : Nat) {x : K} (hx : 0 < x) : |near p x - x| ≤ 2⁻¹ ^ p * x := by
  have hu0 := ulp_pos p x
  have h1 := Int.floor_le (x / ulp p x + 1 / 2)
  have h2 := Int.lt_floor_add_one (x / ulp p x + 1 / 2)
  have hd : x = x / ulp p x * ulp p x := by field_simp
  have hn : near p x - x = (⌊x / ulp p x + 1 / 2⌋ - x / ulp p x) * ulp p x := by
    unfold near
    rw [sub_mul, ← hd]
  have h3 : |(⌊x / ulp p x + 1 / 2⌋ : K) - x / ulp p x| ≤ 1 / 2 := by rw [abs_le]; constructor <;> linarith
  rw [hn, abs_mul, abs_of_pos hu0]
  have h4 : 1 / 2 * ulp p x = 2⁻¹ ^ p * 2 ^ Int.log 2 x := by
    unfold ulp
    rw [zpow_add₀ (by norm_num), zpow_sub₀ (by norm_num)]
    simp only [zpow_natCast, zpow_one, inv_pow]
    field_simp
  calc _ ≤ 1 / 2 * ulp p x := mul_le_mul_of_nonneg_right h3 hu0.le
    _ = 2⁻¹ ^ p * 2 ^ Int.log 2 x := h4
    _ ≤ _ := mul_le_mul_of_nonneg_left (log_spec hx).1 (by positivity)

/-- Rounding to the nearest number with `p` bits, away from 0 in the middle. -/
def binRnd (p : Nat) (x : K) : K := if 0 < x then near p x else if x < 0 then -near p (-x) else 0

theorem binRnd_mono {p : Nat} (hp : 1 ≤ p) : Monotone (binRnd p : K → K) := by
  have pos : ∀ {x : K}, 0 < x → 0 < near p x := fun hx => lt_of_lt_of_le (zpow_pos (by norm_num) _) (near_bounds hp hx).1
  intro x y hxy
  unfold binRnd
  rcases lt_trichotomy 0 x with hx | hx | hx
  · rw [if_pos hx, if_pos (hx.trans_le hxy)]
    exact near_mono hp hx hxy
  · subst hx
    simp only [lt_irrefl, if_false]
    split
    · next h => exact (pos h).le
    · rw [if_neg (not_lt.2 hxy)]
  · rw [if_neg (not_lt.2 hx.le), if_pos hx]
    have h1 := pos (x := -x) (by linarith)
    split
    · next h => exact (neg_nonpos.2 h1.le).trans (pos h).le
    · split
      · exact neg_le_neg (near_mono hp (by linarith) (by linarith))
      · linarith

theorem binRnd_err (p : Nat) (x : K) : |binRnd p x - x| ≤ 2⁻¹ ^ p * |x| := by
  unfold binRnd
  rcases lt_trichotomy 0 x with hx | hx | hx
  · rw [if_pos hx, abs_of_pos hx]; exact near_err p hx
  · subst hx; simp
  · rw [if_neg (not_lt.2 hx.le), if_pos hx, abs_of_neg hx]
    have := near_err p (x := -x) (by linarith)
    rwa [show -near p (-x) - x = -(near p (-x) - -x) by ring, abs_neg]

theorem log_eq {x : K} {e : ℤ} (h1 : (2 : K) ^ e ≤ x) (h2 : x < 2 ^ (e + 1)) : Int.log 2 x = e := by
  have hx : 0 < x := lt_of_lt_of_le (zpow_pos (by norm_num) _) h1
  obtain ⟨g1, g2⟩ := log_spec hx
  have a := (zpow_lt_zpow_iff_right₀ (by norm_num : (1 : K) < 2)).1 (g1.trans_lt h2)
  have b := (zpow_lt_zpow_iff_right₀ (by norm_num : (1 : K) < 2)).1 (h1.trans_lt g2)
  omega

theorem near_int {p : Nat} {x : K} {e m : ℤ} (h1 : (2 : K) ^ e ≤ x) (h2 : x < 2 ^ (e + 1)) (hm : x = m * 2 ^ (e - p + 1)) : near p x = x := by
  have hl := log_eq h1 h2
  have hu : ulp p x = 2 ^ (e - p + 1) := by rw [ulp, hl]
  have hu0 := ulp_pos p x
  have hd : x / ulp p x = m := by rw [div_eq_iff hu0.ne', hu]; exact hm
  unfold near
  rw [hd]
  have : ⌊(m : K) + 1 / 2⌋ = m := by rw [Int.floor_eq_iff]; constructor <;> norm_num
  rw [this, hu, ← hm]

theorem near_idem {p : Nat} (hp : 1 ≤ p) {x : K} (hx : 0 < x) : near p (near p x) = near p x := by
  obtain ⟨h1, h2⟩ := near_bounds hp hx
  rcases h2.lt_or_eq with h2 | h2
  · exact near_int h1 h2 rfl
  · refine near_int (e := Int.log 2 x + 1) (m := 2 ^ (p - 1)) h2.ge ?_ ?_
    · rw [h2]; exact zpow_lt_zpow_right₀ (by norm_num) (by omega)
    · rw [h2]
      push_cast
      rw [← zpow_natCast, ← zpow_add₀ (by norm_num)]
      congr 1
      push_cast [hp]
      ring

theorem binRnd_idem {p : Nat} (hp : 1 ≤ p) (x : K) : binRnd p (binRnd p x) = binRnd p x := by
  have pos : ∀ {x : K}, 0 < x → 0 < near p x := fun hx => lt_of_lt_of_le (zpow_pos (by norm_num) _) (near_bounds hp hx).1
  rcases lt_trichotomy 0 x with hx | hx | hx
  · have h : binRnd p x = near p x := by simp [binRnd, hx]
    rw [h, binRnd, if_pos (pos hx), near_idem hp hx]
  · subst hx; simp [binRnd]
  · have h : binRnd p x = -near p (-x) := by simp [binRnd, hx, hx.le]
    have := pos (x := -x) (by linarith)
    rw [h, binRnd, if_neg (by linarith), if_pos (by linarith), neg_neg, near_idem hp (by linarith)]

def binary (p : Nat) (hp : 1 ≤ p) : Fl K := ⟨binRnd p, 2⁻¹ ^ p, by positivity, binRnd_mono hp, binRnd_idem hp, binRnd_err p⟩

end

/-- Exact numbers. -/
def exact (K : Type) [Field K] [LinearOrder K] [IsStrictOrderedRing K] : Fl K := ⟨id, 0, le_rfl, monotone_id, fun _ => rfl, fun x => by simp⟩

variable {K : Type} [Field K] [LinearOrder K] [IsStrictOrderedRing K]

theorem Fl.zero (F : Fl K) : F.rnd 0 = 0 := by
  have := F.err 0
  simpa using this

theorem Fl.nonneg (F : Fl K) {x : K} (h : 0 ≤ x) : 0 ≤ F.rnd x := by
  have := F.mono h
  rwa [F.zero] at this

/-! ## Path vectors

A path is seen through its time range. -/

/-- `Path::length`: include/hpp/core/path.hh:193-195. -/
def len (F : Fl K) (p : K × K) : K := F.rnd (p.2 - p.1)

/-- End of the time range of the vector after successive calls to `PathVector::appendPath`: src/path-vector.cc:72-78. -/
def total (F : Fl K) (ps : List (K × K)) : K := ps.foldl (fun tr p => F.rnd (tr + len F p)) 0

/-- Loop of `PathVector::rankAtParam`: src/path-vector.cc:44-55.  The arguments are the paths from rank `k` on, and the local parameter. -/
def rankLoop (F : Fl K) : List (K × K) → K → Nat → Nat × K
  | p :: q :: ps, t, k => if len F p < t then rankLoop F (q :: ps) (F.rnd (t - len F p)) (k + 1) else (k, t)
  | [_], t, k => (k, t)
  | [], t, k => (k, t)

/-- Outcome of `PathVector::rankAtParam`. -/
inductive Loc (K : Type) where
  | at (rank : Nat) (localParam : K)
  | empty
  | outOfRange
  | undefined
  deriving DecidableEq

/-- `PathVector::rankAtParam`: src/path-vector.cc:39-70 (the assertions, which accept a margin of the epsilon of `float`, left out). -/
def rankAtParam (F : Fl K) (ps : List (K × K)) (t : K) : Loc K :=
  if ps = [] then .empty else
  let r := rankLoop F ps t 0
  match ps[r.1]? with
  | none => .undefined
  | some p =>
    if len F p < r.2 then (if r.1 ≠ ps.length - 1 then .outOfRange else .at r.1 p.2)
    else .at r.1 (F.rnd (r.2 + p.1))

/-! ### Specification -/

/-- Time ranges are increasing, their bounds are floating point numbers. -/
def Ranges (F : Fl K) (ps : List (K × K)) : Prop := ∀ p ∈ ps, p.1 ≤ p.2 ∧ F.rnd p.1 = p.1 ∧ F.rnd p.2 = p.2

/-- Sum of the lengths, without rounding. -/
def sumLen (F : Fl K) (ps : List (K × K)) : K := (ps.map (len F)).sum

theorem len_nonneg {F : Fl K} {p : K × K} (h : p.1 ≤ p.2) : 0 ≤ len F p := F.nonneg (by linarith)

theorem rankLoop_found {F : Fl K} : ∀ {ps : List (K × K)}, ps ≠ [] → (∀ p ∈ ps, p.1 ≤ p.2) → ∀ {t B : K} {k : Nat}, 0 ≤ t → t ≤ B → F.rnd B = B →
    ((k ≤ (rankLoop F ps t k).1 ∧ (rankLoop F ps t k).1 < k + ps.length ∧ 0 ≤ (rankLoop F ps t k).2 ∧ (rankLoop F ps t k).2 ≤ B) ∧
      ((rankLoop F ps t k).1 + 1 < k + ps.length → ∃ p, ps[(rankLoop F ps t k).1 - k]? = some p ∧ (rankLoop F ps t k).2 ≤ len F p) ∧
      |sumLen F (ps.take ((rankLoop F ps t k).1 - k)) + (rankLoop F ps t k).2 - t| ≤ (((rankLoop F ps t k).1 - k : Nat) : K) * (F.u * B))
  | [p], _, _, t, B, k, h0, hB, _ => by
      rw [rankLoop]
      simp [h0, hB, sumLen]
  | p :: q :: ps, _, hr, t, B, k, h0, hB, hBr => by
      rw [rankLoop]
      by_cases hl : len F p < t
      · rw [if_pos hl]
        have hp := len_nonneg (F := F) (hr p (by simp))
        have h0' : 0 ≤ F.rnd (t - len F p) := F.nonneg (by linarith)
        have hB' : F.rnd (t - len F p) ≤ B := by
          rw [← hBr]; exact F.mono (by linarith)
        obtain ⟨⟨a1, a2, a3, a4⟩, b, c⟩ := rankLoop_found (F := F) (ps := q :: ps) (by simp) (fun x hx => hr x (by simp [hx])) (k := k + 1) h0' hB' hBr
        generalize rankLoop F (q :: ps) (F.rnd (t - len F p)) (k + 1) = r at *
        obtain ⟨n, s⟩ := r
        simp only at *
        obtain ⟨d, rfl⟩ : ∃ d, n = k + 1 + d := ⟨n - (k + 1), by omega⟩
        have e1 : k + 1 + d - k = d + 1 := by omega
        have e2 : k + 1 + d - (k + 1) = d := by omega
        rw [e2] at b c
        rw [e1]
        refine ⟨⟨by omega, by simp at *; omega, a3, a4⟩, ?_, ?_⟩
        · intro h
          obtain ⟨x, hx, hx'⟩ := b (by simp at *; omega)
          exact ⟨x, by simpa using hx, hx'⟩
        · have e := F.err (t - len F p)
          have e' : F.u * |t - len F p| ≤ F.u * B := mul_le_mul_of_nonneg_left (by rw [abs_of_pos (by linarith)]; linarith) F.u0
          have hs : sumLen F ((p :: q :: ps).take (d + 1)) = len F p + sumLen F ((q :: ps).take d) := by simp [sumLen]
          rw [hs]
          have tri : |len F p + sumLen F ((q :: ps).take d) + s - t| ≤ |sumLen F ((q :: ps).take d) + s - F.rnd (t - len F p)| + |F.rnd (t - len F p) - (t - len F p)| := by
            refine le_trans (le_of_eq ?_) (abs_add_le _ _)
            congr 1; ring
          push_cast
          linarith
      · rw [if_neg hl]
        refine ⟨⟨le_rfl, by simp, h0, hB⟩, fun _ => ⟨p, by simp, not_lt.1 hl⟩, ?_⟩
        simp [sumLen]

theorem rankLoop_mono {F : Fl K} : ∀ {ps : List (K × K)} {s t : K} {k : Nat}, s ≤ t →
    (rankLoop F ps s k).1 < (rankLoop F ps t k).1 ∨ ((rankLoop F ps s k).1 = (rankLoop F ps t k).1 ∧ (rankLoop F ps s k).2 ≤ (rankLoop F ps t k).2)
  | [], s, t, k, h => by simp [rankLoop, h]
  | [p], s, t, k, h => by simp [rankLoop, h]
  | p :: q :: ps, s, t, k, h => by
      rw [rankLoop, rankLoop]
      by_cases h1 : len F p < s
      · rw [if_pos h1, if_pos (h1.trans_le h)]
        exact rankLoop_mono (F.mono (by linarith))
      · rw [if_neg h1]
        by_cases h2 : len F p < t
        · rw [if_pos h2]
          left
          have : ∀ (ps : List (K × K)) (t : K) (k : Nat), k ≤ (rankLoop F ps t k).1 := by
            intro ps
            induction ps with
            | nil => intro t k; simp [rankLoop]
            | cons a l ih =>
              intro t k
              cases l with
              | nil => simp [rankLoop]
              | cons b l =>
                rw [rankLoop]
                split
                · exact (Nat.le_succ k).trans (ih _ _)
                · exact le_rfl
          exact Nat.lt_of_succ_le (this _ _ _)
        · rw [if_neg h2]; right; exact ⟨rfl, h⟩

/-- `rankAtParam` through the loop. -/
theorem rankAtParam_eq {F : Fl K} {ps : List (K × K)} (hne : ps ≠ []) (hr : Ranges F ps) {t : K} (h0 : 0 ≤ t) (ht : F.rnd t = t) :
    ∃ p, ps[(rankLoop F ps t 0).1]? = some p ∧ p ∈ ps ∧
      ((rankLoop F ps t 0).1 + 1 < ps.length → (rankLoop F ps t 0).2 ≤ len F p) ∧
      rankAtParam F ps t = .at (rankLoop F ps t 0).1 (if len F p < (rankLoop F ps t 0).2 then p.2 else F.rnd ((rankLoop F ps t 0).2 + p.1)) := by
  obtain ⟨⟨_, a2, _, _⟩, b, _⟩ := rankLoop_found (F := F) hne (fun p hp => (hr p hp).1) (k := 0) h0 le_rfl ht
  unfold rankAtParam
  rw [if_neg hne]
  simp only []
  generalize rankLoop F ps t 0 = r at *
  rw [Nat.zero_add] at a2
  have hp : ps[r.1]? = some ps[r.1] := List.getElem?_eq_getElem a2
  refine ⟨ps[r.1], hp, List.getElem_mem _, ?_, ?_⟩
  · intro h
    obtain ⟨p, h1, h2⟩ := b (by omega)
    rw [Nat.sub_zero, hp] at h1
    cases h1
    exact h2
  · rw [hp]
    simp only []
    by_cases hl : len F ps[r.1] < r.2
    · have : r.1 = ps.length - 1 := by
        by_contra hc
        obtain ⟨p, h1, h2⟩ := b (by omega)
        rw [Nat.sub_zero, hp] at h1
        cases h1
        exact absurd h2 (not_le.2 hl)
      rw [if_pos hl, if_neg (not_not.2 this), if_pos hl]
    · rw [if_neg hl, if_neg hl]

theorem shift_le {F : Fl K} {p : K × K} (h : p.1 ≤ p.2) (hb : F.rnd p.2 = p.2) {r : K} (hr : r ≤ len F p) :
    F.rnd (r + p.1) ≤ p.2 + F.u * (2 + F.u) * (|p.1| + |p.2|) ∧ (p.1 = 0 → F.rnd (r + p.1) ≤ p.2) := by
  have e1 := (abs_le.1 (F.err (p.2 - p.1))).2
  rw [abs_of_nonneg (by linarith : 0 ≤ p.2 - p.1)] at e1
  have hl : len F p = F.rnd (p.2 - p.1) := rfl
  have hu := F.u0
  have hm : p.2 - p.1 ≤ |p.1| + |p.2| := by
    have := neg_abs_le p.1; have := le_abs_self p.2; linarith
  have hmul : F.u * (p.2 - p.1) ≤ F.u * (|p.1| + |p.2|) := mul_le_mul_of_nonneg_left hm hu
  refine ⟨?_, ?_⟩
  · have e2 := F.mono (show r + p.1 ≤ p.2 + F.u * (|p.1| + |p.2|) by linarith)
    have e3 := (abs_le.1 (F.err (p.2 + F.u * (|p.1| + |p.2|)))).2
    have e4 : |p.2 + F.u * (|p.1| + |p.2|)| ≤ (|p.1| + |p.2|) + F.u * (|p.1| + |p.2|) := by
      refine (abs_add_le _ _).trans ?_
      rw [abs_of_nonneg (show 0 ≤ F.u * (|p.1| + |p.2|) by positivity)]
      have := abs_nonneg p.1
      linarith
    have e5 := mul_le_mul_of_nonneg_left e4 hu
    nlinarith
  · intro h0
    have : r + p.1 ≤ p.2 := by
      rw [hl, h0, sub_zero, hb] at hr
      rw [h0, add_zero]; exact hr
    have := F.mono this
    rwa [hb] at this

/-- **C144 (path vectors, rank).**  Whatever the rounding, a vector which is not empty gives for each parameter from 0 on a path of the vector and a local parameter. The local parameter is at least the beginning of the time range of this path, and exceeds its end by a rounding error only; not at all when the time range begins at 0. -/
theorem C144_rank {F : Fl K} {ps : List (K × K)} (hne : ps ≠ []) (hr : Ranges F ps) {t : K} (h0 : 0 ≤ t) (ht : F.rnd t = t) :
    ∃ k s p, rankAtParam F ps t = .at k s ∧ ps[k]? = some p ∧ p.1 ≤ s ∧ s ≤ p.2 + F.u * (2 + F.u) * (|p.1| + |p.2|) ∧ (p.1 = 0 → s ≤ p.2) := by
  obtain ⟨p, h1, h2, _, h4⟩ := rankAtParam_eq hne hr h0 ht
  obtain ⟨⟨_, _, a3, _⟩, _, _⟩ := rankLoop_found (F := F) hne (fun p hp => (hr p hp).1) (k := 0) h0 le_rfl ht
  obtain ⟨r1, r2, r3⟩ := hr p h2
  refine ⟨_, _, p, h4, h1, ?_⟩
  by_cases hl : len F p < (rankLoop F ps t 0).2
  · rw [if_pos hl]
    refine ⟨r1, ?_, fun _ => le_rfl⟩
    have := F.u0
    have : 0 ≤ F.u * (2 + F.u) * (|p.1| + |p.2|) := by positivity
    linarith
  · rw [if_neg hl]
    refine ⟨?_, (shift_le r1 r3 (not_lt.1 hl))⟩
    have := F.mono (show p.1 ≤ (rankLoop F ps t 0).2 + p.1 by linarith)
    rwa [r2] at this

/-- **C144 (path vectors, order).**  Rounding never sends a later parameter to an earlier path, nor to an earlier point of the same path when the time range of this path begins at 0.  (When it does not, the only exception is a parameter sent to the end of the last path, exceeded by a rounding error at an earlier parameter: `C144_rank` bounds this error.) -/
theorem C144_order {F : Fl K} {ps : List (K × K)} (hne : ps ≠ []) (hr : Ranges F ps) {t t' : K} (h0 : 0 ≤ t) (htt : t ≤ t') (ht : F.rnd t = t) (ht' : F.rnd t' = t')
    {k k' : Nat} {s s' : K} (h : rankAtParam F ps t = .at k s) (h' : rankAtParam F ps t' = .at k' s') :
    k < k' ∨ (k = k' ∧ (s ≤ s' ∨ ∃ p, ps[k]? = some p ∧ k + 1 = ps.length ∧ p.1 ≠ 0 ∧ s' = p.2)) := by
  obtain ⟨p, h1, h2, h3, h4⟩ := rankAtParam_eq hne hr h0 ht
  obtain ⟨p', h1', h2', h3', h4'⟩ := rankAtParam_eq hne hr (h0.trans htt) ht'
  obtain ⟨⟨_, a2, _, _⟩, _, _⟩ := rankLoop_found (F := F) hne (fun p hp => (hr p hp).1) (k := 0) h0 le_rfl ht
  rw [h4] at h
  rw [h4'] at h'
  cases h
  cases h'
  rcases rankLoop_mono (F := F) (ps := ps) (k := 0) htt with hm | ⟨hm, hm'⟩
  · exact Or.inl hm
  · right
    refine ⟨hm, ?_⟩
    rw [hm, h1'] at h1
    cases h1
    obtain ⟨r1, r2, r3⟩ := hr p h2
    by_cases hl : len F p < (rankLoop F ps t 0).2
    · rw [if_pos hl, if_pos (hl.trans_le hm')]; exact Or.inl le_rfl
    · rw [if_neg hl]
      by_cases hl' : len F p < (rankLoop F ps t' 0).2
      · rw [if_pos hl']
        by_cases hz : p.1 = 0
        · left; exact (shift_le r1 r3 (not_lt.1 hl)).2 hz
        · right
          refine ⟨p, hm ▸ h1', ?_, hz, rfl⟩
          by_contra hc
          have := h3' (by rw [← hm]; omega)
          exact absurd this (not_le.2 hl')
      · rw [if_neg hl']; left; exact F.mono (by linarith)

/-- **C144 (path vectors, position).**  The point of the vector found for a parameter is at this parameter from the beginning, up to a rounding error proportional to the number of paths passed; or the parameter is beyond the end of the last path, up to the same error, and the end of the last path is found. -/
theorem C144_position {F : Fl K} {ps : List (K × K)} (hne : ps ≠ []) (hr : Ranges F ps) {t : K} (h0 : 0 ≤ t) (ht : F.rnd t = t) {k : Nat} {s : K} (h : rankAtParam F ps t = .at k s) :
    ∃ p, ps[k]? = some p ∧
      (|sumLen F (ps.take k) + (s - p.1) - t| ≤ k * (F.u * t) + F.u * (len F p + |p.1|) ∨
        (k + 1 = ps.length ∧ s = p.2 ∧ sumLen F ps ≤ t + k * (F.u * t))) := by
  obtain ⟨p, h1, h2, h3, h4⟩ := rankAtParam_eq hne hr h0 ht
  obtain ⟨⟨_, a2, a3, _⟩, _, c⟩ := rankLoop_found (F := F) hne (fun p hp => (hr p hp).1) (k := 0) h0 le_rfl ht
  rw [h4] at h
  cases h
  generalize rankLoop F ps t 0 = r at *
  rw [Nat.sub_zero] at c
  refine ⟨p, h1, ?_⟩
  by_cases hl : len F p < r.2
  · right
    rw [if_pos hl]
    have hk : r.1 + 1 = ps.length := by
      by_contra hc
      exact absurd (h3 (by omega)) (not_le.2 hl)
    refine ⟨hk, rfl, ?_⟩
    have hs : sumLen F ps = sumLen F (ps.take r.1) + len F p := by
      have : ps = ps.take r.1 ++ [p] := by
        have hlt : r.1 < ps.length := by omega
        have e := List.take_append_getElem hlt
        rw [List.getElem?_eq_getElem hlt] at h1
        cases h1
        rw [e, hk, List.take_length]
      conv_lhs => rw [this]
      simp [sumLen]
    have := (abs_le.1 c).2
    linarith
  · left
    rw [if_neg hl]
    have e := F.err (r.2 + p.1)
    have e' : F.u * |r.2 + p.1| ≤ F.u * (len F p + |p.1|) := mul_le_mul_of_nonneg_left (by
      refine (abs_add_le _ _).trans ?_
      rw [abs_of_nonneg a3]
      have := not_lt.1 hl
      linarith) F.u0
    have tri : |sumLen F (ps.take r.1) + (F.rnd (r.2 + p.1) - p.1) - t| ≤ |sumLen F (ps.take r.1) + r.2 - t| + |F.rnd (r.2 + p.1) - (r.2 + p.1)| := by
      refine le_trans (le_of_eq ?_) (abs_add_le _ _)
      congr 1; ring
    linarith

theorem total_aux {F : Fl K} : ∀ {ps : List (K × K)}, (∀ p ∈ ps, p.1 ≤ p.2) → ∀ {a : K}, 0 ≤ a →
    |ps.foldl (fun tr p => F.rnd (tr + len F p)) a - (a + sumLen F ps)| ≤ ((1 + F.u) ^ ps.length - 1) * (a + sumLen F ps) ∧ 0 ≤ sumLen F ps
  | [], _, a, _ => by simp [sumLen]
  | p :: ps, hr, a, ha => by
      have hu := F.u0
      have hp := len_nonneg (F := F) (hr p (by simp))
      obtain ⟨ih, hs⟩ := total_aux (F := F) (ps := ps) (fun x hx => hr x (by simp [hx])) (a := F.rnd (a + len F p)) (F.nonneg (by linarith))
      have hc : sumLen F (p :: ps) = len F p + sumLen F ps := by simp [sumLen]
      have e := F.err (a + len F p)
      rw [abs_of_nonneg (by linarith : 0 ≤ a + len F p)] at e
      rw [List.foldl_cons, hc]
      refine ⟨?_, by linarith⟩
      have hq : 1 ≤ (1 + F.u) ^ ps.length := one_le_pow₀ (by linarith)
      have tri : |ps.foldl (fun tr p => F.rnd (tr + len F p)) (F.rnd (a + len F p)) - (a + (len F p + sumLen F ps))| ≤
          |ps.foldl (fun tr p => F.rnd (tr + len F p)) (F.rnd (a + len F p)) - (F.rnd (a + len F p) + sumLen F ps)| + |F.rnd (a + len F p) - (a + len F p)| := by
        refine le_trans (le_of_eq ?_) (abs_add_le _ _)
        congr 1; ring
      have e2 := (abs_le.1 e).2
      generalize F.rnd (a + len F p) = x at *
      generalize sumLen F ps = y at *
      generalize len F p = z at *
      rw [List.length_cons, pow_succ]
      generalize (1 + F.u) ^ ps.length = q at *
      have m1 : (q - 1) * (x + y) ≤ (q - 1) * ((1 + F.u) * (a + z) + y) := mul_le_mul_of_nonneg_left (by linarith) (by linarith)
      have m2 : 0 ≤ q * F.u * y := by positivity
      nlinarith

/-- **C144 (path vectors, length).**  The end of the time range of a vector is the sum of the lengths of the paths, up to a rounding error. -/
theorem C144_length {F : Fl K} {ps : List (K × K)} (hr : Ranges F ps) : |total F ps - sumLen F ps| ≤ ((1 + F.u) ^ ps.length - 1) * sumLen F ps := by
  have := (total_aux (F := F) (fun p hp => (hr p hp).1) (a := 0) le_rfl).1
  simpa [total] using this

theorem total_rep {F : Fl K} (ps : List (K × K)) : F.rnd (total F ps) = total F ps := by
  unfold total
  induction ps using List.reverseRecOn with
  | nil => exact F.zero
  | append_singleton l p _ => rw [List.foldl_append]; exact F.idem _

theorem total_nonneg {F : Fl K} {ps : List (K × K)} (hr : Ranges F ps) : 0 ≤ total F ps := by
  unfold total
  induction ps using List.reverseRecOn with
  | nil => exact le_rfl
  | append_singleton l p ih =>
    rw [List.foldl_append]
    have h1 := ih (fun x hx => hr x (by simp [hx]))
    have h2 := len_nonneg (F := F) (hr p (by simp)).1
    exact F.nonneg (add_nonneg h1 h2)

/-- **C144 (path vectors, end).**  At the end of its time range, a vector is at the end of its last path, up to a rounding error along the vector.  (Not exactly: `C144_end_counterexample`.) -/
theorem C144_end_partial {F : Fl K} {ps : List (K × K)} (hne : ps ≠ []) (hr : Ranges F ps) :
    ∃ k s p, rankAtParam F ps (total F ps) = .at k s ∧ ps[k]? = some p ∧
      ((k + 1 = ps.length ∧ s = p.2) ∨
        |sumLen F (ps.take k) + (s - p.1) - sumLen F ps| ≤ k * (F.u * total F ps) + F.u * (len F p + |p.1|) + ((1 + F.u) ^ ps.length - 1) * sumLen F ps) := by
  obtain ⟨k, s, _, h, _⟩ := C144_rank hne hr (total_nonneg hr) (total_rep ps)
  obtain ⟨p, hp, hc⟩ := C144_position hne hr (total_nonneg hr) (total_rep ps) h
  refine ⟨k, s, p, h, hp, ?_⟩
  rcases hc with hc | ⟨h1, h2, _⟩
  · right
    have := C144_length hr
    have tri : |sumLen F (ps.take k) + (s - p.1) - sumLen F ps| ≤ |sumLen F (ps.take k) + (s - p.1) - total F ps| + |total F ps - sumLen F ps| := by
      refine le_trans (le_of_eq ?_) (abs_add_le _ _)
      congr 1; ring
    linarith
  · exact Or.inl ⟨h1, h2⟩

/-! ### Numbers of type `double` -/

/-- Numbers with 53 bits. -/
def double : Fl ℚ := binary 53 (by norm_num)

theorem double_of {x y : ℚ} {e m : ℤ} (h1 : (2 : ℚ) ^ e ≤ x) (h2 : x < 2 ^ (e + 1)) (h3 : (m : ℚ) ≤ x / 2 ^ (e - 52) + 1 / 2) (h4 : x / 2 ^ (e - 52) + 1 / 2 < m + 1)
    (hy : y = m * 2 ^ (e - 52)) : double.rnd x = y := by
  have hx : 0 < x := lt_of_lt_of_le (zpow_pos (by norm_num) _) h1
  have hu : ulp 53 x = 2 ^ (e - 52) := by rw [ulp, log_eq h1 h2]; congr 1; push_cast; ring
  show binRnd 53 x = y
  rw [binRnd, if_pos hx, near, hu, hy]
  congr 2
  rw [Int.floor_eq_iff]
  exact ⟨h3, h4⟩

/-- A path of length 1 followed by a path of length 2⁻⁶⁰. -/
def tiny : List (ℚ × ℚ) := [(0, 1), (0, 1 / 2 ^ 60)]

theorem double_one : double.rnd 1 = 1 := double_of (e := 0) (m := 2 ^ 52) (by norm_num) (by norm_num) (by norm_num) (by norm_num) (by norm_num)

theorem double_tiny : double.rnd (1 / 2 ^ 60) = 1 / 2 ^ 60 :=
  double_of (e := -60) (m := 2 ^ 52) (by norm_num) (by norm_num) (by norm_num) (by norm_num) (by norm_num)

theorem double_sum : double.rnd (1 + 1 / 2 ^ 60) = 1 := double_of (e := 0) (m := 2 ^ 52) (by norm_num) (by norm_num) (by norm_num) (by norm_num) (by norm_num)

theorem tiny_ranges : Ranges double tiny := by
  intro p hp
  simp only [tiny, List.mem_cons, List.not_mem_nil, or_false] at hp
  rcases hp with rfl | rfl
  · exact ⟨by norm_num, double.zero, double_one⟩
  · exact ⟨by norm_num, double.zero, double_tiny⟩

theorem tiny_total : total double tiny = 1 := by
  have h1 : len double (0, 1) = 1 := by simp only [len, sub_zero]; exact double_one
  have h2 : len double ((0 : ℚ), 1 / 2 ^ 60) = 1 / 2 ^ 60 := by simp only [len, sub_zero]; exact double_tiny
  simp only [total, tiny, List.foldl_cons, List.foldl_nil]
  rw [h1, h2, zero_add, double_one, double_sum]

/-- **C144 (counterexample: end of a vector).**  With numbers of type `double`, a vector evaluated at the end of its time range may not reach its last path at all: its value is the end of the first path, whereas `PathVector::end` (include/hpp/core/path-vector.hh:132) is the end of the second one. -/
theorem C144_end_counterexample : tiny.length = 2 ∧ rankAtParam double tiny (total double tiny) = .at 0 1 := by
  refine ⟨rfl, ?_⟩
  have h1 : len double (0, 1) = 1 := by simp only [len, sub_zero]; exact double_one
  rw [tiny_total]
  have hl : rankLoop double tiny 1 0 = (0, 1) := by
    rw [tiny, rankLoop, h1, if_neg (lt_irrefl _)]
  unfold rankAtParam
  rw [if_neg (by simp [tiny])]
  simp only [hl]
  simp only [tiny, List.getElem?_cons_zero, h1, lt_irrefl, if_false, add_zero, double_one]

/-- The hypotheses of `C144_rank`, `C144_order`, `C144_position` and `C144_end_partial` hold for this vector, at its beginning and at its end. -/
example : tiny ≠ [] ∧ Ranges double tiny ∧ double.rnd 0 = 0 ∧ double.rnd (total double tiny) = total double tiny ∧ 0 ≤ total double tiny :=
  ⟨by simp [tiny], tiny_ranges, double.zero, total_rep _, total_nonneg tiny_ranges⟩

/-- Without rounding, the end of the time range gives the end of the last path, on a vector with three paths. -/
example : rankAtParam (exact ℚ) [(0, 1), (2, 3), (1, 3)] (total (exact ℚ) [(0, 1), (2, 3), (1, 3)]) = .at 2 3 := by
  simp [total, len, exact, rankAtParam, rankLoop]
  norm_num

/-! ## Discretized validation -/

/-- Loop of `Discretized::validate`: src/path-validation/discretized.cc:77-97.  `ok t` says whether the path is evaluated at `t` and the configuration valid; the value is the verdict, the last valid parameter and the parameters found valid; `none`: more iterations are needed than the first argument. -/
def discLoop (F : Fl K) (ok : K → Bool) (step T1 : K) (rev : Bool) : Nat → K → K → Nat → Option (Bool × K × List K)
  | 0, _, _, _ => none
  | n + 1, t, last, fin =>
    if 2 ≤ fin then some (true, last, [])
    else if ok t then
      let t' := F.rnd (t + step)
      let over := if rev then decide (t' < T1) else decide (T1 < t')
      (discLoop F ok step T1 rev n (if over then T1 else t') t (if over then fin + 1 else fin)).map fun r => (r.1, r.2.1, t :: r.2.2)
    else some (false, last, [])

/-- `Discretized::validate`: src/path-validation/discretized.cc:56-107 (the valid part is given by the last valid parameter). -/
def discValidate (F : Fl K) (ok : K → Bool) (stepSize tmin tmax : K) (rev : Bool) (fuel : Nat) : Option (Bool × K × List K) :=
  if rev then discLoop F ok (-stepSize) tmin true fuel tmax tmax 0 else discLoop F ok stepSize tmax false fuel tmin tmin 0

/-- Specification: every parameter of `[a, b]` follows a sample by at most `g`. -/
def CoversUp (S : List K) (a b g : K) : Prop := ∀ x, a ≤ x → x ≤ b → ∃ s ∈ S, s ≤ x ∧ x ≤ s + g

/-- What is known when the loop stops, from `t` upward. -/
def Post (ok : K → Bool) (T1 g t last : K) (r : Bool × K × List K) : Prop :=
  (∀ s ∈ r.2.2, ok s = true ∧ t ≤ s ∧ s ≤ T1) ∧
  (r.1 = true → r.2.1 = T1 ∧ t ∈ r.2.2 ∧ T1 ∈ r.2.2 ∧ CoversUp r.2.2 t T1 g) ∧
  (r.1 = false → ∃ x, t ≤ x ∧ x ≤ T1 ∧ ok x = false ∧
    ((r.2.2 = [] ∧ r.2.1 = last ∧ x = t) ∨
      (t ∈ r.2.2 ∧ r.2.1 ∈ r.2.2 ∧ t ≤ r.2.1 ∧ r.2.1 ≤ x ∧ x ≤ r.2.1 + g ∧ CoversUp r.2.2 t r.2.1 g)))

theorem disc_last {F : Fl K} {ok : K → Bool} {step T1 g last : K} (hg : 0 ≤ g) (hs : T1 < F.rnd (T1 + step)) :
    ∀ n, ∃ r, discLoop F ok step T1 false (n + 2) T1 last 1 = some r ∧ Post ok T1 g T1 last r := by
  intro n
  rw [discLoop, if_neg (by norm_num)]
  cases ho : ok T1 with
  | true =>
    simp only [if_true, Bool.false_eq_true, if_false, hs, decide_true]
    rw [discLoop, if_pos (by norm_num)]
    refine ⟨_, rfl, ?_, ?_, ?_⟩
    · intro s h
      simp only [List.mem_singleton] at h
      subst h
      exact ⟨ho, le_rfl, le_rfl⟩
    · intro _
      refine ⟨rfl, by simp, by simp, ?_⟩
      intro x h1 h2
      exact ⟨T1, by simp, h1, by linarith⟩
    · intro h; simp at h
  | false =>
    simp only [Bool.false_eq_true, if_false]
    refine ⟨_, rfl, by simp, by simp, ?_⟩
    intro _
    exact ⟨T1, le_rfl, le_rfl, ho, Or.inl ⟨rfl, rfl, rfl⟩⟩

/-- Adding the sample `t` in front of what is known from `t'`. -/
theorem Post.step {ok : K → Bool} {T1 g t t' last : K} {r : Bool × K × List K} (ho : ok t = true) (htt : t ≤ t') (hT : t' ≤ T1) (hg : t' ≤ t + g) (h : Post ok T1 g t' t r) :
    Post ok T1 g t last (r.1, r.2.1, t :: r.2.2) := by
  obtain ⟨v, l, S⟩ := r
  obtain ⟨h1, h2, h3⟩ := h
  simp only at *
  have cov : ∀ b, t' ∈ S → CoversUp S t' b g → CoversUp (t :: S) t b g := by
    intro b _ hc x hx hb
    rcases lt_or_ge x t' with hlt | hge
    · exact ⟨t, by simp, hx, by linarith⟩
    · obtain ⟨s, a, b, c⟩ := hc x hge hb
      exact ⟨s, by simp [a], b, c⟩
  refine ⟨?_, ?_, ?_⟩
  · intro s hs
    rcases List.mem_cons.1 hs with rfl | hs
    · exact ⟨ho, le_rfl, htt.trans hT⟩
    · obtain ⟨a, b, c⟩ := h1 s hs
      exact ⟨a, htt.trans b, c⟩
  · intro hv
    obtain ⟨a, b, c, d⟩ := h2 hv
    exact ⟨a, by simp, by simp [c], cov _ b d⟩
  · intro hv
    obtain ⟨x, a, b, c, d⟩ := h3 hv
    refine ⟨x, htt.trans a, b, c, Or.inr ?_⟩
    rcases d with ⟨d1, d2, d3⟩ | ⟨d1, d2, d3, d4, d5, d6⟩
    · subst d1 d2 d3
      refine ⟨by simp, by simp, le_rfl, htt, hg, ?_⟩
      intro y hy hy'
      exact ⟨l, by simp, hy, by linarith⟩
    · exact ⟨by simp, by simp [d2], htt.trans d3, d4, d5, cov _ d1 d6⟩

theorem disc_up {F : Fl K} {ok : K → Bool} {step T1 M : K} (hstep : F.u * (M + step) < step) (hT : |T1| ≤ M) (h0 : 0 ≤ step) :
    ∀ (n : Nat) (t last : K), -M ≤ t → t ≤ T1 → T1 - t ≤ n * (step - F.u * (M + step)) →
      ∃ r, discLoop F ok step T1 false (n + 3) t last 0 = some r ∧ Post ok T1 (step + F.u * (M + step)) t last r := by
  have hu := F.u0
  obtain ⟨hT1, hT2⟩ := abs_le.1 hT
  have hM : 0 ≤ M := (abs_nonneg _).trans hT
  have hg : 0 ≤ step + F.u * (M + step) := by positivity
  have adv : ∀ t, -M ≤ t → t ≤ T1 → t + (step - F.u * (M + step)) ≤ F.rnd (t + step) ∧ F.rnd (t + step) ≤ t + (step + F.u * (M + step)) := by
    intro t h1 h2
    have e := F.err (t + step)
    have : |t + step| ≤ M + step := by rw [abs_le]; constructor <;> linarith
    have := mul_le_mul_of_nonneg_left this hu
    obtain ⟨a, b⟩ := abs_le.1 e
    constructor <;> linarith
  have hend : T1 < F.rnd (T1 + step) := by have := (adv T1 hT1 le_rfl).1; linarith
  intro n
  induction n with
  | zero =>
    intro t last h1 h2 h3
    have : t = T1 := le_antisymm h2 (by simp at h3; linarith)
    subst this
    rw [discLoop, if_neg (by norm_num)]
    cases ho : ok t with
    | false =>
      simp only [Bool.false_eq_true, if_false]
      exact ⟨_, rfl, by simp, by simp, fun _ => ⟨t, le_rfl, le_rfl, ho, Or.inl ⟨rfl, rfl, rfl⟩⟩⟩
    | true =>
      simp only [if_true, Bool.false_eq_true, if_false, hend, decide_true]
      obtain ⟨r, e, p⟩ := disc_last (ok := ok) (last := t) hg hend 0
      rw [Nat.zero_add] at e ⊢
      rw [e]
      exact ⟨_, rfl, p.step ho le_rfl le_rfl (by linarith)⟩
  | succ n ih =>
    intro t last h1 h2 h3
    rw [discLoop, if_neg (by norm_num)]
    cases ho : ok t with
    | false =>
      simp only [Bool.false_eq_true, if_false]
      exact ⟨_, rfl, by simp, by simp, fun _ => ⟨t, le_rfl, h2, ho, Or.inl ⟨rfl, rfl, rfl⟩⟩⟩
    | true =>
      obtain ⟨a1, a2⟩ := adv t h1 h2
      simp only [if_true, Bool.false_eq_true, if_false]
      by_cases hov : T1 < F.rnd (t + step)
      · simp only [hov, decide_true, if_true]
        obtain ⟨r, e, p⟩ := disc_last (ok := ok) (last := t) hg hend (n + 1)
        rw [show n + 1 + 2 = n + 3 by ring] at e
        rw [show n + 1 + 2 = n + 3 by ring, e]
        exact ⟨_, rfl, p.step ho h2 le_rfl (by linarith)⟩
      · simp only [hov, decide_false, Bool.false_eq_true, if_false]
        push_cast at h3
        obtain ⟨r, e, p⟩ := ih (F.rnd (t + step)) t (by linarith) (not_lt.1 hov) (by linarith)
        rw [show n + 1 + 2 = n + 3 by ring, e]
        exact ⟨_, rfl, p.step ho (by linarith) (not_lt.1 hov) a2⟩

/-- The rounding of opposite numbers. -/
def Fl.opp (F : Fl K) : Fl K where
  rnd x := -F.rnd (-x)
  u := F.u
  u0 := F.u0
  mono := fun x y h => neg_le_neg (F.mono (neg_le_neg h))
  idem := fun x => by simp only [neg_neg]; rw [F.idem]
  err := fun x => by
    have := F.err (-x)
    rw [abs_neg] at this
    rwa [show -F.rnd (-x) - x = -(F.rnd (-x) - -x) by ring, abs_neg]

/-- The loop downward is the loop upward on opposite parameters. -/
theorem disc_opp {F : Fl K} {ok : K → Bool} {step T1 : K} : ∀ (n : Nat) (t last : K) (fin : Nat),
    discLoop F ok (-step) T1 true n t last fin = (discLoop F.opp (fun x => ok (-x)) step (-T1) false n (-t) (-last) fin).map fun r => (r.1, -r.2.1, r.2.2.map Neg.neg) := by
  intro n
  induction n with
  | zero => intro t last fin; rfl
  | succ n ih =>
    intro t last fin
    rw [discLoop, discLoop]
    by_cases hf : 2 ≤ fin
    · simp [hf]
    · rw [if_neg hf, if_neg hf]
      simp only [neg_neg]
      cases ho : ok t with
      | false => simp
      | true =>
        have e : F.opp.rnd (-t + step) = -F.rnd (t + -step) := by
          show -F.rnd (-(-t + step)) = _
          congr 2; ring
        simp only [if_true, Bool.false_eq_true, if_false, e, neg_lt_neg_iff]
        rw [ih]
        by_cases hov : F.rnd (t + -step) < T1
        · simp only [hov, decide_true, if_true, Option.map_map]
          congr 1
          funext r; simp
        · simp only [hov, decide_false, Bool.false_eq_true, if_false, Option.map_map]
          congr 1
          funext r; simp

/-- Specification: what `Discretized::validate` reports in the direction asked for. -/
structure Reported (ok : K → Bool) (tmin tmax g : K) (rev : Bool) (v : Bool) (last : K) (S : List K) : Prop where
  samples : ∀ s ∈ S, ok s = true ∧ tmin ≤ s ∧ s ≤ tmax
  inside : tmin ≤ last ∧ last ≤ tmax
  valid : v = true → tmin ∈ S ∧ tmax ∈ S ∧ ∀ x, tmin ≤ x → x ≤ tmax → ∃ s ∈ S, |x - s| ≤ g
  invalid : v = false → ∃ x, tmin ≤ x ∧ x ≤ tmax ∧ ok x = false ∧
    ((S = [] ∧ last = x ∧ x = (if rev then tmax else tmin)) ∨
      (last ∈ S ∧ |x - last| ≤ g ∧ ∀ y, (if rev then last ≤ y ∧ y ≤ tmax else tmin ≤ y ∧ y ≤ last) → ∃ s ∈ S, |y - s| ≤ g))

/-- **C144 (discretized validation).**  If the step exceeds the rounding error on the parameters of the path, the validation ends, in both directions, after a number of samples that depends only on the length, the step and the rounding. Then the samples are at most one step plus a rounding error apart, both ends of an accepted path have been checked exactly, and for a path rejected an invalid parameter at most one step plus a rounding error away from the valid part. -/
theorem C144_discretized_partial {F : Fl K} {ok : K → Bool} {step tmin tmax M : K} {rev : Bool} (hr : tmin ≤ tmax) (h1 : |tmin| ≤ M) (h2 : |tmax| ≤ M) (h0 : 0 ≤ step) (hstep : F.u * (M + step) < step)
    {n : Nat} (hn : tmax - tmin ≤ n * (step - F.u * (M + step))) :
    ∃ v last S, discValidate F ok step tmin tmax rev (n + 3) = some (v, last, S) ∧ Reported ok tmin tmax (step + F.u * (M + step)) rev v last S := by
  have hu := F.u0
  obtain ⟨a1, a2⟩ := abs_le.1 h1
  obtain ⟨b1, b2⟩ := abs_le.1 h2
  have hM : 0 ≤ M := (abs_nonneg _).trans h1
  have hg : 0 ≤ step + F.u * (M + step) := by positivity
  cases rev with
  | false =>
    obtain ⟨⟨v, last, S⟩, e, p1, p2, p3⟩ := disc_up (F := F) (ok := ok) hstep h2 h0 n tmin tmin a1 hr hn
    simp only at p1 p2 p3
    have near : ∀ {s x g : K}, s ≤ x → x ≤ s + g → |x - s| ≤ g := by
      intro s x g h h'
      rw [abs_of_nonneg (by linarith)]; linarith
    refine ⟨v, last, S, by simp only [discValidate, Bool.false_eq_true, if_false]; exact e, p1, ?_, ?_, ?_⟩
    · cases v with
      | true => rw [(p2 rfl).1]; exact ⟨hr, le_rfl⟩
      | false =>
        obtain ⟨x, x1, x2, _, ⟨_, l, _⟩ | ⟨_, l, _⟩⟩ := p3 rfl
        · rw [l]; exact ⟨le_rfl, hr⟩
        · exact (p1 _ l).2
    · intro hv
      obtain ⟨_, c1, c2, c3⟩ := p2 hv
      refine ⟨c1, c2, fun x hx hx' => ?_⟩
      obtain ⟨s, s1, s2, s3⟩ := c3 x hx hx'
      exact ⟨s, s1, near s2 s3⟩
    · intro hv
      obtain ⟨x, x1, x2, x3, ⟨l1, l2, l3⟩ | ⟨l1, l2, l3, l4, l5, l6⟩⟩ := p3 hv
      · exact ⟨x, x1, x2, x3, Or.inl ⟨l1, by rw [l2, l3], by simpa using l3⟩⟩
      · refine ⟨x, x1, x2, x3, Or.inr ⟨l2, near l4 l5, fun y hy => ?_⟩⟩
        simp only [Bool.false_eq_true, if_false] at hy
        obtain ⟨s, s1, s2, s3⟩ := l6 y hy.1 hy.2
        exact ⟨s, s1, near s2 s3⟩
  | true =>
    obtain ⟨⟨v, last, S⟩, e, p1, p2, p3⟩ := disc_up (F := F.opp) (ok := fun x => ok (-x)) (T1 := -tmin) hstep (by rwa [abs_neg]) h0 n (-tmax) (-tmax) (by linarith) (by linarith) (by show _ ≤ (n : K) * (step - F.u * (M + step)); linarith)
    simp only at p1 p2 p3
    have near : ∀ {s x g : K}, s ≤ -x → -x ≤ s + g → |x - -s| ≤ g := by
      intro s x g h h'
      rw [abs_of_nonpos (by linarith)]; linarith
    refine ⟨v, -last, S.map Neg.neg, ?_, ?_, ?_, ?_, ?_⟩
    · simp only [discValidate, if_true, disc_opp, e, Option.map_some]
    · intro s hs
      obtain ⟨s', hs', rfl⟩ := List.mem_map.1 hs
      obtain ⟨c1, c2, c3⟩ := p1 s' hs'
      exact ⟨c1, by linarith, by linarith⟩
    · cases v with
      | true => rw [(p2 rfl).1]; constructor <;> linarith
      | false =>
        obtain ⟨x, x1, x2, _, ⟨_, l, _⟩ | ⟨_, l, _⟩⟩ := p3 rfl
        · rw [l]; constructor <;> linarith
        · obtain ⟨_, c2, c3⟩ := p1 _ l
          constructor <;> linarith
    · intro hv
      obtain ⟨_, c1, c2, c3⟩ := p2 hv
      refine ⟨List.mem_map.2 ⟨_, c2, by simp⟩, List.mem_map.2 ⟨_, c1, by simp⟩, fun x hx hx' => ?_⟩
      obtain ⟨s, s1, s2, s3⟩ := c3 (-x) (by linarith) (by linarith)
      exact ⟨-s, List.mem_map.2 ⟨s, s1, rfl⟩, near s2 s3⟩
    · intro hv
      obtain ⟨x, x1, x2, x3, ⟨l1, l2, l3⟩ | ⟨l1, l2, l3, l4, l5, l6⟩⟩ := p3 hv
      · exact ⟨-x, by linarith, by linarith, x3, Or.inl ⟨by rw [l1]; rfl, by rw [l2, l3], by simp [l3]⟩⟩
      · refine ⟨-x, by linarith, by linarith, x3, Or.inr ⟨List.mem_map.2 ⟨_, l2, rfl⟩, near (by linarith) (by rw [neg_neg]; exact l5), fun y hy => ?_⟩⟩
        simp only [if_true] at hy
        obtain ⟨s, s1, s2, s3⟩ := l6 (-y) (by linarith) (by linarith)
        exact ⟨-s, List.mem_map.2 ⟨s, s1, rfl⟩, near s2 s3⟩

/-- **C144 (counterexample: step below the precision).**  With numbers of type `double`, the validation of a path whose time range begins at 2⁵³ never ends with a step of 1/2: the parameter does not move. -/
theorem C144_discretized_counterexample (n : Nat) : discValidate double (fun _ => true) (1 / 2) (2 ^ 53) (2 ^ 53 + 2) false n = none := by
  have h : double.rnd (2 ^ 53 + 1 / 2) = 2 ^ 53 :=
    double_of (e := 53) (m := 2 ^ 52) (by norm_num) (by norm_num) (by norm_num) (by norm_num) (by norm_num)
  simp only [discValidate, Bool.false_eq_true, if_false]
  have : ∀ (n : Nat) (last : ℚ), discLoop double (fun _ => true) (1 / 2) (2 ^ 53 + 2) false n (2 ^ 53) last 0 = none := by
    intro n
    induction n with
    | zero => intro last; rfl
    | succ n ih =>
      intro last
      rw [discLoop, if_neg (by norm_num)]
      simp only [if_true, Bool.false_eq_true, if_false, h]
      rw [if_neg (by norm_num), if_neg (by norm_num), ih]
      rfl
  exact this n _

/-- The hypotheses of `C144_discretized_partial` hold with numbers of type `double` on a path of length 10 with a step of 1/100. -/
example : (0 : ℚ) ≤ 10 ∧ |(0 : ℚ)| ≤ 10 ∧ |(10 : ℚ)| ≤ 10 ∧ double.u * (10 + 1 / 100) < 1 / 100 ∧ (10 : ℚ) - 0 ≤ (1001 : ℕ) * (1 / 100 - double.u * (10 + 1 / 100)) := by
  have : double.u = 2⁻¹ ^ 53 := rfl
  rw [this]
  norm_num

end Verif.Rounding
