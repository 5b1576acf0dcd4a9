import Verif.TimeParam.Polynomial
set_option linter.unusedSectionVars false

/-!
# `timeParameterization::PiecewisePolynomial` (C52)
-/
namespace Verif.TimeParam
open Polynomial

variable {K : Type} [Field K] [LinearOrder K] [IsStrictOrderedRing K]

/-- Breakpoints, columns of the matrix of coefficients, flag `polynomialsStartAtZero`. -/
structure PP (K : Type) where
  breaks : List K
  cols : List (List K)
  startAtZero : Bool

/-- `std::lower_bound (begin, end, t, less_equal)`: rank of the first breakpoint `x` such that `x <= t` is false
(piecewise-polynomial.hh:151-152).  The binary search is not modelled: on sorted breakpoints it returns this rank. -/
def lowerBound (breaks : List K) (t : K) : Nat := breaks.findIdx fun x => !decide (x ≤ t)

/-- `findPolynomialIndex`: piecewise-polynomial.hh:146-177; returns the index and the possibly shifted time. -/
def findPolynomialIndex (p : PP K) (t : K) : Except Err (Nat × K) :=
  let it := lowerBound p.breaks t
  let index :=
    if it = 0 then p.breaks.length
    else if it = p.breaks.length then
      if p.breaks.getLastD 0 < t then p.breaks.length else p.breaks.length - 2
    else it - 1
  if index = p.breaks.length then .error .invalid
  else .ok (index, if p.startAtZero then t - p.breaks.getD index 0 else t)

/-- `val`: piecewise-polynomial.hh:110-121.  A column out of range (undefined behaviour) is `none`. -/
def ppVal (p : PP K) (t : K) : Except Err (Option K) :=
  match findPolynomialIndex p t with
  | .error e => .error e
  | .ok (i, t') => .ok ((p.cols[i]?).map fun a => val a t')

/-- `Jac (t, order)`: piecewise-polynomial.hh:125-144; `rows` is the number of coefficients of the columns. -/
def ppJac (p : PP K) (rows : Nat) (t : K) (order : Nat) : Except Err (Option K) :=
  if rows ≤ order then .ok (some 0)
  else if 10 < rows then .error .invalid
  else
    match findPolynomialIndex p t with
    | .error e => .error e
    | .ok (i, t') =>
      match p.cols[i]? with
      | none => .ok none
      | some a => .ok (some (jacLoop t' order order (a.drop order) 1 0))

/-- What the constructor asserts: piecewise-polynomial.hh:60-78. -/
structure PPOk (p : PP K) (rows : Nat) : Prop where
  sorted : p.breaks.Pairwise (· < ·)
  size : p.breaks.length = p.cols.length + 1
  some : p.cols ≠ []
  rowsOk : ∀ a ∈ p.cols, a.length = rows

/-- The piece of rank `i` is in charge of time `t`. -/
def InCharge (p : PP K) (t : K) (i : Nat) : Prop :=
  ∃ lo hi : K, p.breaks[i]? = some lo ∧ p.breaks[i + 1]? = some hi ∧ lo ≤ t ∧ (t < hi ∨ (t = hi ∧ i + 2 = p.breaks.length))

theorem lowerBound_spec (l : List K) (hs : l.Pairwise (· < ·)) (t : K) :
    (∀ j x, l[j]? = some x → j < lowerBound l t → x ≤ t) ∧
    (∀ j x, l[j]? = some x → lowerBound l t ≤ j → t < x) ∧ lowerBound l t ≤ l.length := by
  refine ⟨fun j x hj hlt => ?_, fun j x hj hle => ?_, List.findIdx_le_length⟩
  · have hlen : j < l.length := (List.getElem?_eq_some_iff.1 hj).1
    have := List.not_of_lt_findIdx (p := fun x => !decide (x ≤ t)) hlt
    have e : l[j] = x := (List.getElem?_eq_some_iff.1 hj).2
    rw [e] at this
    simpa using this
  · have hlen : j < l.length := (List.getElem?_eq_some_iff.1 hj).1
    have e : l[j] = x := (List.getElem?_eq_some_iff.1 hj).2
    have hl : lowerBound l t < l.length := lt_of_le_of_lt hle hlen
    have h0 := List.findIdx_getElem (w := hl)
    have h1 : t < l[lowerBound l t] := by
      have : (!decide (l[lowerBound l t] ≤ t)) = true := h0
      simpa using this
    rcases Nat.eq_or_lt_of_le hle with h | h
    · subst h; rw [← e]; exact h1
    · have := List.pairwise_iff_getElem.1 hs _ _ hl hlen h
      rw [← e]; exact lt_trans h1 this

/-- C52: for a time inside the range of the breakpoints the piece that is selected is the one in charge; outside of it the call throws. -/
theorem C52_lookup (p : PP K) (rows : Nat) (hp : PPOk p rows) (t first last : K) (hf : p.breaks.head? = some first)
    (hl : p.breaks.getLast? = some last) :
    (first ≤ t → t ≤ last → ∃ i, findPolynomialIndex p t = .ok (i, if p.startAtZero then t - p.breaks.getD i 0 else t) ∧
      InCharge p t i ∧ i < p.cols.length) ∧
    (t < first ∨ last < t → findPolynomialIndex p t = .error .invalid) := by
  obtain ⟨h1, h2, h3⟩ := lowerBound_spec p.breaks hp.sorted t
  have hc : 1 ≤ p.cols.length := List.length_pos_iff.2 hp.some
  have hn : 2 ≤ p.breaks.length := by have := hp.size; omega
  have hf0 : p.breaks[0]? = some first := by rw [← List.head?_eq_getElem?]; exact hf
  have hl0 : p.breaks[p.breaks.length - 1]? = some last := by rw [← List.getLast?_eq_getElem?]; exact hl
  have hlD : p.breaks.getLastD 0 = last := by
    rw [List.getLastD_eq_getLast?, hl]; rfl
  constructor
  · intro ha hb
    have hit0 : lowerBound p.breaks t ≠ 0 := by
      intro h
      exact absurd (h2 0 first hf0 (by omega)) (not_lt.2 ha)
    unfold findPolynomialIndex
    simp only
    rw [if_neg hit0]
    by_cases hit : lowerBound p.breaks t = p.breaks.length
    · rw [if_pos hit, hlD, if_neg (not_lt.2 hb), if_neg (by omega)]
      have he : last ≤ t := h1 _ last hl0 (by omega)
      have hlt : p.breaks.length - 2 < p.breaks.length := by omega
      refine ⟨p.breaks.length - 2, rfl, ⟨p.breaks[p.breaks.length - 2], last, List.getElem?_eq_getElem hlt, ?_, ?_, Or.inr ⟨le_antisymm hb he, by omega⟩⟩, by have := hp.size; omega⟩
      · rw [show p.breaks.length - 2 + 1 = p.breaks.length - 1 from by omega]; exact hl0
      · exact h1 _ _ (List.getElem?_eq_getElem hlt) (by omega)
    · rw [if_neg hit, if_neg (by omega)]
      have hlt : lowerBound p.breaks t < p.breaks.length := by omega
      have hlt' : lowerBound p.breaks t - 1 < p.breaks.length := by omega
      refine ⟨_, rfl, ⟨p.breaks[lowerBound p.breaks t - 1], p.breaks[lowerBound p.breaks t], List.getElem?_eq_getElem hlt', ?_, ?_, Or.inl ?_⟩, by have := hp.size; omega⟩
      · rw [show lowerBound p.breaks t - 1 + 1 = lowerBound p.breaks t from by omega]
        exact List.getElem?_eq_getElem hlt
      · exact h1 _ _ (List.getElem?_eq_getElem hlt') (by omega)
      · exact h2 _ _ (List.getElem?_eq_getElem hlt) (le_refl _)
  · intro h
    unfold findPolynomialIndex
    simp only
    rcases h with h | h
    · have hit0 : lowerBound p.breaks t = 0 := by
        by_contra hne
        exact absurd (h1 0 first hf0 (by omega)) (not_le.2 h)
      rw [if_pos hit0, if_pos rfl]
    · have hit : lowerBound p.breaks t = p.breaks.length := by
        by_contra hne
        exact absurd (h2 _ last hl0 (by omega)) (not_lt.2 h.le)
      have hne : lowerBound p.breaks t ≠ 0 := by omega
      rw [if_neg hne, if_pos hit, hlD, if_pos h, if_pos rfl]

/-- C52: value and derivatives are those of the polynomial in charge, at the time from the start of the piece if the flag is set; never a
column out of range. -/
theorem C52_value (p : PP K) (rows : Nat) (hp : PPOk p rows) (hr : rows ≤ 10) (t first last : K) (hf : p.breaks.head? = some first)
    (hl : p.breaks.getLast? = some last) (ha : first ≤ t) (hb : t ≤ last) :
    ∃ i a lo, InCharge p t i ∧ p.cols[i]? = some a ∧ p.breaks[i]? = some lo ∧
      ppVal p t = .ok (some ((toPoly a).eval (if p.startAtZero then t - lo else t))) ∧
      ∀ k, ppJac p rows t k = .ok (some ((derivative^[k] (toPoly a)).eval (if p.startAtZero then t - lo else t))) := by
  obtain ⟨i, hi, hc, hlt⟩ := (C52_lookup p rows hp t first last hf hl).1 ha hb
  obtain ⟨lo, hi', e1, e2, e3, e4⟩ := hc
  have hcol : p.cols[i]? = some p.cols[i] := List.getElem?_eq_getElem hlt
  have hD : p.breaks.getD i 0 = lo := by rw [List.getD_eq_getElem?_getD, e1]; rfl
  rw [hD] at hi
  have hlen : p.cols[i].length = rows := hp.rowsOk _ (List.getElem_mem hlt)
  refine ⟨i, p.cols[i], lo, ⟨lo, hi', e1, e2, e3, e4⟩, hcol, e1, ?_, fun k => ?_⟩
  · unfold ppVal
    rw [hi]
    simp only [hcol, Option.map_some, val_eq]
  · have hj := (C75_polynomial p.cols[i] (if p.startAtZero then t - lo else t) k).2.1 (by rw [hlen]; exact hr)
    unfold jac at hj
    rw [hlen] at hj
    unfold ppJac
    by_cases hk : rows ≤ k
    · rw [if_pos hk] at hj ⊢
      rw [← Except.ok.inj hj]
    · rw [if_neg hk, if_neg (by omega)] at hj ⊢
      rw [hi]
      simp only [hcol]
      rw [Except.ok.inj hj]

/-- C52: a derivative of an order at least the number of coefficients is 0 even outside of the range, where it should throw. -/
theorem C52_high_order_counterexample (p : PP K) (rows k : Nat) (t : K) (h : rows ≤ k) : ppJac p rows t k = .ok (some 0) := by
  unfold ppJac; rw [if_pos h]

def ppEx : PP ℚ := ⟨[0, 1, 3], [[1, 2], [3, 0]], true⟩

example : PPOk ppEx 2 := ⟨by decide +kernel, rfl, by decide, by decide +kernel⟩
example : findPolynomialIndex ppEx 1 = .ok (1, 0) := by decide +kernel
example : findPolynomialIndex ppEx 3 = .ok (1, 2) := by decide +kernel
example : findPolynomialIndex ppEx 4 = .error .invalid := by decide +kernel

end Verif.TimeParam
