import Verif.Path.Straight
import Mathlib.Data.List.Chain
import Mathlib.Algebra.Order.Archimedean.Basic
set_option linter.unusedSectionVars false

/-!
# Discretized path validation (C29, C30)

The path is a value of a type `P` with the interface `Ops` of class `Path`; the configuration validation called at each sample is
an arbitrary predicate `okc` (the conjunction of C37).  Numbers are those of an ordered field, rounding is not modelled.
-/
namespace Verif.Validation
open Verif.PathV
variable {K C P : Type} [Field K] [LinearOrder K] [IsStrictOrderedRing K]

/-- Result of the sampling loop: `valid`, `lastValidTime`, parameter of the report, number of calls of `path->eval`. -/
structure DRes (K : Type) where
  valid : Bool
  last : K
  fail : Option K
  tests : Nat
  deriving DecidableEq, Repr

/-- `(reverse && t < T1) || (!reverse && t > T1)`: src/path-validation/discretized.cc:92. -/
def past (rev : Bool) (t T1 : K) : Prop := (rev = true ∧ t < T1) ∨ (rev = false ∧ T1 < t)

instance (rev : Bool) (t T1 : K) : Decidable (past rev t T1) := by unfold past; infer_instance

/-- The loop of `Discretized::validate`: discretized.cc:77-96.  `ok t` is the conjunction of the success of `path->eval(q, t)` and of
the configuration validation of `q`.  When it fails `valid` becomes false and the loop stops (the update of `t` and `finished` at
lines 92-95 is then not observable). -/
def discLoop (ok : K → Bool) (T1 step : K) (rev : Bool) : Nat → K → K → Nat → Nat → Except Err (DRes K)
  | 0, _, _, _, _ => .error .outOfFuel
  | fuel + 1, t, last, fin, n =>
    if fin < 2 then
      if ok t then
        if past rev (t + step) T1 then discLoop ok T1 step rev fuel T1 t (fin + 1) (n + 1)
        else discLoop ok T1 step rev fuel (t + step) t fin (n + 1)
      else .ok ⟨false, last, some t, n + 1⟩
    else .ok ⟨true, last, none, n⟩

/-- `path->eval(q, t)` succeeds and the configuration validations accept `q`: discretized.cc:78-87. -/
def sampleOk (O : Ops K C P) (okc : C → Bool) (p : P) (t : K) : Bool :=
  match O.eval p t with
  | .ok q => okc q
  | .error _ => false

/-- `Discretized::validate (path, reverse, validPart, report)`: discretized.cc:55-107.  Returns the Boolean, the valid part, the parameter
of the report and the number of samples. -/
def discretized (O : Ops K C P) (okc : C → Bool) (stepSize : K) (rev : Bool) (fuel : Nat) (p : P) :
    Except Err (Bool × P × Option K × Nat) := do
  let t0 := if rev then O.hi p else O.lo p
  let T1 := if rev then O.lo p else O.hi p
  let step := if rev then -stepSize else stepSize
  let r ← discLoop (sampleOk O okc p) T1 step rev fuel t0 t0 0 0
  if r.valid then .ok (true, p, r.fail, r.tests)
  else do
    let part ← if rev then O.extract p r.last (O.hi p) else O.extract p (O.lo p) r.last
    .ok (false, part, r.fail, r.tests)

/-! ## Specification -/

/-- The configuration of `p` at parameter `t` exists and is accepted. -/
def Good (O : Ops K C P) (okc : C → Bool) (p : P) (t : K) : Prop := ∃ q, O.eval p t = .ok q ∧ okc q = true

/-- `L` goes from `a` to `b`, is non decreasing, consecutive elements differ by at most `h`. -/
structure Sampling (L : List K) (a b h : K) : Prop where
  head : L.head? = some a
  last : L.getLast? = some b
  gaps : L.IsChain (fun x y => x ≤ y ∧ y - x ≤ h)

/-! ## Lemmas -/

theorem sampleOk_iff (O : Ops K C P) (okc : C → Bool) (p : P) (t : K) : sampleOk O okc p t = true ↔ Good O okc p t := by
  unfold sampleOk Good
  cases O.eval p t <;> simp

theorem Sampling.snoc {L : List K} {a b h c : K} (hL : Sampling L a b h) (h1 : b ≤ c) (h2 : c - b ≤ h) :
    Sampling (L ++ [c]) a c h := by
  refine ⟨?_, by simp, ?_⟩
  · have := hL.head
    cases L with
    | nil => simp at this
    | cons x l => simpa using this
  · refine List.isChain_append.2 ⟨hL.gaps, by simp, ?_⟩
    intro x hx y hy
    have : x = b := by
      have := hL.last; rw [this] at hx; simpa using hx.symm
    simp at hy
    subst hy; subst this
    exact ⟨h1, h2⟩

/-- The samples have no gap larger than `h`: every parameter of `[a, b]` is at distance at most `h` of a sample on its left. -/
theorem Sampling.near {L : List K} {a b h : K} (hL : Sampling L a b h) (t : K) (h1 : a ≤ t) (h2 : t ≤ b) :
    ∃ x ∈ L, x ≤ t ∧ t - x ≤ h ∨ x = t := by
  obtain ⟨hh, hl, hg⟩ := hL
  induction L generalizing a with
  | nil => simp at hh
  | cons x l ih =>
    have hxa : x = a := by simpa using hh
    subst hxa
    cases l with
    | nil =>
      have : x = b := by simpa using hl
      subst this
      exact ⟨x, by simp, Or.inr (le_antisymm h1 h2)⟩
    | cons y l =>
      by_cases hy : t < y
      · refine ⟨x, by simp, Or.inl ⟨h1, ?_⟩⟩
        have := (List.isChain_cons_cons.1 hg).1.2
        linarith
      · push Not at hy
        obtain ⟨z, hz, hh⟩ := ih hy (by simp) (by simpa using hl) (List.isChain_cons_cons.1 hg).2
        exact ⟨z, by simp [hz], hh⟩

/-- Every parameter of `[a, b]` is between two samples that differ by at most `h`. -/
theorem Sampling.between {L : List K} {a b h : K} (hL : Sampling L a b h) (h0 : 0 ≤ h) (t : K) (h1 : a ≤ t) (h2 : t ≤ b) :
    ∃ x ∈ L, ∃ y ∈ L, x ≤ t ∧ t ≤ y ∧ y - x ≤ h := by
  obtain ⟨hh, hl, hg⟩ := hL
  induction L generalizing a with
  | nil => simp at hh
  | cons x l ih =>
    have hxa : x = a := by simpa using hh
    subst hxa
    cases l with
    | nil =>
      have : x = b := by simpa using hl
      subst this
      exact ⟨x, by simp, x, by simp, h1, h2, by simpa using h0⟩
    | cons y l =>
      by_cases hy : t < y
      · exact ⟨x, by simp, y, by simp, h1, hy.le, (List.isChain_cons_cons.1 hg).1.2⟩
      · push Not at hy
        obtain ⟨u, hu, v, hv, hh⟩ := ih hy (by simp) (by simpa using hl) (List.isChain_cons_cons.1 hg).2
        exact ⟨u, by simp [hu], v, by simp [hv], hh⟩

/-- A sampling goes forwards. -/
theorem Sampling.le {L : List K} {a b h : K} (hL : Sampling L a b h) : a ≤ b := by
  obtain ⟨hh, hl, hg⟩ := hL
  induction L generalizing a with
  | nil => simp at hh
  | cons x l ih =>
    have hxa : x = a := by simpa using hh
    subst hxa
    cases l with
    | nil =>
      have : x = b := by simpa using hl
      exact this.le
    | cons y l => exact (List.isChain_cons_cons.1 hg).1.1.trans (ih (by simp) (by simpa using hl) (List.isChain_cons_cons.1 hg).2)

/-- Reverse loop = mirrored forward loop. -/
theorem discLoop_mirror (ok : K → Bool) (T1 h : K) (fuel : Nat) (t last : K) (fin n : Nat) :
    discLoop ok T1 (-h) true fuel t last fin n =
      (discLoop (fun x => ok (-x)) (-T1) h false fuel (-t) (-last) fin n).map
        (fun r => ⟨r.valid, -r.last, r.fail.map (fun x => -x), r.tests⟩) := by
  induction fuel generalizing t last fin n with
  | zero => rfl
  | succ fuel ih =>
    unfold discLoop
    have e : past true (t + -h) T1 ↔ past false (-t + h) (-T1) := by
      simp only [past]
      constructor
      · rintro (⟨-, h⟩ | ⟨h, -⟩)
        · right; exact ⟨trivial, by linarith⟩
        · simp at h
      · rintro (⟨h, -⟩ | ⟨-, h⟩)
        · simp at h
        · left; exact ⟨trivial, by linarith⟩
    by_cases hf : fin < 2
    · rw [if_pos hf, if_pos hf]
      simp only [neg_neg]
      by_cases ho : ok t = true
      · simp only [ho, if_true, e]
        split
        · rw [ih]
        · rw [ih]; congr 3; ring_nf
      · simp [ho, Except.map]
    · rw [if_neg hf, if_neg hf]
      simp [Except.map]

/-- Invariant of the forward loop. -/
structure DInv (ok : K → Bool) (a b h t last : K) (fin : Nat) : Prop where
  st : (t = a ∧ last = a ∧ fin = 0) ∨ ∃ L, Sampling L a last h ∧ (∀ x ∈ L, ok x = true) ∧ a ≤ last ∧
    ((fin = 0 ∧ t = last + h ∧ t ≤ b) ∨ (fin = 1 ∧ t = b ∧ last ≤ b ∧ b - last ≤ h) ∨ (fin = 2 ∧ t = b ∧ last = b))

theorem discLoop_spec (ok : K → Bool) (a b h : K) (hab : a ≤ b) (hh : 0 < h) (fuel : Nat) (t last : K) (fin n : Nat) (r : DRes K)
    (inv : DInv ok a b h t last fin) (hr : discLoop ok b h false fuel t last fin n = .ok r) :
    (r.valid = true → r.fail = none ∧ ∃ L, Sampling L a b h ∧ ∀ x ∈ L, ok x = true) ∧
    (r.valid = false → ∃ tf, r.fail = some tf ∧ ok tf = false ∧ tf ≤ b ∧
      ((tf = a ∧ r.last = a) ∨
       ∃ L, Sampling L a r.last h ∧ (∀ x ∈ L, ok x = true) ∧ a ≤ r.last ∧ r.last < tf ∧ tf - r.last ≤ h)) := by
  induction fuel generalizing t last fin n with
  | zero => simp [discLoop] at hr
  | succ fuel ih =>
    unfold discLoop at hr
    by_cases hf : fin < 2
    · rw [if_pos hf] at hr
      by_cases ho : ok t = true
      · rw [if_pos ho] at hr
        have htb : t ≤ b := by
          rcases inv.st with ⟨rfl, -, -⟩ | ⟨L, -, -, -, ⟨-, -, h⟩ | ⟨-, rfl, -, -⟩ | ⟨-, rfl, -⟩⟩
          exacts [hab, h, le_rfl, le_rfl]
        -- the list of samples extended with `t`
        obtain ⟨L', hL', hok', hat⟩ : ∃ L', Sampling L' a t h ∧ (∀ x ∈ L', ok x = true) ∧ a ≤ t := by
          rcases inv.st with ⟨rfl, -, -⟩ | ⟨L, hL, hok, hal, hc⟩
          · exact ⟨[t], ⟨by simp, by simp, by simp⟩, by simpa using ho, le_rfl⟩
          · have h1 : last ≤ t ∧ t - last ≤ h := by
              rcases hc with ⟨-, rfl, -⟩ | ⟨-, rfl, h1, h2⟩ | ⟨-, rfl, rfl⟩
              · constructor <;> linarith
              · exact ⟨h1, h2⟩
              · constructor <;> linarith
            refine ⟨L ++ [t], hL.snoc h1.1 h1.2, ?_, le_trans hal h1.1⟩
            intro x hx
            rcases List.mem_append.1 hx with hx | hx
            · exact hok x hx
            · simp at hx; rw [hx]; exact ho
        by_cases hp : past false (t + h) b
        · rw [if_pos hp] at hr
          have hp' : b < t + h := by simpa [past] using hp
          refine ih b t (fin + 1) (n + 1) ⟨Or.inr ⟨L', hL', hok', hat, ?_⟩⟩ hr
          right
          have hfin : fin = 0 ∨ fin = 1 := by omega
          rcases hfin with rfl | rfl
          · left; exact ⟨rfl, rfl, htb, by linarith⟩
          · right
            rcases inv.st with ⟨-, -, h0⟩ | ⟨L, -, -, -, ⟨h0, -, -⟩ | ⟨-, rfl, -, -⟩ | ⟨h0, -, -⟩⟩
            · exact absurd h0 (by decide)
            · exact absurd h0 (by decide)
            · exact ⟨rfl, rfl, rfl⟩
            · exact absurd h0 (by decide)
        · rw [if_neg hp] at hr
          have hp' : t + h ≤ b := by simpa [past] using hp
          refine ih (t + h) t fin (n + 1) ⟨Or.inr ⟨L', hL', hok', hat, Or.inl ⟨?_, rfl, hp'⟩⟩⟩ hr
          rcases inv.st with ⟨-, -, h0⟩ | ⟨L, -, -, -, ⟨h0, -, -⟩ | ⟨-, rfl, -, -⟩ | ⟨h0, -, -⟩⟩
          · exact h0
          · exact h0
          · exfalso; linarith
          · omega
      · rw [if_neg ho] at hr
        obtain rfl := Except.ok.inj hr
        refine ⟨by simp, fun _ => ⟨t, rfl, by simpa using ho, ?_, ?_⟩⟩
        · rcases inv.st with ⟨rfl, -, -⟩ | ⟨L, -, -, -, ⟨-, -, h⟩ | ⟨-, rfl, -, -⟩ | ⟨-, rfl, -⟩⟩
          exacts [hab, h, le_rfl, le_rfl]
        · rcases inv.st with ⟨h1, h2, -⟩ | ⟨L, hL, hok, hal, hc⟩
          · exact Or.inl ⟨h1, h2⟩
          · refine Or.inr ⟨L, hL, hok, hal, ?_⟩
            have hlast : ok last = true := hok last (List.mem_of_getLast? hL.last)
            have hne : last ≠ t := by rintro rfl; exact ho hlast
            rcases hc with ⟨-, rfl, -⟩ | ⟨-, rfl, h1, h2⟩ | ⟨-, rfl, rfl⟩
            · constructor <;> simp [hh]
            · exact ⟨lt_of_le_of_ne h1 hne, h2⟩
            · exact absurd rfl hne
    · rw [if_neg hf] at hr
      obtain rfl := Except.ok.inj hr
      refine ⟨fun _ => ⟨rfl, ?_⟩, by simp⟩
      rcases inv.st with ⟨-, -, rfl⟩ | ⟨L, hL, hok, -, ⟨rfl, -, -⟩ | ⟨rfl, -, -, -⟩ | ⟨-, -, rfl⟩⟩
      · simp at hf
      · simp at hf
      · simp at hf
      · exact ⟨L, hL, hok⟩

/-- Number of tests: with at most `m` steps left before passing `b` (or `finished = 1`), the loop ends. -/
theorem discLoop_bound (ok : K → Bool) (b h : K) (hh : 0 < h) (m fuel : Nat) (t last : K) (fin n : Nat)
    (hm : (fin = 0 ∧ t ≤ b ∧ b - t < m * h ∧ m + 1 < fuel) ∨ (fin = 1 ∧ t = b ∧ m = 0 ∧ 1 < fuel) ∨ (fin = 2 ∧ 0 < fuel ∧ m = 0)) :
    ∃ r, discLoop ok b h false fuel t last fin n = .ok r ∧ r.tests ≤ n + (m + if fin = 2 then 0 else 1) := by
  induction fuel generalizing t last fin n m with
  | zero => rcases hm with ⟨-, -, -, h⟩ | ⟨-, -, -, h⟩ | ⟨-, h, -⟩ <;> omega
  | succ fuel ih =>
    unfold discLoop
    rcases hm with ⟨rfl, htb, hm, hfu⟩ | ⟨rfl, rfl, rfl, hfu⟩ | ⟨rfl, -, rfl⟩
    · rw [if_pos (by decide : 0 < 2)]
      have hm0 : m ≠ 0 := by
        rintro rfl
        simp at hm
        linarith
      by_cases ho : ok t = true
      · rw [if_pos ho]
        by_cases hp : past false (t + h) b
        · rw [if_pos hp]
          obtain ⟨r, hr, hn⟩ := ih 0 b t 1 (n + 1) (Or.inr (Or.inl ⟨rfl, rfl, rfl, by omega⟩))
          refine ⟨r, by simpa using hr, ?_⟩
          simp at hn ⊢
          omega
        · rw [if_neg hp]
          have hp' : t + h ≤ b := by simpa [past] using hp
          obtain ⟨k, rfl⟩ := Nat.exists_eq_succ_of_ne_zero hm0
          have : b - (t + h) < k * h := by
            push_cast at hm
            linarith
          obtain ⟨r, hr, hn⟩ := ih k (t + h) t 0 (n + 1) (Or.inl ⟨rfl, hp', this, by omega⟩)
          refine ⟨r, hr, ?_⟩
          simp at hn ⊢
          omega
      · rw [if_neg ho]
        exact ⟨_, rfl, by simp⟩
    · rw [if_pos (by decide : 1 < 2)]
      by_cases ho : ok t = true
      · rw [if_pos ho]
        have hp : past false (t + h) t := by simp [past, hh]
        rw [if_pos hp]
        obtain ⟨r, hr, hn⟩ := ih 0 t t 2 (n + 1) (Or.inr (Or.inr ⟨rfl, by omega, rfl⟩))
        exact ⟨r, hr, by simpa using hn⟩
      · rw [if_neg ho]
        exact ⟨_, rfl, by simp⟩
    · rw [if_neg (by decide)]
      exact ⟨_, rfl, by simp⟩

theorem DInv.init (ok : K → Bool) (a b h : K) : DInv ok a b h a a 0 := ⟨Or.inl ⟨rfl, rfl, rfl⟩⟩

theorem sampling_mirror {L : List K} {a b h : K} (hL : Sampling L (-b) (-a) h) :
    Sampling (L.map (fun x => -x)).reverse a b h := by
  refine ⟨?_, ?_, ?_⟩
  · rw [List.head?_reverse, List.getLast?_map, hL.last]; simp
  · rw [List.getLast?_reverse, List.head?_map, hL.head]; simp
  · rw [List.isChain_reverse, List.isChain_map]
    refine hL.gaps.imp ?_
    intro x y hxy
    constructor <;> linarith [hxy.1, hxy.2]

/-! ## Properties -/

/-- C29, acceptance: if `validate` returns true (in any direction), then the path is returned whole and there is a sampling of its
time range, containing both ends, with gaps at most the step, all the samples of which have been accepted. -/
theorem C29_valid (O : Ops K C P) (okc : C → Bool) (h : K) (hh : 0 < h) (rev : Bool) (fuel : Nat) (p : P)
    (hp : O.lo p ≤ O.hi p) (vp : P) (rep : Option K) (n : Nat)
    (hr : discretized O okc h rev fuel p = .ok (true, vp, rep, n)) :
    vp = p ∧ rep = none ∧ ∃ L, Sampling L (O.lo p) (O.hi p) h ∧ ∀ t ∈ L, Good O okc p t := by
  cases rev with
  | false =>
    simp only [discretized, Bool.false_eq_true, if_false] at hr
    cases hl : discLoop (sampleOk O okc p) (O.hi p) h false fuel (O.lo p) (O.lo p) 0 0 with
    | error e => rw [hl] at hr; simp [bind, Except.bind] at hr
    | ok r =>
      rw [hl] at hr
      simp only [bind, Except.bind] at hr
      have sp := discLoop_spec _ _ _ h hp hh fuel _ _ 0 0 r (DInv.init _ _ _ _) hl
      cases hv : r.valid with
      | true =>
        rw [hv] at hr
        simp at hr
        obtain ⟨h1, L, h2, h3⟩ := sp.1 hv
        exact ⟨hr.1.symm, hr.2.1 ▸ h1, L, h2, fun t ht => (sampleOk_iff O okc p t).1 (h3 t ht)⟩
      | false =>
        rw [hv] at hr
        simp only [Bool.false_eq_true, if_false] at hr
        cases he : O.extract p (O.lo p) r.last with
        | error e => rw [he] at hr; simp at hr
        | ok q => rw [he] at hr; simp at hr
  | true =>
    simp only [discretized, if_true] at hr
    rw [discLoop_mirror] at hr
    cases hl : discLoop (fun x => sampleOk O okc p (-x)) (-O.lo p) h false fuel (-O.hi p) (-O.hi p) 0 0 with
    | error e => rw [hl] at hr; simp [bind, Except.bind, Except.map] at hr
    | ok r =>
      rw [hl] at hr
      simp only [bind, Except.bind, Except.map] at hr
      have sp := discLoop_spec _ _ _ h (by linarith : -O.hi p ≤ -O.lo p) hh fuel _ _ 0 0 r (DInv.init _ _ _ _) hl
      cases hv : r.valid with
      | true =>
        rw [hv] at hr
        simp at hr
        obtain ⟨h1, L, h2, h3⟩ := sp.1 hv
        rw [h1] at hr
        refine ⟨hr.1.symm, by simpa using hr.2.1.symm, _, sampling_mirror h2, ?_⟩
        intro t ht
        simp at ht
        refine (sampleOk_iff O okc p t).1 ?_
        simpa using h3 (-t) ht
      | false =>
        rw [hv] at hr
        simp only [Bool.false_eq_true, if_false] at hr
        cases he : O.extract p (-r.last) (O.hi p) with
        | error e => rw [he] at hr; simp at hr
        | ok q => rw [he] at hr; simp at hr

/-- C29, rejection: if `validate` returns false, the reported parameter is in the time range and rejected; the valid part is either the
degenerate path at the starting end (when that end is the rejected parameter) or the extraction up to an accepted parameter strictly
before the rejected one (after when `reverse`), at most one step away from it, the samples on it being all accepted. -/
theorem C29_fail (O : Ops K C P) (okc : C → Bool) (h : K) (hh : 0 < h) (rev : Bool) (fuel : Nat) (p : P)
    (hp : O.lo p ≤ O.hi p) (vp : P) (rep : Option K) (n : Nat)
    (hr : discretized O okc h rev fuel p = .ok (false, vp, rep, n)) :
    ∃ tf, rep = some tf ∧ O.lo p ≤ tf ∧ tf ≤ O.hi p ∧ ¬ Good O okc p tf ∧
      if rev then
        (tf = O.hi p ∧ O.extract p (O.hi p) (O.hi p) = .ok vp) ∨
        ∃ tl L, O.extract p tl (O.hi p) = .ok vp ∧ Sampling L tl (O.hi p) h ∧ (∀ t ∈ L, Good O okc p t) ∧ tf < tl ∧ tl - tf ≤ h
      else
        (tf = O.lo p ∧ O.extract p (O.lo p) (O.lo p) = .ok vp) ∨
        ∃ tl L, O.extract p (O.lo p) tl = .ok vp ∧ Sampling L (O.lo p) tl h ∧ (∀ t ∈ L, Good O okc p t) ∧ tl < tf ∧ tf - tl ≤ h := by
  cases rev with
  | false =>
    simp only [discretized, Bool.false_eq_true, if_false] at hr ⊢
    cases hl : discLoop (sampleOk O okc p) (O.hi p) h false fuel (O.lo p) (O.lo p) 0 0 with
    | error e => rw [hl] at hr; simp [bind, Except.bind] at hr
    | ok r =>
      rw [hl] at hr
      simp only [bind, Except.bind] at hr
      have sp := discLoop_spec _ _ _ h hp hh fuel _ _ 0 0 r (DInv.init _ _ _ _) hl
      cases hv : r.valid with
      | true => rw [hv] at hr; simp at hr
      | false =>
        rw [hv] at hr
        simp only [Bool.false_eq_true, if_false] at hr
        cases he : O.extract p (O.lo p) r.last with
        | error e => rw [he] at hr; simp at hr
        | ok q =>
          rw [he] at hr
          simp at hr
          obtain ⟨rfl, rfl, -⟩ := hr
          obtain ⟨tf, hf, hb, htb, hc⟩ := sp.2 hv
          have hng : ¬ Good O okc p tf := by rw [← sampleOk_iff, hb]; simp
          rcases hc with ⟨rfl, h2⟩ | ⟨L, hL, hok, h1, h2, h3⟩
          · exact ⟨_, hf, le_rfl, hp, hng, Or.inl ⟨rfl, h2 ▸ he⟩⟩
          · exact ⟨tf, hf, by linarith, htb, hng, Or.inr ⟨r.last, L, he, hL,
              fun t ht => (sampleOk_iff O okc p t).1 (hok t ht), h2, h3⟩⟩
  | true =>
    simp only [discretized, if_true] at hr ⊢
    rw [discLoop_mirror] at hr
    cases hl : discLoop (fun x => sampleOk O okc p (-x)) (-O.lo p) h false fuel (-O.hi p) (-O.hi p) 0 0 with
    | error e => rw [hl] at hr; simp [bind, Except.bind, Except.map] at hr
    | ok r =>
      rw [hl] at hr
      simp only [bind, Except.bind, Except.map] at hr
      have sp := discLoop_spec _ _ _ h (by linarith : -O.hi p ≤ -O.lo p) hh fuel _ _ 0 0 r (DInv.init _ _ _ _) hl
      cases hv : r.valid with
      | true => rw [hv] at hr; simp at hr
      | false =>
        rw [hv] at hr
        simp only [Bool.false_eq_true, if_false] at hr
        cases he : O.extract p (-r.last) (O.hi p) with
        | error e => rw [he] at hr; simp at hr
        | ok q =>
          rw [he] at hr
          simp at hr
          obtain ⟨rfl, rfl, -⟩ := hr
          obtain ⟨tf, hf, hb, htb, hc⟩ := sp.2 hv
          have hng : ¬ Good O okc p (-tf) := by rw [← sampleOk_iff, hb]; simp
          rcases hc with ⟨h1, h2⟩ | ⟨L, hL, hok, h1, h2, h3⟩
          · refine ⟨-tf, by simp [hf], by linarith, by linarith, hng, Or.inl ⟨by linarith, ?_⟩⟩
            rw [h2, neg_neg] at he
            exact he
          · refine ⟨-tf, by simp [hf], by linarith, by linarith, hng, Or.inr ⟨-r.last, _, he,
              sampling_mirror (by simpa using hL), ?_, by linarith, by linarith⟩⟩
            intro t ht
            simp at ht
            exact (sampleOk_iff O okc p t).1 (by simpa using hok (-t) ht)

/-- C30, termination: with a positive step, if `m` steps exceed the length of the path then the loop ends within `m + 2` iterations and
makes at most `m + 1` evaluations of the path. -/
theorem C30_terminates (O : Ops K C P) (okc : C → Bool) (h : K) (hh : 0 < h) (rev : Bool) (fuel m : Nat) (p : P)
    (hp : O.lo p ≤ O.hi p) (hm : O.hi p - O.lo p < m * h) (hfuel : m + 2 ≤ fuel)
    (hex : ∀ a b, ∃ q, O.extract p a b = .ok q) :
    ∃ v vp rep n, discretized O okc h rev fuel p = .ok (v, vp, rep, n) ∧ n ≤ m + 1 := by
  cases rev with
  | false =>
    obtain ⟨r, hr, hn⟩ := discLoop_bound (sampleOk O okc p) (O.hi p) h hh m fuel (O.lo p) (O.lo p) 0 0
      (Or.inl ⟨rfl, hp, hm, by omega⟩)
    simp at hn
    simp only [discretized, Bool.false_eq_true, if_false, hr, bind, Except.bind]
    cases hv : r.valid with
    | true => exact ⟨_, _, _, _, rfl, hn⟩
    | false =>
      obtain ⟨q, hq⟩ := hex (O.lo p) r.last
      simp only [hq]
      exact ⟨_, _, _, _, rfl, hn⟩
  | true =>
    obtain ⟨r, hr, hn⟩ := discLoop_bound (fun x => sampleOk O okc p (-x)) (-O.lo p) h hh m fuel (-O.hi p) (-O.hi p) 0 0
      (Or.inl ⟨rfl, by linarith, by linarith, by omega⟩)
    simp at hn
    simp only [discretized, if_true]
    rw [discLoop_mirror, hr]
    simp only [bind, Except.bind, Except.map]
    cases hv : r.valid with
    | true => exact ⟨_, _, _, _, rfl, hn⟩
    | false =>
      obtain ⟨q, hq⟩ := hex (-r.last) (O.hi p)
      simp only [hq]
      exact ⟨_, _, _, _, rfl, hn⟩

/-- C30: the number of evaluations is at most `length / step + 2`. -/
theorem C30_count [Archimedean K] (O : Ops K C P) (okc : C → Bool) (h : K) (hh : 0 < h) (rev : Bool) (p : P)
    (hp : O.lo p ≤ O.hi p) (hex : ∀ a b, ∃ q, O.extract p a b = .ok q) :
    ∃ fuel₀, ∀ fuel, fuel₀ ≤ fuel → ∃ v vp rep n, discretized O okc h rev fuel p = .ok (v, vp, rep, n) ∧
      (n : K) ≤ O.len p / h + 2 := by
  have hex' : ∃ m : Nat, O.hi p - O.lo p < m * h := by
    obtain ⟨m, hm⟩ := exists_nat_gt ((O.hi p - O.lo p) / h)
    exact ⟨m, (div_lt_iff₀ hh).1 hm⟩
  classical
  obtain ⟨m, hm, hmin⟩ : ∃ m : Nat, O.hi p - O.lo p < m * h ∧ ∀ k < m, (k : K) * h ≤ O.hi p - O.lo p :=
    ⟨Nat.find hex', Nat.find_spec hex', fun k hk => not_lt.1 (Nat.find_min hex' hk)⟩
  refine ⟨m + 2, fun fuel hf => ?_⟩
  obtain ⟨v, vp, rep, n, hr, hn⟩ := C30_terminates O okc h hh rev fuel m p hp hm hf hex
  refine ⟨v, vp, rep, n, hr, ?_⟩
  have hm0 : m ≠ 0 := by
    rintro rfl
    simp at hm
    linarith
  obtain ⟨k, rfl⟩ := Nat.exists_eq_succ_of_ne_zero hm0
  have h1 : (k : K) ≤ O.len p / h := (le_div_iff₀ hh).2 (hmin k (by omega))
  have h2 : (n : K) ≤ ((k.succ + 1 : Nat) : K) := by exact_mod_cast hn
  push_cast at h2
  linarith

theorem discLoop_zero (ok : K → Bool) (a b : K) (hab : a ≤ b) (ho : ok a = true) (fuel n : Nat) (last : K) :
    discLoop ok b 0 false fuel a last 0 n = .error .outOfFuel := by
  induction fuel generalizing n last with
  | zero => rfl
  | succ fuel ih =>
    unfold discLoop
    rw [if_pos (by decide : 0 < 2), if_pos ho, if_neg (by simp [past, hab]), add_zero]
    exact ih (n + 1) a

/-- C30, zero step: when the first sample is accepted the loop never ends, whatever the length (even null) of the path and the
direction. -/
theorem C30_zero_step (O : Ops K C P) (okc : C → Bool) (rev : Bool) (p : P) (hp : O.lo p ≤ O.hi p)
    (hg : Good O okc p (if rev then O.hi p else O.lo p)) (fuel : Nat) :
    discretized O okc 0 rev fuel p = .error .outOfFuel := by
  cases rev with
  | false =>
    simp only [discretized, Bool.false_eq_true, if_false]
    rw [discLoop_zero _ _ _ hp ((sampleOk_iff O okc p _).2 (by simpa using hg))]
    rfl
  | true =>
    simp only [discretized, if_true]
    rw [discLoop_mirror, discLoop_zero _ _ _ (by linarith) (by simpa using (sampleOk_iff O okc p _).2 (by simpa using hg))]
    rfl

/-! ## Examples -/

/-- A straight path of length 2 on the line, from 0 to 2, and the configurations below 3/2 accepted. -/
def exOps : Ops ℚ ℚ (ℚ × ℚ) where
  lo p := p.1
  hi p := p.2
  eval _ t := .ok t
  extract p a b := .ok (a, b)
  reverse p := .ok p
  constraints _ := none
  copyWith _ p := p

example : discretized exOps (fun q => q < 3 / 2) (1 / 4) false 20 (0, 2) = .ok (false, (0, 5 / 4), some (3 / 2), 7) := by
  decide +kernel

example : discretized exOps (fun q => q < 3 / 2) (1 / 4) true 20 (0, 2) = .ok (false, (2, 2), some 2, 1) := by
  decide +kernel

example : discretized exOps (fun q => 1 / 3 < q) (3 / 4) true 20 (0, 2) = .ok (false, (1 / 2, 2), some 0, 4) := by
  decide +kernel

example : discretized exOps (fun q => q < 3) (3 / 4) true 20 (0, 2) = .ok (true, (0, 2), none, 4) := by
  decide +kernel

/-- An obstacle thinner than the step is missed: the samples are accepted, the path is not. -/
theorem C29_between_samples_counterexample :
    ∃ (okc : ℚ → Bool) (n : Nat), discretized exOps okc (1 / 4) false 20 (0, 2) = .ok (true, (0, 2), none, n) ∧
      ∃ t, 0 ≤ t ∧ t ≤ 2 ∧ ¬ Good exOps okc (0, 2) t := by
  refine ⟨fun q => q != 1 / 8, 10, by decide +kernel, 1 / 8, by norm_num, by norm_num, ?_⟩
  rintro ⟨q, hq, h⟩
  simp [exOps] at hq
  subst hq
  simp at h

end Verif.Validation
