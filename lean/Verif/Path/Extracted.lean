import Verif.Path.InterpolatedProps
import Mathlib.Analysis.Calculus.IteratedDeriv.Lemmas

/-!
# Extraction decorator, time parameterization, and velocity bounds of path vectors (C23, C61, C62)
-/
set_option linter.unusedSectionVars false
namespace Verif.PathV
variable {K C : Type} [Field K] [LinearOrder K] [IsStrictOrderedRing K]

/-- Members of class `Path` (path.hh:236-345) together with its virtual `impl_compute`. -/
structure Gen (K C : Type) where
  /-- `impl_compute` -/
  impl : K → Except Err C
  cons : Option (Cst K C)
  /-- `timeParam_` -/
  tp : Option (K → K)
  /-- `timeRange_` -/
  tr : K × K
  /-- `paramRange_` -/
  pr : K × K

/-- `paramAtTime`: path.hh:340-345. -/
def Gen.paramAtTime (g : Gen K C) (t : K) : K :=
  match g.tp with
  | none => t
  | some f => f t

/-- `eval`: path.hh:130-140. -/
def Gen.eval (g : Gen K C) (t : K) : Except Err C :=
  constrained g.cons (g.paramAtTime t) (g.impl (g.paramAtTime t))

/-- `timeParameterization(tp, tr)`: path.hh:225-229, 283-290. -/
def Gen.setTime (g : Gen K C) (f : Option (K → K)) (tr : K × K) : Gen K C :=
  { g with tp := f, tr := tr, pr := match f with
    | none => tr
    | some f => (f tr.1, f tr.2) }

/-- Members of `ExtractedPath`: extracted-path.hh. -/
structure Ext (K C : Type) where
  original : Gen K C
  reversed : Bool
  cons : Option (Cst K C)
  tp : Option (K → K)
  tr : K × K
  pr : K × K

/-- Constructor: extracted-path.hh:149-164. -/
def Ext.create (o : Gen K C) (a b : K) : Ext K C :=
  let rev := ! decide (a ≤ b)
  let tr := if rev then (b, a) else (a, b)
  ⟨o, rev, o.cons, none, tr, tr⟩

/-- `sInOriginalPath`: extracted-path.hh:188-192. -/
def Ext.sIn (e : Ext K C) (s : K) : K := if e.reversed then e.pr.2 - s else s

/-- `impl_compute`: extracted-path.hh:79-82. -/
def Ext.impl (e : Ext K C) (s : K) : Except Err C := e.original.impl (e.sIn s)

/-- An extracted path as a path. -/
def Ext.toGen (e : Ext K C) : Gen K C := ⟨e.impl, e.cons, e.tp, e.tr, e.pr⟩

/-- `eval` of the base class. -/
def Ext.eval (e : Ext K C) (t : K) : Except Err C := e.toGen.eval t

/-- `initial`: extracted-path.hh:120-124. -/
def Ext.initial (e : Ext K C) : Except Err C := e.original.eval (if e.reversed then e.tr.2 else e.tr.1)

/-- `end`: extracted-path.hh:127-131. -/
def Ext.end_ (e : Ext K C) : Except Err C := e.original.eval (if e.reversed then e.tr.1 else e.tr.2)

/-- `impl_extract`: extracted-path.hh:102-117. -/
def Ext.extract (e : Ext K C) (a b : K) : Ext K C :=
  let tmin := e.sIn a
  let tmax := e.sIn b
  let rev := decide (tmax < tmin)
  let tr := if rev then (tmax, tmin) else (tmin, tmax)
  { e with reversed := rev, tp := none, tr := tr, pr := tr }

/-- `impl_velocityBound`: extracted-path.hh:95-100, given the method `velocityBound` of the original path. -/
def Ext.velocityBound {ι : Type} (vb : K → K → ι → K) (e : Ext K C) (t0 t1 : K) : ι → K :=
  let tmin := e.sIn t0
  let tmax := e.sIn t1
  if tmax < tmin then vb tmax tmin else vb tmin tmax

/-- `impl_derivative`: extracted-path.hh:84-93, given the derivatives of the original path. -/
def Ext.derivative (d : K → Nat → K) (e : Ext K C) (s : K) (order : Nat) : K :=
  if e.reversed then
    if order % 2 = 1 then - d (e.pr.2 - s) order else d (e.pr.2 - s) order
  else d s order

/-! ## C23 -/

/-- Constraints that do not depend on the parameter. -/
def ConstO (c : Option (Cst K C)) : Prop := ∀ c', c = some c' → ConstC c'

theorem constrained_const {c : Option (Cst K C)} (h : ConstO c) (s s' : K) (r : Except Err C) : constrained c s r = constrained c s' r := by
  cases r with
  | error e => rfl
  | ok q =>
    cases c with
    | none => rfl
    | some c' => exact h c' rfl s s' q

/-- **C23** (forward): extracting `[a, b]` with `a ≤ b` from a path without time parameterization gives a path of range `[a, b]` with the
same values, whose `initial` and `end` are its values at the ends. -/
theorem C23_forward (o : Gen K C) (ho : o.tp = none) (a b : K) (h : a ≤ b) :
    (Ext.create o a b).tr = (a, b) ∧ (∀ s, (Ext.create o a b).eval s = o.eval s) ∧
    (Ext.create o a b).initial = (Ext.create o a b).eval a ∧ (Ext.create o a b).end_ = (Ext.create o a b).eval b := by
  have e : ∀ s, (Ext.create o a b).eval s = o.eval s := by
    intro s
    simp [Ext.create, Ext.eval, Gen.eval, Ext.toGen, Gen.paramAtTime, Ext.impl, Ext.sIn, h, ho]
  refine ⟨by simp [Ext.create, h], e, ?_, ?_⟩
  · rw [e]; simp [Ext.create, Ext.initial, h]
  · rw [e]; simp [Ext.create, Ext.end_, h]

/-- **C23** (backward): extracting from `a` down to `0` gives a path of range `[0, a]` that traverses the original backwards, and
whose `initial` and `end` are its values at the ends.  Partial: only when the lower end is 0 (`C23_backward_iff`) and for constraints that
do not depend on the parameter. -/
theorem C23_backward_partial (o : Gen K C) (ho : o.tp = none) (hc : ConstO o.cons) (a : K) (h : 0 < a) :
    (Ext.create o a 0).tr = (0, a) ∧ (∀ s, (Ext.create o a 0).eval s = o.eval (a - s)) ∧
    (Ext.create o a 0).initial = (Ext.create o a 0).eval 0 ∧ (Ext.create o a 0).end_ = (Ext.create o a 0).eval a := by
  have e : ∀ s, (Ext.create o a 0).eval s = o.eval (a - s) := by
    intro s
    simp only [Ext.create, Ext.eval, Gen.eval, Ext.toGen, Gen.paramAtTime, Ext.impl, Ext.sIn, not_le.2 h, ho, decide_false, Bool.not_false, if_true]
    exact constrained_const hc _ _ _
  refine ⟨by simp [Ext.create, not_le.2 h], e, ?_, ?_⟩
  · rw [e]; simp [Ext.create, Ext.initial, not_le.2 h]
  · rw [e]; simp [Ext.create, Ext.end_, not_le.2 h]

/-- **C23** (backward, general lower end): for a path that does not take the same value twice, the path extracted from `a` down to `b`
takes the values of the original backwards if and only if `b = 0`. -/
theorem C23_backward_iff (o : Gen K C) (hinj : ∀ s s' q, o.impl s = .ok q → o.impl s' = .ok q → s = s') (hdef : ∀ s, ∃ q, o.impl s = .ok q)
    (a b : K) (h : b < a) :
    (∀ s, b ≤ s → s ≤ a → (Ext.create o a b).impl s = o.impl (a + b - s)) ↔ b = 0 := by
  have e : ∀ s, (Ext.create o a b).impl s = o.impl (a - s) := by
    intro s
    simp [Ext.create, Ext.impl, Ext.sIn, not_le.2 h]
  constructor
  · intro hs
    have := hs b (le_refl _) h.le
    rw [e] at this
    obtain ⟨q, hq⟩ := hdef (a + b - b)
    rw [hq] at this
    have := hinj _ _ q this hq
    linarith
  · rintro rfl s _ _
    rw [e, add_zero]

/-- **C23** (counterexample): the part of the identity between 2 and 1, reversed, does not start where its `initial()` says. -/
theorem C23_backward_counterexample :
    let o : Gen ℚ ℚ := ⟨fun s => .ok s, none, none, (0, 3), (0, 3)⟩
    (Ext.create o 2 1).tr = (1, 2) ∧ ((Ext.create o 2 1).initial).toOption = some 2 ∧ ((Ext.create o 2 1).eval 1).toOption = some 1 := by
  decide +kernel

/-- **C23** (composition): extracting again from an extracted path runs along the latter from `c` towards `d`.  Partial: when the result is
reversed its lower end must be 0. -/
theorem C23_compose_partial (e : Ext K C) (c d : K) (hr : (e.extract c d).reversed = true → (e.extract c d).pr.1 = 0) :
    (e.extract c d).pr.2 - (e.extract c d).pr.1 = |d - c| ∧
    (c ≤ d → ∀ x, 0 ≤ x → x ≤ d - c → (e.extract c d).impl ((e.extract c d).pr.1 + x) = e.impl (c + x)) ∧
    (d ≤ c → ∀ x, 0 ≤ x → x ≤ c - d → (e.extract c d).impl ((e.extract c d).pr.1 + x) = e.impl (c - x)) := by
  obtain ⟨o, rev, cons, tp, tr, pr⟩ := e
  cases rev with
  | false =>
    by_cases h : d < c
    · simp only [Ext.extract, Ext.sIn, Ext.impl, h, decide_true, if_true, Bool.false_eq_true, if_false] at hr ⊢
      have hr := hr trivial
      subst hr
      refine ⟨by rw [abs_sub_comm, abs_of_pos (sub_pos.2 h)], fun h' => absurd h (not_lt.2 h'), fun _ x _ _ => by congr 1; ring⟩
    · simp only [Ext.extract, Ext.sIn, Ext.impl, h, decide_false, Bool.false_eq_true, if_false] at hr ⊢
      refine ⟨by rw [abs_of_nonneg (sub_nonneg.2 (not_lt.1 h))], fun _ x _ _ => trivial, fun h' x x0 x1 => ?_⟩
      have hcd : c = d := le_antisymm (not_lt.1 h) h'
      have : x = 0 := le_antisymm (by linarith) x0
      subst this
      simp
  | true =>
    by_cases h : c < d
    · have h' : pr.2 - d < pr.2 - c := by linarith
      simp only [Ext.extract, Ext.sIn, Ext.impl, h', decide_true, if_true] at hr ⊢
      have hr := hr trivial
      refine ⟨by rw [abs_of_pos (sub_pos.2 h)]; ring, fun _ x _ _ => by congr 1; linarith, fun h'' => absurd h (not_lt.2 h'')⟩
    · have h' : ¬ pr.2 - d < pr.2 - c := by linarith
      simp only [Ext.extract, Ext.sIn, Ext.impl, h', decide_false, Bool.false_eq_true, if_false, if_true] at hr ⊢
      have h := not_lt.1 h
      refine ⟨by rw [abs_sub_comm, abs_of_nonneg (sub_nonneg.2 h)]; ring, fun h'' x x0 x1 => ?_, fun _ x _ _ => by congr 1; ring⟩
      have hcd : c = d := le_antisymm h'' h
      have : x = 0 := le_antisymm (by linarith) x0
      subst this
      simp

/-- Extracting `[0, 1]` from the reversed path of range `[0, 2]` starts in the middle of the original instead of its end. -/
theorem C23_compose_counterexample :
    let o : Gen ℚ ℚ := ⟨fun s => .ok s, none, none, (0, 2), (0, 2)⟩
    let e := Ext.create o 2 0
    (e.impl 0).toOption = some 2 ∧ ((e.extract 0 1).impl (e.extract 0 1).pr.1).toOption = some 1 := by
  decide +kernel

/-- Non trivial cases of the hypotheses of `C23_compose_partial`: forward, and backward with lower end 0. -/
example : let o : Gen ℚ ℚ := ⟨fun s => .ok s, none, none, (0, 5), (0, 5)⟩
    ((Ext.create o 1 4).extract 2 3).reversed = false ∧
    ((Ext.create o 4 0).extract 1 4).reversed = true ∧ ((Ext.create o 4 0).extract 1 4).pr = (0, 3) := by
  decide +kernel

/-- `B` bounds the variation of each coordinate of `f` on `[lo, hi]`. -/
def BoundOK {ι : Type} (f : K → Except Err (ι → K)) (lo hi : K) (B : ι → K) : Prop :=
  ∀ s s', lo ≤ s → s ≤ s' → s' ≤ hi → ∀ q q', f s = .ok q → f s' = .ok q' → ∀ i, |q' i - q i| ≤ B i * (s' - s)

/-- **C23** (velocity bound): for an original without time parameterization whose bounds are right, those of the extracted path are too,
in both directions. -/
theorem C23_velocity {ι : Type} (e : Ext K (ι → K)) (vb : K → K → ι → K)
    (hvb : ∀ t0 t1, t0 ≤ t1 → BoundOK e.original.impl t0 t1 (vb t0 t1)) (t0 t1 : K) (h : t0 ≤ t1) :
    BoundOK e.impl t0 t1 (e.velocityBound vb t0 t1) := by
  obtain ⟨o, rev, cons, tp, tr, pr⟩ := e
  intro s s' h1 h2 h3 q q' hq hq' i
  cases rev with
  | false =>
    simp only [Ext.velocityBound, Ext.sIn, Bool.false_eq_true, if_false, not_lt.2 h, Ext.impl] at hq hq' ⊢
    exact hvb t0 t1 h s s' h1 h2 h3 q q' hq hq' i
  | true =>
    simp only [Ext.velocityBound, Ext.sIn, if_true, Ext.impl] at hq hq' ⊢
    have key : ∀ B, BoundOK o.impl (pr.2 - t1) (pr.2 - t0) B → |q' i - q i| ≤ B i * (s' - s) := by
      intro B hB
      have := hB (pr.2 - s') (pr.2 - s) (by linarith) (by linarith) (by linarith) q' q hq' hq i
      rw [abs_sub_comm]
      linarith [this, show B i * (pr.2 - s - (pr.2 - s')) = B i * (s' - s) by ring]
    split
    · exact key _ (hvb _ _ (by linarith))
    · next hn =>
      have ht : t0 = t1 := by linarith
      subst ht
      exact key _ (hvb _ _ (le_refl _))

theorem iteratedDeriv_const_sub' (f : ℝ → ℝ) (b : ℝ) (n : Nat) (s : ℝ) :
    iteratedDeriv n (fun t => f (b - t)) s = (-1) ^ n * iteratedDeriv n f (b - s) := by
  induction n generalizing s with
  | zero => simp
  | succ n ih =>
    rw [iteratedDeriv_succ, iteratedDeriv_succ]
    have : iteratedDeriv n (fun t => f (b - t)) = fun s => (-1) ^ n * iteratedDeriv n f (b - s) := funext ih
    rw [this, deriv_const_mul_field, deriv_comp_const_sub]
    ring

/-- **C23** (derivative): if the derivatives of the original are those of its values, those of the extracted path are those of its own
values, at every order and in both directions. -/
theorem C23_derivative (e : Ext ℝ ℝ) (f : ℝ → ℝ) (hf : ∀ s, e.original.impl s = .ok (f s)) (d : ℝ → Nat → ℝ)
    (hd : ∀ s n, d s n = iteratedDeriv n f s) :
    ∃ g : ℝ → ℝ, (∀ s, e.impl s = .ok (g s)) ∧ ∀ s n, e.derivative d s n = iteratedDeriv n g s := by
  obtain ⟨o, rev, cons, tp, tr, pr⟩ := e
  cases rev with
  | false => exact ⟨f, fun s => by simp [Ext.impl, Ext.sIn]; exact hf s, fun s n => by simp [Ext.derivative, hd]⟩
  | true =>
    refine ⟨fun s => f (pr.2 - s), fun s => by simp [Ext.impl, Ext.sIn]; exact hf _, fun s n => ?_⟩
    rw [iteratedDeriv_const_sub']
    simp only [Ext.derivative, if_true, hd]
    split
    · next h => rw [Odd.neg_one_pow (Nat.odd_iff.2 h)]; ring
    · next h => rw [Even.neg_one_pow (Nat.even_iff.2 (by omega))]; ring

/-- A concrete original for the hypotheses of `C23_derivative`: the square. -/
example : ∃ (e : Ext ℝ ℝ) (f : ℝ → ℝ), e.reversed = true ∧ ∀ s, e.original.impl s = .ok (f s) :=
  ⟨Ext.create ⟨fun s => .ok (s * s), none, none, (0, 1), (0, 1)⟩ 1 0, fun s => s * s, by simp [Ext.create], fun s => rfl⟩

/-! ## C62: time parameterization -/

/-- `Path::extract`: path.cc:175-221, given the virtual `impl_extract`.  The result of `Shift::createWithCheck` (line 211) is discarded, so
that only the time interval depends on the shifts. -/
def Gen.extract (implExtract : K → K → Except Err (Gen K C)) (g : Gen K C) (a b : K) : Except Err (Gen K C) :=
  match g.tp with
  | none => implExtract a b
  | some f =>
    match implExtract (f a) (f b) with
    | .error e => .error e
    | .ok res =>
      let shift := if b < a then res.pr.1 - f b else res.pr.1 - f a
      let tr := if b < a then (if shift ≠ 0 then (0, a - b) else (b, a)) else (if shift ≠ 0 then (0, b - a) else (a, b))
      .ok (res.setTime (some f) tr)

/-- `Path::impl_extract`: path.cc:223-226. -/
def Gen.implExtract (g : Gen K C) (a b : K) : Except Err (Gen K C) :=
  if (a, b) = g.pr then .ok g else .ok (Ext.create g a b).toGen

/-- A straight path as a path, with its extraction. -/
def Straight.toGen (S : Space K C) (p : Straight K C) : Gen K C := ⟨fun s => .ok (p.impl S s), p.cons, none, p.pr, p.pr⟩

/-- **C62** (extraction): for the paths that use the default extraction, extracting `[a, b]`, `a ≤ b`, under a non decreasing time
parameterization gives a path of time range `[a, b]` with the same values. -/
theorem C62_extract_forward (g : Gen K C) (f : K → K) (hf : g.tp = some f) (a b : K) (h : a ≤ b) (hmono : f a ≤ f b) :
    ∃ r, g.extract g.implExtract a b = .ok r ∧ r.tr = (a, b) ∧ ∀ t, r.eval t = g.eval t := by
  unfold Gen.extract Gen.implExtract
  rw [hf]
  simp only
  by_cases hc : (f a, f b) = g.pr
  · rw [if_pos hc]
    refine ⟨_, rfl, ?_, fun t => ?_⟩
    · have : g.pr.1 - f a = 0 := by rw [← hc]; ring
      simp [Gen.setTime, not_lt.2 h, this]
    · simp [Gen.eval, Gen.setTime, Gen.paramAtTime, hf]
  · rw [if_neg hc]
    refine ⟨_, rfl, ?_, fun t => ?_⟩
    · simp [Gen.setTime, not_lt.2 h, Ext.create, Ext.toGen, hmono]
    · simp [Gen.eval, Gen.setTime, Gen.paramAtTime, hf, Ext.create, Ext.toGen, hmono, Ext.impl, Ext.sIn]

/-- **C62** (counterexample, shift): straight paths shift their parameter range to 0, and the time parameterization is not shifted
accordingly (its shifted version is computed and discarded): under `t²/4`, the part of time range `[1, 2]` of a path from 0 to 1 stops at
1/2 instead of 1. -/
theorem C62_shift_counterexample :
    let S := vecSpace ℚ Unit
    let p : Straight ℚ (Unit → ℚ) := ⟨(0, 1), fun _ => 0, fun _ => 1, none⟩
    let g : Gen ℚ (Unit → ℚ) := (p.toGen S).setTime (some fun t => t * t / 4) (0, 2)
    let r := g.extract (fun a b => (p.extract S a b).map (Straight.toGen S)) 1 2
    (g.eval 2).toOption.map (· ()) = some 1 ∧ (r.toOption.map fun r => r.tr) = some (0, 1) ∧
    (r.toOption.bind fun r => (r.eval 1).toOption.map (· ())) = some (1 / 2) := by
  decide +kernel

/-- **C62** (counterexample, reversal): reversing a time-parameterized path keeps the original law of time instead of its mirror image: at
time 1/2 of the reversal of `t²`, one expects the value at time 1/2, 1/4, and gets 3/4. -/
theorem C62_reverse_counterexample :
    let g : Gen ℚ ℚ := (⟨fun s => .ok s, none, none, (0, 1), (0, 1)⟩ : Gen ℚ ℚ).setTime (some fun t => t * t) (0, 1)
    ((g.extract g.implExtract 1 0).toOption.bind fun r => (r.eval (1 / 2)).toOption) = some (3 / 4) ∧
    (g.eval (1 / 2)).toOption = some (1 / 4) := by
  decide +kernel

/-- `Path::velocityBound`: path.hh:170-178, given `impl_velocityBound` and the bound on the derivative of the time parameterization. -/
def Gen.velocityBound {ι : Type} (vb : K → K → ι → K) (db : K → K → K) (g : Gen K (ι → K)) (t0 t1 : K) : ι → K :=
  let b := vb (g.paramAtTime (max t0 g.tr.1)) (g.paramAtTime (min t1 g.tr.2))
  match g.tp with
  | none => b
  | some _ => fun i => b i * db t0 t1

/-- **C62** (velocity bound): for a non decreasing time parameterization, if the bounds on the path and on the time parameterization are
right, so is their product. -/
theorem C62_velocity {ι : Type} (g : Gen K (ι → K)) (f : K → K) (hf : g.tp = some f) (hmono : ∀ t t', t ≤ t' → f t ≤ f t')
    (vb : K → K → ι → K) (hvb : ∀ a b, a ≤ b → BoundOK g.impl a b (vb a b)) (hvb0 : ∀ a b i, 0 ≤ vb a b i)
    (db : K → K → K) (hdb : ∀ a b t t', a ≤ t → t ≤ t' → t' ≤ b → f t' - f t ≤ db a b * (t' - t))
    (t0 t1 : K) (h0 : g.tr.1 ≤ t0) (h1 : t1 ≤ g.tr.2) :
    BoundOK (fun t => g.impl (g.paramAtTime t)) t0 t1 (g.velocityBound vb db t0 t1) := by
  intro t t' k1 k2 k3 q q' hq hq' i
  have e : g.paramAtTime = f := by funext x; simp [Gen.paramAtTime, hf]
  simp only [e] at hq hq'
  simp only [Gen.velocityBound, hf, e, max_eq_left h0, min_eq_left h1]
  have := hvb (f t0) (f t1) (hmono _ _ (k1.trans (k2.trans k3))) (f t) (f t') (hmono _ _ k1) (hmono _ _ k2) (hmono _ _ k3) q q' hq hq' i
  refine this.trans ?_
  rw [mul_assoc]
  exact mul_le_mul_of_nonneg_left (hdb t0 t1 t t' k1 k2 k3) (hvb0 _ _ _)

/-- **C62** (counterexample, bound of an extracted path): `ExtractedPath::impl_velocityBound` passes parameters to a method that expects
times, and the bound on the derivative of the time parameterization is applied twice: for a path of speed 1 run at half speed, the bound
reported for the extracted path on any interval is 1/4 instead of 1/2. -/
theorem C62_extracted_bound_counterexample :
    let vb : ℚ → ℚ → Unit → ℚ := fun _ _ _ => 1
    let db : ℚ → ℚ → ℚ := fun _ _ => 1 / 2
    let g : Gen ℚ (Unit → ℚ) := (⟨fun s => .ok fun _ => s, none, none, (0, 1), (0, 1)⟩ : Gen ℚ (Unit → ℚ)).setTime (some fun t => t / 2) (0, 2)
    let e := Ext.create g 0 (1 / 2)
    ((e.toGen.setTime (some fun t => t / 2) (0, 1)).velocityBound (fun a b => e.velocityBound (g.velocityBound vb db) a b) db 0 1) () = 1 / 4 ∧
    ((e.toGen.setTime (some fun t => t / 2) (0, 1)).eval 0).toOption.map (· ()) = some 0 ∧
    ((e.toGen.setTime (some fun t => t / 2) (0, 1)).eval 1).toOption.map (· ()) = some (1 / 2) := by
  decide +kernel

/-- `Path::derivative`: path.cc:148-173, for one coordinate. -/
def tpDerivative (d : ℝ → Nat → ℝ) (f f1 f2 : ℝ → ℝ) (t : ℝ) : Nat → Option ℝ
  | 1 => some (d (f t) 1 * f1 t)
  | 2 => some (d (f t) 2 * (f1 t * f1 t) + d (f t) 1 * f2 t)
  | _ => none

/-- **C62** (derivative): under a time parameterization `f` with derivatives `f1`, `f2`, the derivatives of orders 1 and 2 are those of the
composed function; higher orders are refused. -/
theorem C62_derivative (q : ℝ → ℝ) (d : ℝ → Nat → ℝ) (h1 : ∀ s, HasDerivAt q (d s 1) s) (h2 : ∀ s, HasDerivAt (fun s => d s 1) (d s 2) s)
    (f f1 f2 : ℝ → ℝ) (hf : ∀ t, HasDerivAt f (f1 t) t) (hf1 : ∀ t, HasDerivAt f1 (f2 t) t) :
    (∃ g1 g2 : ℝ → ℝ, (∀ t, tpDerivative d f f1 f2 t 1 = some (g1 t)) ∧ (∀ t, tpDerivative d f f1 f2 t 2 = some (g2 t)) ∧
      (∀ t, HasDerivAt (fun t => q (f t)) (g1 t) t) ∧ ∀ t, HasDerivAt g1 (g2 t) t) ∧
    ∀ t n, 2 < n → tpDerivative d f f1 f2 t n = none := by
  refine ⟨⟨fun t => d (f t) 1 * f1 t, fun t => d (f t) 2 * (f1 t * f1 t) + d (f t) 1 * f2 t, fun _ => rfl, fun _ => rfl, fun t => ?_, fun t => ?_⟩, ?_⟩
  · exact (h1 (f t)).comp t (hf t)
  · have := ((h2 (f t)).comp t (hf t)).mul (hf1 t)
    refine this.congr_deriv ?_
    simp only [Function.comp]
    ring
  · intro t n hn
    match n, hn with
    | n + 3, _ => rfl

/-- The square run at the speed of the square: hypotheses of `C62_derivative`. -/
example : ∃ (q : ℝ → ℝ) (d : ℝ → Nat → ℝ), (∀ s, HasDerivAt q (d s 1) s) ∧ (∀ s, HasDerivAt (fun s => d s 1) (d s 2) s) ∧ q 3 = 9 := by
  refine ⟨fun s => s ^ 2, fun s n => if n = 1 then 2 * s else 2, fun s => ?_, fun s => ?_, by norm_num⟩
  · refine ((hasDerivAt_id s).mul (hasDerivAt_id s)).congr_deriv ?_ |>.congr_of_eventuallyEq ?_
    · simp; ring
    · exact Filter.Eventually.of_forall fun x => by simp [pow_two]
  · simpa using (hasDerivAt_id s).const_mul (2 : ℝ)

/-- Hypotheses of `C62_extract_forward` and `C62_velocity`. -/
example : ∃ (g : Gen ℚ (Unit → ℚ)) (f : ℚ → ℚ), g.tp = some f ∧ (∀ t t', t ≤ t' → f t ≤ f t') ∧ (f 1, f 2) ≠ g.pr ∧
    (∀ a b, a ≤ b → BoundOK g.impl a b (fun _ => 3)) := by
  refine ⟨(⟨fun s => .ok fun _ => 3 * s, none, none, (0, 4), (0, 4)⟩ : Gen ℚ (Unit → ℚ)).setTime (some fun t => 2 * t) (0, 2), fun t => 2 * t, rfl,
    fun t t' h => by simpa using h, by simp [Gen.setTime], ?_⟩
  intro a b _ s s' _ h _ q q' hq hq' i
  simp only [Gen.setTime, Except.ok.injEq] at hq hq'
  rw [← hq, ← hq', ← mul_sub, abs_mul, abs_of_nonneg (sub_nonneg.2 h)]
  norm_num

end Verif.PathV
