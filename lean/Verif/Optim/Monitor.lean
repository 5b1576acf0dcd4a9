import Verif.Optim.RandomShortcut
set_option linter.unusedSectionVars false

/-!
# Limits and interruption of path optimizers (C121)

Calls to `interrupt` by another thread are an arbitrary sequence: `intr n` tells whether one was made between `monitorExecution` and the test made before iteration `n`; `clock n` is the time of this test.
-/
namespace Verif.Optim.Monitor
open Verif.Optim
variable {K : Type} [Field K] [LinearOrder K] [IsStrictOrderedRing K]

/-- Members of `PathOptimizer` (path-optimizer.hh:62-98): `timeOut_` is `none` for infinity. -/
structure Opt (K : Type) where
  interrupt : Bool
  maxIt : Int
  timeOut : Option K
  enabled : Bool
  iteration : Int
  start : K

/-- Conversion from `unsigned long` to `size_type` (64 bits, signed). -/
def toSigned (n : ℕ) : Int := if n < 2 ^ 63 then n else (n : Int) - 2 ^ 64

/-- `maxIterations (n)`: path-optimizer.cc:85-87. -/
def Opt.setMax (o : Opt K) (n : ℕ) : Opt K := { o with maxIt := toSigned n }

/-- `monitorExecution`: path-optimizer.cc:59-64. -/
def Opt.monitor (o : Opt K) (now : K) : Opt K := { o with interrupt := false, enabled := true, iteration := 0, start := now }

/-- `shouldStop`: path-optimizer.cc:66-77; times in milliseconds. -/
def Opt.shouldStop (o : Opt K) (now : K) : Bool :=
  if o.interrupt then true
  else if o.enabled = false then false
  else if o.maxIt ≤ o.iteration then true
  else match o.timeOut with
    | none => false
    | some t => decide (t * 1000 < now - o.start)

/-- `endIteration`: path-optimizer.hh:73. -/
def Opt.endIteration (o : Opt K) : Opt K := { o with iteration := o.iteration + 1 }

/-- The loop of the optimizers: random-shortcut.cc:97-98, spline-gradient-based.cc:501-612: `while (cond && !shouldStop ()) { body; endIteration (); }`; the number of bodies executed is returned, `none` if the loop is not
finished. -/
def loop {S : Type} (cond : S → Bool) (body : ℕ → S → S) (intr : ℕ → Bool) (clock : ℕ → K) : ℕ → ℕ → Opt K → S → Option (ℕ × S)
  | 0, _, _, _ => none
  | fuel + 1, n, o, s =>
    let o := { o with interrupt := o.interrupt || intr n }
    if o.shouldStop (clock n) = false ∧ cond s = true then loop cond body intr clock fuel (n + 1) o.endIteration (body n s) else some (n, s)

/-- State after `n` bodies. -/
def iter {S : Type} (body : ℕ → S → S) (s : S) : ℕ → S
  | 0 => s
  | n + 1 => body n (iter body s n)

/-- Specification: what stops the loop before iteration `n`. -/
def Limit (maxIt : Int) (timeOut : Option K) (start : K) (intr : ℕ → Bool) (clock : ℕ → K) (n : ℕ) : Prop :=
  maxIt ≤ n ∨ (∃ m ≤ n, intr m = true) ∨ ∃ t, timeOut = some t ∧ t * 1000 < clock n - start

theorem shouldStop_iff (o : Opt K) (now : K) : o.shouldStop now = true ↔ o.interrupt = true ∨ (o.enabled = true ∧ (o.maxIt ≤ o.iteration ∨ ∃ t, o.timeOut = some t ∧ t * 1000 < now - o.start)) := by
  unfold Opt.shouldStop
  by_cases h1 : o.interrupt = true
  · simp [h1]
  · by_cases h2 : o.enabled = false
    · simp [h1, h2]
    · have h2' : o.enabled = true := by simpa using h2
      by_cases h3 : o.maxIt ≤ o.iteration
      · simp [h1, h2', h3]
      · rw [if_neg h1, if_neg h2, if_neg h3]
        cases ht : o.timeOut with
        | none => simp [h1, h3]
        | some t => simp [h1, h2', h3]

theorem loop_spec {S : Type} (cond : S → Bool) (body : ℕ → S → S) (intr : ℕ → Bool) (clock : ℕ → K) (s0 : S) (o0 : Opt K) (now : K) (fuel n : ℕ) (o : Opt K)
    (hm : o.maxIt = o0.maxIt) (ht : o.timeOut = o0.timeOut) (he : o.enabled = true) (hi : o.iteration = n) (hs : o.start = now) (hin : o.interrupt = true ↔ ∃ m < n, intr m = true)
    (hlow : ∀ m < n, ¬ Limit o0.maxIt o0.timeOut now intr clock m ∧ cond (iter body s0 m) = true) :
    (∀ k s, loop cond body intr clock fuel n o (iter body s0 n) = some (k, s) → s = iter body s0 k ∧ (Limit o0.maxIt o0.timeOut now intr clock k ∨ cond (iter body s0 k) = false) ∧
      ∀ m < k, ¬ Limit o0.maxIt o0.timeOut now intr clock m ∧ cond (iter body s0 m) = true) ∧
    (loop cond body intr clock fuel n o (iter body s0 n) = none → ∀ m < n + fuel, ¬ Limit o0.maxIt o0.timeOut now intr clock m ∧ cond (iter body s0 m) = true) := by
  induction fuel generalizing n o with
  | zero => exact ⟨fun k s h => by simp [loop] at h, fun _ => hlow⟩
  | succ fuel ih =>
    have hl : ({ o with interrupt := o.interrupt || intr n } : Opt K).shouldStop (clock n) = true ↔ Limit o0.maxIt o0.timeOut now intr clock n := by
      rw [shouldStop_iff]
      simp only [Bool.or_eq_true, he, hm, ht, hs, hi, true_and, Limit]
      rw [hin]
      constructor
      · rintro ((⟨m, h1, h2⟩ | h) | h | h)
        · exact Or.inr (Or.inl ⟨m, by omega, h2⟩)
        · exact Or.inr (Or.inl ⟨n, le_refl _, h⟩)
        · exact Or.inl h
        · exact Or.inr (Or.inr h)
      · rintro (h | ⟨m, h1, h2⟩ | h)
        · exact Or.inr (Or.inl h)
        · rcases Nat.lt_or_eq_of_le h1 with h1 | rfl
          · exact Or.inl (Or.inl ⟨m, h1, h2⟩)
          · exact Or.inl (Or.inr h2)
        · exact Or.inr (Or.inr h)
    simp only [loop]
    by_cases hc : ({ o with interrupt := o.interrupt || intr n } : Opt K).shouldStop (clock n) = false ∧ cond (iter body s0 n) = true
    · rw [if_pos hc]
      have hnl : ¬ Limit o0.maxIt o0.timeOut now intr clock n := by rw [← hl, hc.1]; simp
      have := ih (n + 1) ({ o with interrupt := o.interrupt || intr n } : Opt K).endIteration hm ht he (by simp [Opt.endIteration, hi]) hs
        (by
          simp only [Opt.endIteration, Bool.or_eq_true, hin]
          constructor
          · rintro (⟨m, h1, h2⟩ | h)
            · exact ⟨m, by omega, h2⟩
            · exact ⟨n, by omega, h⟩
          · rintro ⟨m, h1, h2⟩
            rcases Nat.lt_or_eq_of_le (Nat.le_of_lt_succ h1) with h1 | rfl
            · exact Or.inl ⟨m, h1, h2⟩
            · exact Or.inr h2)
        (by
          intro m hmn
          rcases Nat.lt_or_eq_of_le (Nat.le_of_lt_succ hmn) with h | rfl
          · exact hlow m h
          · exact ⟨hnl, hc.2⟩)
      refine ⟨this.1, fun h m hmn => this.2 h m (by omega)⟩
    · rw [if_neg hc]
      refine ⟨?_, by simp⟩
      intro k s h
      simp only [Option.some.injEq, Prod.mk.injEq] at h
      obtain ⟨rfl, rfl⟩ := h
      refine ⟨rfl, ?_, hlow⟩
      rcases not_and_or.1 hc with h | h
      · left; rw [← hl]; simpa using h
      · right; simpa using h

/-- C121: the loop of an optimizer ends at the first iteration at which the maximal number of iterations is reached, an interruption has been asked for since the start, the time allowed is elapsed, or the optimizer has
finished; it executes all the iterations before. -/
theorem C121_loop {S : Type} (cond : S → Bool) (body : ℕ → S → S) (intr : ℕ → Bool) (clock : ℕ → K) (o : Opt K) (now : K) (s : S) (fuel : ℕ) :
    (∀ k s', loop cond body intr clock fuel 0 (o.monitor now) s = some (k, s') → s' = iter body s k ∧ (Limit o.maxIt o.timeOut now intr clock k ∨ cond (iter body s k) = false) ∧
      ∀ m < k, ¬ Limit o.maxIt o.timeOut now intr clock m ∧ cond (iter body s m) = true) ∧
    (0 < fuel → o.maxIt < fuel → ∃ k s', loop cond body intr clock fuel 0 (o.monitor now) s = some (k, s') ∧ (k : Int) ≤ max o.maxIt 0) := by
  have h := loop_spec cond body intr clock s o now fuel 0 (o.monitor now) rfl rfl rfl rfl rfl (by simp [Opt.monitor]) (by intro m hm; omega)
  refine ⟨h.1, fun hz hf => ?_⟩
  cases hr : loop cond body intr clock fuel 0 (o.monitor now) s with
  | none =>
    have := (h.2 hr (fuel - 1) (by omega)).1
    exact (this (Or.inl (by omega))).elim
  | some x =>
    obtain ⟨k, s'⟩ := x
    refine ⟨k, s', rfl, ?_⟩
    by_contra hgt
    have hk : 0 < k := by
      rcases Nat.eq_zero_or_pos k with e | e
      · subst e; exact absurd hgt (by simp)
      · exact e
    obtain ⟨_, _, h3⟩ := h.1 k s' hr
    exact (h3 (k - 1) (by omega)).1 (Or.inl (by omega))

/-- C121: limits given with `maxIterations` up to `2 ^ 63 - 1` are those used; the other values (for instance the maximum of `unsigned long`) become negative and forbid any iteration. -/
theorem C121_limits (o : Opt K) (n : ℕ) (hn : n < 2 ^ 64) :
    (n < 2 ^ 63 → (o.setMax n).maxIt = n) ∧ (2 ^ 63 ≤ n → (o.setMax n).maxIt < 0) ∧
    ∀ {S : Type} (cond : S → Bool) (body : ℕ → S → S) (intr : ℕ → Bool) (clock : ℕ → K) (now : K) (s : S) (fuel : ℕ), 2 ^ 63 ≤ n →
      loop cond body intr clock (fuel + 1) 0 ((o.setMax n).monitor now) s = some (0, s) := by
  have h2 : 2 ^ 63 ≤ n → (o.setMax n).maxIt < 0 := by
    intro h
    simp only [Opt.setMax, toSigned, if_neg (not_lt.2 h)]
    omega
  refine ⟨fun h => by simp only [Opt.setMax, toSigned, if_pos h], h2, ?_⟩
  intro S cond body intr clock now s fuel h
  obtain ⟨k, s', hr, hk⟩ := (C121_loop cond body intr clock (o.setMax n) now s (fuel + 1)).2 (by omega) (by have := h2 h; omega)
  have h3 := h2 h
  have hk0 : k = 0 := by
    rw [max_eq_right (by omega)] at hk
    omega
  subst hk0
  have := ((C121_loop cond body intr clock (o.setMax n) now s (fuel + 1)).1 0 s' hr).1
  rw [hr, this]; rfl

/-- Negation on an instance of "an optimizer that has been interrupted executes no iteration": `interrupt` called before `optimize` is forgotten, all the iterations allowed are executed. -/
theorem C121_interrupt_counterexample :
    let o : Opt ℚ := ⟨true, 3, none, false, 0, 0⟩
    o.shouldStop 0 = true ∧ loop (fun _ : ℕ => true) (fun _ s => s + 1) (fun _ => false) (fun _ => (0 : ℚ)) 10 0 (o.monitor 0) 0 = some (3, 3) := by
  decide +kernel

/-- The sequence of values of `shouldStop` in `RandomShortcut::optimize`: iteration `it` is tested with `monitor_.iteration = it`. -/
def stopSeq (o : Opt K) (now : K) (intr : ℕ → Bool) (clock : ℕ → K) (it : ℕ) : Bool :=
  ({ o.monitor now with iteration := it, interrupt := (List.range (it + 1)).any intr } : Opt K).shouldStop (clock it)

theorem stopSeq_iff (o : Opt K) (now : K) (intr : ℕ → Bool) (clock : ℕ → K) (it : ℕ) : stopSeq o now intr clock it = true ↔ Limit o.maxIt o.timeOut now intr clock it := by
  unfold stopSeq
  rw [shouldStop_iff]
  simp only [Opt.monitor, true_and, Limit, List.any_eq_true, List.mem_range, Nat.lt_succ_iff]
  constructor
  · rintro (h | h | h)
    · exact Or.inr (Or.inl h)
    · exact Or.inl h
    · exact Or.inr (Or.inr h)
  · rintro (h | h | h)
    · exact Or.inr (Or.inl h)
    · exact Or.inl h
    · exact Or.inr (Or.inr h)

section
open Verif.PathV
variable {C P : Type}

theorem rsLoop_stop (E : Env K C P) (eps : K) (n : ℕ) (shoot : ℕ → K → K → Option (K × K)) (stop : ℕ → Bool) (path : Vec K C P) (q0 q3 : C) (lim : ℕ) (hstop : stop lim = true) (fuel it : ℕ) (st : RSt K C P)
    (hit : it ≤ lim) (hf : lim - it < fuel) : rsLoop E eps n shoot stop path q0 q3 fuel it st ≠ .running ∧
      ∀ stop' : ℕ → Bool, (∀ m ≤ lim, stop' m = stop m) → rsLoop E eps n shoot stop' path q0 q3 fuel it st = rsLoop E eps n shoot stop path q0 q3 fuel it st := by
  induction fuel generalizing it st with
  | zero => omega
  | succ fuel ih =>
    simp only [rsLoop]
    by_cases hc : stop it = false ∧ st.finished = false ∧ st.perr ≠ 0
    · have hlt : it < lim := by
        rcases Nat.lt_or_eq_of_le hit with h | h
        · exact h
        · rw [h, hstop] at hc; exact absurd hc.1 (by simp)
      rw [if_pos hc]
      cases hr : rsIter E eps n (shoot it) q0 q3 st with
      | error e => exact ⟨by simp, fun s' hs' => by rw [hs' it hit, if_pos hc]⟩
      | ok st' =>
        have := ih (it + 1) st' (by omega) (by omega)
        exact ⟨this.1, fun s' hs' => by rw [hs' it hit, if_pos hc]; exact this.2 s' hs'⟩
    · rw [if_neg hc]
      refine ⟨by cases st.result <;> simp, fun s' hs' => by rw [hs' it hit, if_neg hc]⟩

/-- C121: `RandomShortcut::optimize` ends, whatever the times shot, the steering method and the validations do: at most as many iterations as allowed are executed; after an interruption or when the time allowed is elapsed at
iteration `m`, no other iteration is executed. -/
theorem C121_random (E : Env K C P) (eps : K) (n : ℕ) (shoot : ℕ → K → K → Option (K × K)) (o : Opt K) (now : K) (intr : ℕ → Bool) (clock : ℕ → K) (path : Vec K C P) (m fuel : ℕ)
    (hm : Limit o.maxIt o.timeOut now intr clock m) (hf : m < fuel) : randomShortcut E eps n shoot (stopSeq o now intr clock) fuel path ≠ .running := by
  unfold randomShortcut
  have hs := (stopSeq_iff o now intr clock m).2 hm
  cases vini E path with
  | error e => simp
  | ok q0 =>
    cases vfin E path with
    | error e => simp
    | ok q3 =>
      simp only
      by_cases hn : n = 0
      · simp [hn]
      · rw [if_neg hn]
        cases pathLength E path with
        | error e => simp
        | ok l => exact (rsLoop_stop E eps n shoot _ path q0 q3 m hs fuel 0 _ (by omega) (by omega)).1

end

/-! ## Instances of the hypotheses -/

/-- Ten iterations allowed, an interruption during the third one. -/
example : loop (fun _ : ℕ => true) (fun _ s => s + 2) (fun n => n == 3) (fun n => (n : ℚ)) 20 0 ((⟨false, 10, none, false, 7, 0⟩ : Opt ℚ).monitor 5) 1 = some (3, 7) := by decide +kernel
/-- A time-out of 2 seconds, iterations of 900 ms. -/
example : loop (fun _ : ℕ => true) (fun _ s => s + 2) (fun _ => false) (fun n => 100 + 900 * (n : ℚ)) 20 0 ((⟨false, 10, some 2, false, 7, 0⟩ : Opt ℚ).monitor 100) 1 = some (3, 7) := by decide +kernel
example : Limit 10 (some 2) (100 : ℚ) (fun _ => false) (fun n => 100 + 900 * (n : ℚ)) 3 := Or.inr (Or.inr ⟨2, rfl, by norm_num⟩)

end Verif.Optim.Monitor
