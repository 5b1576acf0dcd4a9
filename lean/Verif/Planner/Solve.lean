import Mathlib.Tactic.Common
import Mathlib.Order.Basic
import Mathlib.Data.Nat.Basic
set_option linter.unusedSectionVars false

/-!
# `PathPlanner::solve` and the stop criteria (C39, C40)

`S` is everything that the steps change (roadmap, planner, problem).  Wall-clock time is an arbitrary sequence: `late n` is the result of the comparison
`elapsed_ms > timeOut_ * 1000` made before step `n`; asynchronous calls of `interrupt()` are an arbitrary sequence: `intr n` is the value of `interrupt_` read
after step `n` (`n = 0`: after the direct connection attempt).
-/
namespace Verif.Planner

/-- `maxIterations_`, `timeOut_` (`none`: infinity), `stopWhenProblemIsSolved_`: include/hpp/core/path-planner.hh:110-116.
`uint_infty = numeric_limits<unsigned long>::infinity()` (path-planner.cc:50) is 0. -/
structure Settings (K : Type) where
  maxIter : Nat
  timeOut : Option K
  stop : Bool

/-- Constructors: path-planner.cc:54-73. -/
def Settings.default {K : Type} : Settings K := ⟨0, none, true⟩

/-- Calls of the setters. -/
inductive SetOp (K : Type) where
  | maxIterations (n : Nat)
  | timeOut (t : Option K)
  | stopWhenProblemIsSolved (b : Bool)

/-- The setters: path-planner.cc:178-202.  The Boolean tells whether an exception was thrown. -/
def Settings.set {K : Type} (s : Settings K) : SetOp K → Settings K × Bool
  | .maxIterations n => if s.stop = false ∧ n = 0 ∧ s.timeOut.isNone then (s, true) else ({ s with maxIter := n }, false)
  | .timeOut t => if s.stop = false ∧ s.maxIter = 0 ∧ t.isNone then (s, true) else ({ s with timeOut := t }, false)
  | .stopWhenProblemIsSolved b => if b = false ∧ s.maxIter = 0 ∧ s.timeOut.isNone then (s, true) else ({ s with stop := b }, false)

/-- At least one criterion makes `solve` stop. -/
def Settings.Active {K : Type} (s : Settings K) : Prop := s.stop = true ∨ s.maxIter ≠ 0 ∨ s.timeOut.isSome = true

/-- The settings asked for by a call. -/
def Settings.want {K : Type} (s : Settings K) : SetOp K → Settings K
  | .maxIterations n => { s with maxIter := n }
  | .timeOut t => { s with timeOut := t }
  | .stopWhenProblemIsSolved b => { s with stop := b }

def Settings.run {K : Type} (s : Settings K) (l : List (SetOp K)) : Settings K := l.foldl (fun s o => (s.set o).1) s

/-- C40: a call throws iff it would disable the last active criterion, and then nothing changes; otherwise it sets what it is asked to
set and nothing else. -/
theorem C40_call {K : Type} (s : Settings K) (o : SetOp K) :
    ((s.set o).2 = true ↔ ¬ (s.want o).Active) ∧ ((s.set o).2 = true → (s.set o).1 = s) ∧ ((s.set o).2 = false → (s.set o).1 = s.want o) := by
  have key : ∀ x : Settings K, ¬ x.Active ↔ x.stop = false ∧ x.maxIter = 0 ∧ x.timeOut.isNone = true := by
    intro x
    unfold Settings.Active
    cases x.timeOut <;> simp
  rw [key]
  cases o with
  | maxIterations n =>
    simp only [Settings.set, Settings.want]
    split <;> simp_all
  | timeOut t =>
    simp only [Settings.set, Settings.want]
    split <;> simp_all
  | stopWhenProblemIsSolved b =>
    simp only [Settings.set, Settings.want]
    split <;> simp_all

/-- C40: whatever the sequence of calls (exceptions being caught), at least one criterion is active. -/
theorem C40_active {K : Type} (l : List (SetOp K)) : ((Settings.default : Settings K).run l).Active := by
  have : ∀ (l : List (SetOp K)) (s : Settings K), s.Active → (s.run l).Active := by
    intro l
    induction l with
    | nil => intro s hs; exact hs
    | cons o l ih =>
      intro s hs
      refine ih _ ?_
      show ((s.set o).1).Active
      obtain ⟨h1, h2, h3⟩ := C40_call s o
      cases h : (s.set o).2 with
      | true => rw [h2 h]; exact hs
      | false =>
        rw [h3 h]
        by_contra hc
        rw [h1.2 hc] at h
        cases h
  exact this l _ (Or.inl rfl)

example : ((Settings.default : Settings Nat).run [.stopWhenProblemIsSolved false, .maxIterations 5, .stopWhenProblemIsSolved false, .maxIterations 0]) =
    ⟨5, none, false⟩ := by rfl

/-! ## `solve` -/

/-- What `solve` calls.  `reached` may change the state (`TaskTarget::reached` adds goal nodes). -/
structure Calls (S P E : Type) where
  /-- `startSolve` and `tryConnectInitAndGoals` -/
  start : S → Except E S
  step : S → Except E S
  reached : S → Bool × S
  computePath : S → Except E P

/-- Outcomes: the path, exceptions, and a model outcome "still running". -/
inductive Res (P E : Type) where
  | path (p : P)
  | maxIterations
  | timeOut
  | interrupted
  | error (e : E)
  | running

section
variable {S P E K : Type}

/-- `computePath` and `finishSolve`: path-planner.cc:172-173, 204-210. -/
def conclude (C : Calls S P E) (s : S) : Res P E := match C.computePath s with
  | .ok p => .path p
  | .error e => .error e

/-- The `while` loop: path-planner.cc:122-171, entered with `solved` false after `n` steps; `fuel` iterations. -/
def solveLoop (C : Calls S P E) (st : Settings K) (late intr : Nat → Bool) : Nat → Nat → S → Res P E
  | 0, _, _ => .running
  | fuel + 1, n, s =>
    -- first limit: 125-137
    let i1 := decide (st.maxIter ≠ 0 ∧ st.maxIter ≤ n)
    let r1 := if i1 then C.reached s else (false, s)
    -- second limit: 138-153
    let i2 := late n
    let r2 := if i2 then C.reached r1.2 else (false, r1.2)
    -- `status`: the second test overwrites the first one
    let status : Nat := if i2 then (if r2.1 then 1 else 2) else if i1 then (if r1.1 then 1 else 2) else 0
    if status = 1 then conclude C r2.2
    else if status = 2 then (if i2 then .timeOut else .maxIterations)
    else
      match C.step r2.2 with
      | .error e => .error e
      | .ok s' =>
        let r := if st.stop then C.reached s' else (false, s')
        if intr (n + 1) then .interrupted
        else if r.1 then conclude C r.2
        else solveLoop C st late intr fuel (n + 1) r.2

/-- `solve`: path-planner.cc:100-174. -/
def solve (C : Calls S P E) (st : Settings K) (late intr : Nat → Bool) (fuel : Nat) (s : S) : Res P E :=
  match C.start s with
  | .error e => .error e
  | .ok s0 =>
    let r := C.reached s0
    if intr 0 then .interrupted
    else if r.1 then conclude C r.2
    else solveLoop C st late intr fuel 0 r.2

/-! ## Specification: for a target whose test does not change the state -/

/-- State after `n` steps. -/
def After (C : Calls S P E) (s0 : S) : Nat → S → Prop
  | 0, s => s = s0
  | n + 1, s => ∃ s', After C s0 n s' ∧ C.step s' = .ok s

theorem after_unique (C : Calls S P E) (s0 : S) (n : Nat) (s s' : S) (h : After C s0 n s) (h' : After C s0 n s') : s = s' := by
  induction n generalizing s s' with
  | zero => rw [h, h']
  | succ n ih =>
    obtain ⟨a, h1, h2⟩ := h
    obtain ⟨b, h3, h4⟩ := h'
    have := ih a b h1 h3
    subst this
    rw [h2] at h4
    exact Except.ok.inj h4

/-- A limit is hit before step `n`. -/
def Limit (st : Settings K) (late : Nat → Bool) (n : Nat) : Prop := (st.maxIter ≠ 0 ∧ st.maxIter ≤ n) ∨ late n = true

/-- Nothing has stopped the planner before step `n` is started. -/
def Quiet (C : Calls S P E) (st : Settings K) (late intr : Nat → Bool) (s0 : S) (n : Nat) : Prop :=
  ∀ m ≤ n, intr m = false ∧ (m < n → ¬ Limit st late m) ∧ ∀ s, After C s0 m s → (m = 0 ∨ st.stop = true) → (C.reached s).1 = false

/-- What an outcome tells. -/
def Meaning (C : Calls S P E) (st : Settings K) (late intr : Nat → Bool) (s0 : S) : Res P E → Prop
  | .path p => ∃ n s, After C s0 n s ∧ (C.reached s).1 = true ∧ C.computePath s = .ok p ∧ (st.maxIter ≠ 0 → n ≤ st.maxIter) ∧
      (∀ m ≤ n, intr m = false) ∧ (∀ m < n, ¬ Limit st late m) ∧ (n = 0 ∨ st.stop = true ∨ Limit st late n) ∧
      ∀ m < n, ∀ s', After C s0 m s' → (m = 0 ∨ st.stop = true) → (C.reached s').1 = false
  | .maxIterations => ∃ s, After C s0 st.maxIter s ∧ st.maxIter ≠ 0 ∧ (C.reached s).1 = false
  | .timeOut => ∃ n s, After C s0 n s ∧ late n = true ∧ (C.reached s).1 = false ∧ (st.maxIter ≠ 0 → n ≤ st.maxIter)
  | .interrupted => ∃ n s, After C s0 n s ∧ intr n = true ∧ (st.maxIter ≠ 0 → n ≤ st.maxIter)
  | .error e => ∃ n s, After C s0 n s ∧ (C.step s = .error e ∨ ((C.reached s).1 = true ∧ C.computePath s = .error e))
  | .running => True

theorem quiet_steps (C : Calls S P E) (st : Settings K) (late intr : Nat → Bool) (s0 : S) (n : Nat) (h : Quiet C st late intr s0 n) :
    st.maxIter ≠ 0 → n ≤ st.maxIter := by
  intro hm
  by_contra hc
  have hlt : st.maxIter < n := by omega
  exact (h st.maxIter (le_of_lt hlt)).2.1 hlt (Or.inl ⟨hm, le_refl _⟩)

theorem solveLoop_meaning (C : Calls S P E) (hpure : ∀ s, (C.reached s).2 = s) (st : Settings K) (late intr : Nat → Bool) (s0 : S)
    (fuel n : Nat) (s : S) (ha : After C s0 n s) (hq : Quiet C st late intr s0 n) :
    Meaning C st late intr s0 (solveLoop C st late intr fuel n s) := by
  have hconc : ∀ (m : Nat) (t : S), After C s0 m t → (C.reached t).1 = true → (∀ k ≤ m, intr k = false) → (st.maxIter ≠ 0 → m ≤ st.maxIter) →
      (∀ k < m, ¬ Limit st late k) → (m = 0 ∨ st.stop = true ∨ Limit st late m) →
      (∀ k < m, ∀ s', After C s0 k s' → (k = 0 ∨ st.stop = true) → (C.reached s').1 = false) →
      Meaning C st late intr s0 (conclude C t) := by
    intro m t h1 h2 h3 h4 h5 h6 h7
    unfold conclude
    cases hp : C.computePath t with
    | ok p => exact ⟨m, t, h1, h2, hp, h4, h3, h5, h6, h7⟩
    | error e => exact ⟨m, t, h1, Or.inr ⟨h2, hp⟩⟩
  induction fuel generalizing n s with
  | zero => trivial
  | succ fuel ih =>
    have hmax := quiet_steps C st late intr s0 n hq
    unfold solveLoop
    simp only
    by_cases h2 : late n = true
    · have hlim : Limit st late n := Or.inr h2
      have e2 : (if decide (st.maxIter ≠ 0 ∧ st.maxIter ≤ n) = true then C.reached s else (false, s)).2 = s := by
        split
        · exact hpure s
        · rfl
      simp only [h2, if_true, e2, hpure]
      by_cases hr : (C.reached s).1 = true
      · simp only [hr, if_true]
        exact hconc n s ha hr (fun k hk => (hq k hk).1) hmax (fun k hk => (hq k (le_of_lt hk)).2.1 hk) (Or.inr (Or.inr hlim))
          (fun k hk => (hq k (le_of_lt hk)).2.2)
      · have hr' : (C.reached s).1 = false := by simpa using hr
        simp only [hr']
        exact ⟨n, s, ha, h2, hr', hmax⟩
    · have h2' : late n = false := by simpa using h2
      simp only [h2']
      by_cases h1 : st.maxIter ≠ 0 ∧ st.maxIter ≤ n
      · have hlim : Limit st late n := Or.inl h1
        have hd : decide (st.maxIter ≠ 0 ∧ st.maxIter ≤ n) = true := by simpa using h1
        simp only [hd, if_true, hpure]
        by_cases hr : (C.reached s).1 = true
        · simp only [hr, if_true]
          exact hconc n s ha hr (fun k hk => (hq k hk).1) hmax (fun k hk => (hq k (le_of_lt hk)).2.1 hk) (Or.inr (Or.inr hlim))
            (fun k hk => (hq k (le_of_lt hk)).2.2)
        · have hr' : (C.reached s).1 = false := by simpa using hr
          simp only [hr']
          have : n = st.maxIter := le_antisymm (hmax h1.1) h1.2
          subst this
          exact ⟨s, ha, h1.1, hr'⟩
      · have hd : decide (st.maxIter ≠ 0 ∧ st.maxIter ≤ n) = false := by simpa using h1
        have hnl : ¬ Limit st late n := by
          rintro (h | h)
          · exact h1 h
          · exact h2 h
        have hmax' : st.maxIter ≠ 0 → n + 1 ≤ st.maxIter := by
          intro hm
          by_contra hc
          exact h1 ⟨hm, by omega⟩
        have z2 : ((0 : Nat) = 2) = False := by simp
        have z1 : ((0 : Nat) = 1) = False := by simp
        simp only [hd, Bool.false_eq_true, if_false, z1, z2]
        cases hs : C.step s with
        | error e => exact ⟨n, s, ha, Or.inl hs⟩
        | ok s' =>
          have ha' : After C s0 (n + 1) s' := ⟨s, ha, hs⟩
          have e3 : (if st.stop = true then C.reached s' else (false, s')).2 = s' := by
            split
            · exact hpure s'
            · rfl
          simp only [e3]
          by_cases hi : intr (n + 1) = true
          · simp only [hi, if_true]
            exact ⟨n + 1, s', ha', hi, hmax'⟩
          · have hi' : intr (n + 1) = false := by simpa using hi
            have hall : ∀ k ≤ n + 1, intr k = false := by
              intro k hk
              rcases Nat.lt_or_ge k (n + 1) with hlt | hge
              · exact (hq k (by omega)).1
              · have : k = n + 1 := by omega
                rw [this]; exact hi'
            have hlims : ∀ k < n + 1, ¬ Limit st late k := by
              intro k hk
              rcases Nat.lt_or_ge k n with hlt | hge
              · exact (hq k (by omega)).2.1 hlt
              · have : k = n := by omega
                rw [this]; exact hnl
            simp only [hi']
            by_cases hstop : st.stop = true
            · simp only [hstop, if_true]
              by_cases hr : (C.reached s').1 = true
              · simp only [hr, if_true]
                refine hconc (n + 1) s' ha' hr hall hmax' hlims (Or.inr (Or.inl hstop)) ?_
                intro k hk
                exact (hq k (by omega)).2.2
              · have hr' : (C.reached s').1 = false := by simpa using hr
                simp only [hr']
                refine ih (n + 1) s' ha' ?_
                intro m hm
                refine ⟨hall m hm, fun hlt => hlims m hlt, ?_⟩
                intro t ht hor
                rcases Nat.lt_or_ge m (n + 1) with hlt | hge
                · exact (hq m (by omega)).2.2 t ht hor
                · have hmn : m = n + 1 := by omega
                  subst hmn
                  rw [after_unique C s0 _ t s' ht ha']; exact hr'
            · have hstop' : st.stop = false := by simpa using hstop
              simp only [hstop']
              refine ih (n + 1) s' ha' ?_
              intro m hm
              refine ⟨hall m hm, fun hlt => hlims m hlt, ?_⟩
              intro t ht hor
              rcases Nat.lt_or_ge m (n + 1) with hlt | hge
              · exact (hq m (by omega)).2.2 t ht hor
              · rcases hor with hor | hor
                · omega
                · exact absurd hor hstop

/-- C39: meaning of each outcome of `solve`.  A path is returned only when the target is reached, after at most `maxIterations` steps if this limit is
set, at the first moment it is reached if `stopWhenProblemIsSolved`, without any interruption; the exceptions for the iteration and
time limits are thrown only when this limit is hit and the target is not reached; `Interruption` only after a call of `interrupt()`. -/
theorem C39_outcome (C : Calls S P E) (hpure : ∀ s, (C.reached s).2 = s) (st : Settings K) (late intr : Nat → Bool) (fuel : Nat)
    (s s0 : S) (hs : C.start s = .ok s0) : Meaning C st late intr s0 (solve C st late intr fuel s) := by
  unfold solve
  rw [hs]
  simp only [hpure]
  by_cases hi : intr 0 = true
  · rw [if_pos hi]
    exact ⟨0, s0, rfl, hi, fun _ => Nat.zero_le _⟩
  · rw [if_neg hi]
    have hi' : intr 0 = false := by simpa using hi
    by_cases hr : (C.reached s0).1 = true
    · rw [if_pos hr]
      unfold conclude
      cases hp : C.computePath s0 with
      | ok p =>
        refine ⟨0, s0, rfl, hr, hp, fun _ => Nat.zero_le _, ?_, ?_, Or.inl rfl, ?_⟩
        · intro m hm
          have : m = 0 := by omega
          rw [this]; exact hi'
        · intro m hm; omega
        · intro m hm; omega
      | error e => exact ⟨0, s0, rfl, Or.inr ⟨hr, hp⟩⟩
    · rw [if_neg hr]
      have hr' : (C.reached s0).1 = false := by simpa using hr
      refine solveLoop_meaning C hpure st late intr s0 fuel 0 s0 rfl ?_
      intro m hm
      have hm0 : m = 0 := by omega
      subst hm0
      refine ⟨hi', fun h => absurd h (lt_irrefl _), ?_⟩
      intro t ht _
      rw [show t = s0 from ht]; exact hr'

/-! ## Termination -/

/-- Step `n` is the last one that can be started: a limit is hit, or an interruption is seen, or the target reached with the stop criterion. -/
def StopsBy (C : Calls S P E) (st : Settings K) (late intr : Nat → Bool) (s0 : S) (n : Nat) : Prop :=
  Limit st late n ∨ intr n = true ∨ (st.stop = true ∧ ∀ s, After C s0 n s → (C.reached s).1 = true)

theorem solveLoop_terminates (C : Calls S P E) (hpure : ∀ s, (C.reached s).2 = s) (st : Settings K) (late intr : Nat → Bool) (s0 : S) (N : Nat)
    (hN : StopsBy C st late intr s0 N) (fuel n : Nat) (s : S) (ha : After C s0 n s) (hn : n ≤ N) (hf : N < n + fuel)
    (hcur : n = N → Limit st late N) : solveLoop C st late intr fuel n s ≠ .running := by
  have hc : ∀ t, conclude C t ≠ Res.running := by
    intro t; unfold conclude; cases C.computePath t <;> simp
  induction fuel generalizing n s with
  | zero => omega
  | succ fuel ih =>
    have e1 : ∀ (b : Bool) (x : S), (if b = true then C.reached x else (false, x)).2 = x := by
      intro b x; split
      · exact hpure x
      · rfl
    unfold solveLoop
    simp only [e1]
    by_cases h2 : late n = true
    · simp only [h2, if_true]
      cases hr : (C.reached s).1 with
      | true => simpa using hc s
      | false => simp
    · have h2' : late n = false := by simpa using h2
      simp only [h2']
      by_cases h1 : st.maxIter ≠ 0 ∧ st.maxIter ≤ n
      · have hd : decide (st.maxIter ≠ 0 ∧ st.maxIter ≤ n) = true := by simpa using h1
        simp only [hd, if_true]
        cases hr : (C.reached s).1 with
        | true => simpa using hc s
        | false => simp
      · have hd : decide (st.maxIter ≠ 0 ∧ st.maxIter ≤ n) = false := by simpa using h1
        have hnl : ¬ Limit st late n := by
          rintro (h | h)
          · exact h1 h
          · exact h2 h
        have hlt : n < N := by
          rcases Nat.lt_or_ge n N with h | h
          · exact h
          · have hnN : n = N := by omega
            exact absurd (hcur hnN) (by rw [← hnN]; exact hnl)
        have z2 : ((0 : Nat) = 2) = False := by simp
        have z1 : ((0 : Nat) = 1) = False := by simp
        simp only [hd, Bool.false_eq_true, if_false, z1, z2]
        cases hs : C.step s with
        | error e => simp
        | ok s' =>
          have ha' : After C s0 (n + 1) s' := ⟨s, ha, hs⟩
          simp only
          by_cases hi : intr (n + 1) = true
          · rw [if_pos hi]; simp
          · rw [if_neg hi]
            by_cases hr : (if st.stop = true then C.reached s' else (false, s')).1 = true
            · rw [if_pos hr]; exact hc _
            · rw [if_neg hr]
              refine ih (n + 1) s' ha' (by omega) (by omega) ?_
              intro hnN
              rcases hN with h | h | ⟨h, h'⟩
              · exact h
              · rw [← hnN] at h; exact absurd h hi
              · exfalso
                apply hr
                rw [if_pos h]
                exact h' s' (by rw [← hnN]; exact ha')

/-- C39: `solve` ends, before step `N + 1`, as soon as one of the stop conditions holds at step `N`: the number of iterations, the time limit,
an interruption, or the target reached with `stopWhenProblemIsSolved`. -/
theorem C39_terminates (C : Calls S P E) (hpure : ∀ s, (C.reached s).2 = s) (st : Settings K) (late intr : Nat → Bool) (s s0 : S)
    (hs : C.start s = .ok s0) (N : Nat) (hN : StopsBy C st late intr s0 N) (fuel : Nat) (hf : N < fuel) :
    solve C st late intr fuel s ≠ .running := by
  have hc : ∀ t, conclude C t ≠ Res.running := by
    intro t; unfold conclude; cases C.computePath t <;> simp
  unfold solve
  rw [hs]
  simp only [hpure]
  split
  · simp
  · rename_i hi
    split
    · exact hc _
    · rename_i hr
      refine solveLoop_terminates C hpure st late intr s0 N hN fuel 0 s0 rfl (Nat.zero_le _) (by omega) ?_
      intro h0
      rcases hN with h | h | ⟨_, h⟩
      · exact h
      · rw [← h0] at h; exact absurd h hi
      · rw [← h0] at h; exact absurd (h s0 rfl) hr

/-- C39: in particular with a limit on the number of iterations. -/
theorem C39_maxIterations (C : Calls S P E) (hpure : ∀ s, (C.reached s).2 = s) (st : Settings K) (late intr : Nat → Bool) (s s0 : S)
    (hs : C.start s = .ok s0) (hm : st.maxIter ≠ 0) : solve C st late intr (st.maxIter + 1) s ≠ .running :=
  C39_terminates C hpure st late intr s s0 hs st.maxIter (Or.inl (Or.inl ⟨hm, le_refl _⟩)) _ (Nat.lt_succ_self _)

/-- C39, the other direction: the planner does not stop without reason. -/
theorem C39_only (C : Calls S P E) (hpure : ∀ s, (C.reached s).2 = s) (st : Settings K) (late intr : Nat → Bool) (s s0 : S)
    (hs : C.start s = .ok s0) (fuel : Nat) (h1 : ∀ n, intr n = false) (h2 : ∀ n, ¬ Limit st late n)
    (h3 : ∀ n t, After C s0 n t → (∃ t', C.step t = .ok t') ∧ ((n = 0 ∨ st.stop = true) → (C.reached t).1 = false)) :
    solve C st late intr fuel s = .running := by
  have h := C39_outcome C hpure st late intr fuel s s0 hs
  have h4 : ∀ n : Nat, ∃ t, After C s0 n t := by
    intro n
    induction n with
    | zero => exact ⟨s0, rfl⟩
    | succ n ih =>
      obtain ⟨t, ht⟩ := ih
      obtain ⟨t', ht'⟩ := (h3 n t ht).1
      exact ⟨t', t, ht, ht'⟩
  have hl : ∀ n, late n = false := by
    intro n
    cases hn : late n with
    | false => rfl
    | true => exact absurd (Or.inr hn) (h2 n)
  have hm : st.maxIter = 0 := by
    by_contra hc
    exact h2 st.maxIter (Or.inl ⟨hc, le_refl _⟩)
  -- direct: the loop runs
  have loop : ∀ (fuel n : Nat) (t : S), After C s0 n t → solveLoop C st late intr fuel n t = .running := by
    intro fuel
    induction fuel with
    | zero => intros; rfl
    | succ fuel ih =>
      intro n t ht
      obtain ⟨⟨t', ht'⟩, -⟩ := h3 n t ht
      have ha' : After C s0 (n + 1) t' := ⟨t, ht, ht'⟩
      unfold solveLoop
      have hd : decide (st.maxIter ≠ 0 ∧ st.maxIter ≤ n) = false := by simp [hm]
      have z2 : ((0 : Nat) = 2) = False := by simp
      have z1 : ((0 : Nat) = 1) = False := by simp
      simp only [hd, hl, h1, ht', if_false, Bool.false_eq_true, z1, z2]
      by_cases hst : st.stop = true
      · have hr := (h3 (n + 1) t' ha').2 (Or.inr hst)
        simp only [hst, if_true, hr, hpure, Bool.false_eq_true, if_false]
        exact ih (n + 1) t' ha'
      · have hst' : st.stop = false := by simpa using hst
        simp only [hst', Bool.false_eq_true, if_false]
        exact ih (n + 1) t' ha'
  unfold solve
  rw [hs]
  simp only [hpure, h1, Bool.false_eq_true, if_false]
  rw [(h3 0 s0 rfl).2 (Or.inl rfl)]
  simp only [Bool.false_eq_true, if_false]
  exact loop fuel 0 s0 rfl

end

/-! ## Examples -/

/-- A planner counting its steps, whose target is reached from step 3 on. -/
def exCalls : Calls Nat Nat Unit := ⟨fun s => .ok s, fun s => .ok (s + 1), fun s => (decide (3 ≤ s), s), fun s => .ok s⟩

example : solve exCalls (Settings.default : Settings Nat) (fun _ => false) (fun _ => false) 10 0 = .path 3 := by rfl
example : solve exCalls (⟨5, none, false⟩ : Settings Nat) (fun _ => false) (fun _ => false) 10 0 = .path 5 := by rfl
example : solve exCalls (⟨2, none, true⟩ : Settings Nat) (fun _ => false) (fun _ => false) 10 0 = .maxIterations := by rfl
example : solve exCalls (⟨2, some 1, true⟩ : Settings Nat) (fun n => decide (2 ≤ n)) (fun _ => false) 10 0 = .timeOut := by rfl
example : solve exCalls (⟨0, some 1, false⟩ : Settings Nat) (fun n => decide (6 ≤ n)) (fun _ => false) 10 0 = .path 6 := by rfl
example : solve exCalls (Settings.default : Settings Nat) (fun _ => false) (fun n => n = 2) 10 0 = .interrupted := by rfl
example : StopsBy exCalls (Settings.default : Settings Nat) (fun _ => false) (fun _ => false) 0 3 := by
  refine Or.inr (Or.inr ⟨rfl, ?_⟩)
  rintro s ⟨s2, ⟨s1, ⟨s0, h0, h1⟩, h2⟩, h3⟩
  simp only [After] at h0
  subst h0
  simp only [exCalls, Except.ok.injEq] at *
  subst h1 h2 h3
  rfl

/-- States met after `n` steps when the test of the target may change the state. -/
inductive Trace (C : Calls S P E) (s0 : S) : Nat → S → Prop
  | start : Trace C s0 0 s0
  | test (n : Nat) (s : S) : Trace C s0 n s → Trace C s0 n (C.reached s).2
  | step (n : Nat) (s s' : S) : Trace C s0 n s → C.step s = .ok s' → Trace C s0 (n + 1) s'

/-- What an outcome tells when the test of the target may change the state. -/
def MeaningAny (C : Calls S P E) (st : Settings K) (late intr : Nat → Bool) (s0 : S) : Res P E → Prop
  | .path p => ∃ n s, Trace C s0 n s ∧ (C.reached s).1 = true ∧ C.computePath (C.reached s).2 = .ok p ∧ (st.maxIter ≠ 0 → n ≤ st.maxIter) ∧
      (n = 0 ∨ st.stop = true ∨ Limit st late n) ∧ (∀ m ≤ n, intr m = false) ∧ ∀ m < n, ¬ Limit st late m
  | .maxIterations => ∃ s, Trace C s0 st.maxIter s ∧ st.maxIter ≠ 0 ∧ (C.reached s).1 = false
  | .timeOut => ∃ n s, Trace C s0 n s ∧ late n = true ∧ (C.reached s).1 = false ∧ (st.maxIter ≠ 0 → n ≤ st.maxIter)
  | .interrupted => ∃ n s, Trace C s0 n s ∧ intr n = true ∧ (st.maxIter ≠ 0 → n ≤ st.maxIter)
  | .error e => ∃ n s, Trace C s0 n s ∧ (C.step s = .error e ∨ ((C.reached s).1 = true ∧ C.computePath (C.reached s).2 = .error e))
  | .running => True

theorem conclude_any (C : Calls S P E) (st : Settings K) (late intr : Nat → Bool) (s0 : S) (n : Nat) (s : S) (h1 : Trace C s0 n s)
    (h2 : (C.reached s).1 = true) (h3 : st.maxIter ≠ 0 → n ≤ st.maxIter) (h4 : n = 0 ∨ st.stop = true ∨ Limit st late n)
    (h5 : ∀ m ≤ n, intr m = false) (h6 : ∀ m < n, ¬ Limit st late m) : MeaningAny C st late intr s0 (conclude C (C.reached s).2) := by
  unfold conclude
  cases hp : C.computePath (C.reached s).2 with
  | ok p => exact ⟨n, s, h1, h2, hp, h3, h4, h5, h6⟩
  | error e => exact ⟨n, s, h1, Or.inr ⟨h2, hp⟩⟩

theorem solveLoop_any (C : Calls S P E) (st : Settings K) (late intr : Nat → Bool) (s0 : S)
    (fuel n : Nat) (s : S) (ha : Trace C s0 n s) (hi : ∀ m ≤ n, intr m = false) (hl : ∀ m < n, ¬ Limit st late m) :
    MeaningAny C st late intr s0 (solveLoop C st late intr fuel n s) := by
  induction fuel generalizing n s with
  | zero => trivial
  | succ fuel ih =>
    have hmax : st.maxIter ≠ 0 → n ≤ st.maxIter := by
      intro hm
      by_contra hc
      exact hl st.maxIter (by omega) (Or.inl ⟨hm, le_refl _⟩)
    unfold solveLoop
    simp only
    have hr1 : ∃ s1, Trace C s0 n s1 ∧ (if decide (st.maxIter ≠ 0 ∧ st.maxIter ≤ n) = true then C.reached s else (false, s)).2 = s1 := by
      split
      · exact ⟨_, ha.test, rfl⟩
      · exact ⟨_, ha, rfl⟩
    by_cases h2 : late n = true
    · obtain ⟨s1, k1, k2⟩ := hr1
      simp only [h2, if_true, k2]
      by_cases hr : (C.reached s1).1 = true
      · simp only [hr, if_true]
        exact conclude_any C st late intr s0 n s1 k1 hr hmax (Or.inr (Or.inr (Or.inr h2))) hi hl
      · have hr' : (C.reached s1).1 = false := by simpa using hr
        simp only [hr']
        exact ⟨n, s1, k1, h2, hr', hmax⟩
    · have h2' : late n = false := by simpa using h2
      simp only [h2', Bool.false_eq_true, if_false]
      by_cases h1 : st.maxIter ≠ 0 ∧ st.maxIter ≤ n
      · have hd : decide (st.maxIter ≠ 0 ∧ st.maxIter ≤ n) = true := by simpa using h1
        simp only [hd, if_true]
        by_cases hr : (C.reached s).1 = true
        · simp only [hr, if_true]
          exact conclude_any C st late intr s0 n s ha hr hmax (Or.inr (Or.inr (Or.inl h1))) hi hl
        · have hr' : (C.reached s).1 = false := by simpa using hr
          simp only [hr']
          have : n = st.maxIter := le_antisymm (hmax h1.1) h1.2
          subst this
          exact ⟨s, ha, h1.1, hr'⟩
      · have hd : decide (st.maxIter ≠ 0 ∧ st.maxIter ≤ n) = false := by simpa using h1
        have hmax' : st.maxIter ≠ 0 → n + 1 ≤ st.maxIter := by
          intro hm
          by_contra hc
          exact h1 ⟨hm, by omega⟩
        have z2 : ((0 : Nat) = 2) = False := by simp
        have z1 : ((0 : Nat) = 1) = False := by simp
        simp only [hd, Bool.false_eq_true, if_false, z1, z2]
        cases hs : C.step s with
        | error e => exact ⟨n, s, ha, Or.inl hs⟩
        | ok s' =>
          have ha' : Trace C s0 (n + 1) s' := .step n s s' ha hs
          have hl' : ∀ m < n + 1, ¬ Limit st late m := by
            intro m hm
            rcases Nat.lt_or_ge m n with hlt | hge
            · exact hl m hlt
            · have : m = n := by omega
              subst this
              rintro (h | h)
              · exact h1 h
              · exact h2 h
          simp only
          by_cases hn : intr (n + 1) = true
          · simp only [hn, if_true]
            exact ⟨n + 1, s', ha', hn, hmax'⟩
          · have hi' : ∀ m ≤ n + 1, intr m = false := by
              intro m hm
              rcases Nat.lt_or_ge m (n + 1) with hlt | hge
              · exact hi m (by omega)
              · have : m = n + 1 := by omega
                subst this
                simpa using hn
            simp only [hi' (n + 1) (le_refl _), Bool.false_eq_true, if_false]
            by_cases hstop : st.stop = true
            · simp only [hstop, if_true]
              by_cases hr : (C.reached s').1 = true
              · simp only [hr, if_true]
                exact conclude_any C st late intr s0 (n + 1) s' ha' hr hmax' (Or.inr (Or.inl hstop)) hi' hl'
              · simp only [show (C.reached s').1 = false by simpa using hr, Bool.false_eq_true, if_false]
                exact ih (n + 1) _ ha'.test hi' hl'
            · simp only [show st.stop = false by simpa using hstop, Bool.false_eq_true, if_false]
              exact ih (n + 1) s' ha' hi' hl'

/-- C39 for every target, even when its test changes the state (`TaskTarget::reached` may insert goal nodes): a path is returned only just after the target
said that it is reached, after at most `maxIterations` steps, with no interruption and no limit met before; the other outcomes as for `C39_outcome`. -/
theorem C39_any_target (C : Calls S P E) (st : Settings K) (late intr : Nat → Bool) (fuel : Nat) (s s0 : S) (hs : C.start s = .ok s0) :
    MeaningAny C st late intr s0 (solve C st late intr fuel s) := by
  unfold solve
  rw [hs]
  simp only
  by_cases hi : intr 0 = true
  · rw [if_pos hi]
    exact ⟨0, s0, .start, hi, fun _ => Nat.zero_le _⟩
  · rw [if_neg hi]
    have hi' : ∀ m ≤ 0, intr m = false := by
      intro m hm
      have : m = 0 := by omega
      subst this; simpa using hi
    by_cases hr : (C.reached s0).1 = true
    · rw [if_pos hr]
      exact conclude_any C st late intr s0 0 s0 .start hr (fun _ => Nat.zero_le _) (Or.inl rfl) hi' (by simp)
    · rw [if_neg hr]
      exact solveLoop_any C st late intr s0 fuel 0 _ (Trace.start.test) hi' (by simp)

/-- C39 for every target: with a limit on the number of iterations, `solve` ends. -/
theorem C39_any_target_ends (C : Calls S P E) (st : Settings K) (late intr : Nat → Bool) (s : S) (hm : st.maxIter ≠ 0) :
    solve C st late intr (st.maxIter + 1) s ≠ .running := by
  have hc : ∀ t, conclude C t ≠ Res.running := by
    intro t; unfold conclude; cases C.computePath t <;> simp
  have hite : ∀ (c : Prop) [Decidable c] (a b : Res P E), a ≠ .running → b ≠ .running → (if c then a else b) ≠ .running := by
    intro c _ a b ha hb; split <;> assumption
  have loop : ∀ (fuel n : Nat) (t : S), st.maxIter ≤ fuel + n → solveLoop C st late intr (fuel + 1) n t ≠ .running := by
    intro fuel
    induction fuel with
    | zero =>
      intro n t hn
      have hd : decide (st.maxIter ≠ 0 ∧ st.maxIter ≤ n) = true := by simp [hm]; omega
      unfold solveLoop
      simp only [hd, if_true]
      by_cases h2 : late n = true
      · simp only [h2, if_true]
        by_cases hr : (C.reached (C.reached t).2).1 = true
        · simp only [hr, if_true]; exact hc _
        · simp only [show (C.reached (C.reached t).2).1 = false by simpa using hr]; simp
      · simp only [show late n = false by simpa using h2]
        by_cases hr : (C.reached t).1 = true
        · simp only [hr, if_true]; exact hc _
        · simp only [show (C.reached t).1 = false by simpa using hr]; simp
    | succ fuel ih =>
      intro n t hn
      rw [solveLoop.eq_def]
      simp only
      refine hite _ _ _ (hc _) (hite _ _ _ (hite _ _ _ (by simp) (by simp)) ?_)
      cases C.step _ with
      | error e => simp
      | ok s' => exact hite _ _ _ (by simp) (hite _ _ _ (hc _) (ih (n + 1) _ (by omega)))
  unfold solve
  cases C.start s with
  | error e => simp
  | ok s0 =>
    simp only
    split
    · simp
    · split
      · exact hc _
      · exact loop st.maxIter 0 _ (by omega)

/-- An interruption during the step that solves the problem wins: an exception is thrown although the target is reached. -/
theorem C39_interrupt_counterexample :
    solve exCalls (Settings.default : Settings Nat) (fun _ => false) (fun n => n = 3) 10 0 = .interrupted ∧ (exCalls.reached 3).1 = true :=
  ⟨rfl, rfl⟩

end Verif.Planner
