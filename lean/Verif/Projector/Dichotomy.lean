import Verif.Projector.Common
import Mathlib.Algebra.Order.Archimedean.Basic
import Mathlib.Tactic.Linarith
set_option linter.unusedSectionVars false

/-!
# `pathProjector::Dichotomy` (C47)

Configurations, straight paths, the steering method and the constraints are parameters.
-/
namespace Verif.Proj
variable {P C K : Type} [Field K] [LinearOrder K] [IsStrictOrderedRing K]

/-- What the projection uses.
* `ini`, `fin`, `len`: `Path::initial`, `end`, `length`;
* `mid p`: `p->eval (qi, timeRange.first + length / 2)`, for an unconstrained straight path;
* `steer`: `PathProjector::steer`, the straight path of the steering method without constraints;
* `sat`, `project`: `ConstraintSet::isSatisfied` and `apply` of the constraints of the path, after the right hand side is set from the initial
configuration of the path (dichotomy.cc:87); `project q = none` when `apply` returns `false`. -/
structure DEnv (P C K : Type) where
  ini : P → C
  fin : P → C
  len : P → K
  mid : P → C
  steer : C → C → P
  sat : C → Bool
  project : C → Option C

/-- Assumptions: the steering method joins its arguments, a projected configuration satisfies the constraints. -/
structure DContract (E : DEnv P C K) : Prop where
  ini : ∀ a b, E.ini (E.steer a b) = a
  fin : ∀ a b, E.fin (E.steer a b) = b
  project : ∀ q q', E.project q = some q' → E.sat q' = true

/-- The main loop: dichotomy.cc:103-128.  `st` is the stack `pathToSplit`, `acc` the queue `paths`.  Returns `pathIsFullyProjected` and the
queue; `none` when the loop is not finished. -/
def dichoLoop (E : DEnv P C K) (maxLen : K) : Nat → List P → List P → Option (Bool × List P)
  | 0, _, _ => none
  | _ + 1, [], acc => some (true, acc)
  | n + 1, s :: st, acc =>
    if E.len s < maxLen then dichoLoop E maxLen n st (acc ++ [s])
    else match E.project (E.mid s) with
      | none => some (false, acc)
      | some qi =>
        let first := E.steer (E.ini s) qi
        let second := E.steer qi (E.fin s)
        if E.len second = 0 ∨ E.len first = 0 then some (false, acc)
        else dichoLoop E maxLen n (first :: second :: st) acc

/-- Outcome of the projection of a path that is not a path vector. -/
inductive Out (P : Type) where
  /-- a null pointer is dereferenced -/
  | nullPointer
  /-- the loop is not finished -/
  | running
  /-- the returned value, and the pieces of the output; `none` when the output argument is not assigned -/
  | ret (b : Bool) (out : Option (List P))

/-- `applyToStraightPath`: dichotomy.cc:80-145.  `cons`: what `path->constraints()` is: `none` for a null pointer, `some false` when there is no
projector or its dimension is 0, `some true` otherwise. -/
def dichotomy (E : DEnv P C K) (maxLen : K) (fuel : Nat) (cons : Option Bool) (path : P) : Out P :=
  match cons with
  | none => .nullPointer
  | some active =>
    if E.sat (E.ini path) = false ∨ E.sat (E.fin path) = false then .ret false none
    else if active = false then .ret true (some [path])
    else match dichoLoop E maxLen fuel [E.steer (E.ini path) (E.fin path)] [] with
      | none => .running
      | some (b, paths) => if paths = [] then .ret false none else .ret b (some paths)

/-! ## Specification -/

/-- `l` is a continuous sequence of pieces from `a` to `b`; the ends of each piece satisfy the constraints and its length is below
`maxLen`. -/
def Pieces (E : DEnv P C K) (maxLen : K) : C → List P → C → Prop
  | a, [], b => a = b
  | a, p :: l, b => E.ini p = a ∧ E.sat (E.ini p) = true ∧ E.sat (E.fin p) = true ∧ E.len p < maxLen ∧ Pieces E maxLen (E.fin p) l b

theorem Pieces.append {E : DEnv P C K} {maxLen : K} {a b c : C} {l l' : List P} (h : Pieces E maxLen a l b) (h' : Pieces E maxLen b l' c) :
    Pieces E maxLen a (l ++ l') c := by
  induction l generalizing a with
  | nil => obtain rfl : a = b := h; exact h'
  | cons p l ih => exact ⟨h.1, h.2.1, h.2.2.1, h.2.2.2.1, ih h.2.2.2.2⟩

/-- The paths in the stack follow each other from `a` to `b` and their ends satisfy the constraints. -/
def Stack (E : DEnv P C K) : C → List P → C → Prop
  | a, [], b => a = b
  | a, p :: l, b => E.ini p = a ∧ E.sat (E.ini p) = true ∧ E.sat (E.fin p) = true ∧ Stack E (E.fin p) l b

theorem dichoLoop_spec {E : DEnv P C K} (hE : DContract E) (maxLen : K) (fuel : Nat) {a b c : C} {st acc : List P}
    (hs : Stack E b st c) (ha : Pieces E maxLen a acc b) {ok : Bool} {res : List P} (h : dichoLoop E maxLen fuel st acc = some (ok, res)) :
    (ok = true → Pieces E maxLen a res c) ∧ ∃ d, Pieces E maxLen a res d := by
  induction fuel generalizing st acc b with
  | zero => simp [dichoLoop] at h
  | succ n ih =>
    cases st with
    | nil =>
      simp only [dichoLoop, Option.some.injEq, Prod.mk.injEq] at h
      obtain ⟨rfl, rfl⟩ := h
      obtain rfl : b = c := hs
      exact ⟨fun _ => ha, b, ha⟩
    | cons s st =>
      obtain ⟨h1, h2, h3, h4⟩ := hs
      rw [dichoLoop] at h
      by_cases hl : E.len s < maxLen
      · rw [if_pos hl] at h
        exact ih h4 (ha.append (show Pieces E maxLen b [s] (E.fin s) from ⟨h1, h2, h3, hl, rfl⟩)) h
      · rw [if_neg hl] at h
        cases hp : E.project (E.mid s) with
        | none =>
          rw [hp] at h
          simp only [Option.some.injEq, Prod.mk.injEq] at h
          obtain ⟨rfl, rfl⟩ := h
          exact ⟨by simp, b, ha⟩
        | some qi =>
          rw [hp] at h
          dsimp only at h
          by_cases hz : E.len (E.steer qi (E.fin s)) = 0 ∨ E.len (E.steer (E.ini s) qi) = 0
          · rw [if_pos hz] at h
            simp only [Option.some.injEq, Prod.mk.injEq] at h
            obtain ⟨rfl, rfl⟩ := h
            exact ⟨by simp, b, ha⟩
          · rw [if_neg hz] at h
            have hq := hE.project _ _ hp
            refine ih ?_ ha h
            refine ⟨by rw [hE.ini, h1], by rw [hE.ini]; exact h2, by rw [hE.fin]; exact hq, ?_⟩
            rw [hE.fin]
            refine ⟨hE.ini _ _, by rw [hE.ini]; exact hq, by rw [hE.fin]; exact h3, ?_⟩
            rw [hE.fin]
            exact h4

/-- C47: when the projection of a path with active constraints ends with success, the output is a non-empty continuous sequence of pieces from
the initial to the final configuration of the path, the ends of the pieces satisfy the constraints and their lengths are below the threshold.
When it fails, the output, if assigned, is such a sequence from the initial configuration.  Without active constraints the output is the path. -/
theorem C47_dichotomy {E : DEnv P C K} (hE : DContract E) (maxLen : K) (fuel : Nat) (cons : Option Bool) (path : P) {ok : Bool}
    {out : Option (List P)} (h : dichotomy E maxLen fuel cons path = .ret ok out) :
    (ok = true → ∃ l, out = some l ∧ l ≠ [] ∧
      ((cons = some true ∧ Pieces E maxLen (E.ini path) l (E.fin path)) ∨ (cons = some false ∧ l = [path]))) ∧
    (ok = false → ∀ l, out = some l → l ≠ [] ∧ ∃ d, Pieces E maxLen (E.ini path) l d) ∧
    (ok = true → E.sat (E.ini path) = true ∧ E.sat (E.fin path) = true) := by
  unfold dichotomy at h
  cases cons with
  | none => simp at h
  | some active =>
    dsimp only at h
    by_cases hs : E.sat (E.ini path) = false ∨ E.sat (E.fin path) = false
    · rw [if_pos hs] at h
      simp only [Out.ret.injEq] at h
      obtain ⟨rfl, rfl⟩ := h
      simp
    · rw [if_neg hs] at h
      push Not at hs
      simp only [ne_eq, Bool.not_eq_false] at hs
      cases active with
      | false =>
        rw [if_pos rfl] at h
        simp only [Out.ret.injEq] at h
        obtain ⟨rfl, rfl⟩ := h
        exact ⟨fun _ => ⟨[path], rfl, by simp, Or.inr ⟨rfl, rfl⟩⟩, by simp, fun _ => hs⟩
      | true =>
        rw [if_neg (by simp)] at h
        cases hd : dichoLoop E maxLen fuel [E.steer (E.ini path) (E.fin path)] [] with
        | none => rw [hd] at h; simp at h
        | some x =>
          obtain ⟨b, paths⟩ := x
          rw [hd] at h
          dsimp only at h
          have hst : Stack E (E.ini path) [E.steer (E.ini path) (E.fin path)] (E.fin path) := by
            refine ⟨hE.ini _ _, by rw [hE.ini]; exact hs.1, by rw [hE.fin]; exact hs.2, ?_⟩
            rw [hE.fin]; rfl
          obtain ⟨k1, k2⟩ := dichoLoop_spec hE maxLen fuel hst (show Pieces E maxLen (E.ini path) [] (E.ini path) from rfl) hd
          by_cases he : paths = []
          · rw [if_pos he] at h
            simp only [Out.ret.injEq] at h
            obtain ⟨rfl, rfl⟩ := h
            simp
          · rw [if_neg he] at h
            simp only [Out.ret.injEq] at h
            obtain ⟨rfl, rfl⟩ := h
            refine ⟨fun h => ⟨paths, rfl, he, Or.inl ⟨rfl, k1 h⟩⟩, ?_, fun _ => hs⟩
            intro _ l hl
            cases hl
            exact ⟨he, k2⟩

/-- C47 (termination): if splitting a path that is not short enough gives two parts that are shorter by at least `δ > 0`, the projection
terminates. -/
theorem C47_terminates [Archimedean K] {E : DEnv P C K} (maxLen δ : K) (hδ : 0 < δ)
    (hsplit : ∀ s qi, ¬ E.len s < maxLen → E.project (E.mid s) = some qi →
      E.len (E.steer (E.ini s) qi) ≤ E.len s - δ ∧ E.len (E.steer qi (E.fin s)) ≤ E.len s - δ) (cons : Option Bool) (path : P) :
    ∃ fuel, dichotomy E maxLen fuel cons path ≠ .running := by
  have key : ∀ (n : Nat) (s : P), E.len s < maxLen + n * δ → ∃ k, ∀ st acc,
      (∃ acc', ∀ fuel, dichoLoop E maxLen (k + fuel) (s :: st) acc = some (false, acc')) ∨
      (∃ acc', ∀ fuel, dichoLoop E maxLen (k + fuel) (s :: st) acc = dichoLoop E maxLen fuel st acc') := by
    intro n
    induction n with
    | zero =>
      intro s hs
      refine ⟨1, fun st acc => Or.inr ⟨acc ++ [s], fun fuel => ?_⟩⟩
      rw [Nat.add_comm, dichoLoop, if_pos (by simpa using hs)]
    | succ n ih =>
      intro s hs
      by_cases hl : E.len s < maxLen
      · refine ⟨1, fun st acc => Or.inr ⟨acc ++ [s], fun fuel => ?_⟩⟩
        rw [Nat.add_comm, dichoLoop, if_pos hl]
      · cases hp : E.project (E.mid s) with
        | none =>
          refine ⟨1, fun st acc => Or.inl ⟨acc, fun fuel => ?_⟩⟩
          rw [Nat.add_comm, dichoLoop, if_neg hl, hp]
        | some qi =>
          by_cases hz : E.len (E.steer qi (E.fin s)) = 0 ∨ E.len (E.steer (E.ini s) qi) = 0
          · refine ⟨1, fun st acc => Or.inl ⟨acc, fun fuel => ?_⟩⟩
            rw [Nat.add_comm, dichoLoop, if_neg hl, hp]
            dsimp only
            rw [if_pos hz]
          · obtain ⟨h1, h2⟩ := hsplit s qi hl hp
            have hs' : E.len s < maxLen + n * δ + δ := by
              have : ((n + 1 : Nat) : K) * δ = n * δ + δ := by push_cast; ring
              rw [this] at hs; linarith
            obtain ⟨k1, r1⟩ := ih (E.steer (E.ini s) qi) (by linarith)
            obtain ⟨k2, r2⟩ := ih (E.steer qi (E.fin s)) (by linarith)
            refine ⟨k1 + k2 + 1, fun st acc => ?_⟩
            have hstep : ∀ fuel, dichoLoop E maxLen (k1 + k2 + 1 + fuel) (s :: st) acc =
                dichoLoop E maxLen (k1 + (k2 + fuel)) (E.steer (E.ini s) qi :: E.steer qi (E.fin s) :: st) acc := by
              intro fuel
              have : k1 + k2 + 1 + fuel = (k1 + (k2 + fuel)) + 1 := by omega
              rw [this, dichoLoop, if_neg hl, hp]
              dsimp only
              rw [if_neg hz]
            rcases r1 (E.steer qi (E.fin s) :: st) acc with ⟨acc1, q1⟩ | ⟨acc1, q1⟩
            · exact Or.inl ⟨acc1, fun fuel => by rw [hstep, q1]⟩
            · rcases r2 st acc1 with ⟨acc2, q2⟩ | ⟨acc2, q2⟩
              · exact Or.inl ⟨acc2, fun fuel => by rw [hstep, q1, q2]⟩
              · exact Or.inr ⟨acc2, fun fuel => by rw [hstep, q1, q2]⟩
  obtain ⟨n, hn⟩ := exists_nat_gt ((E.len (E.steer (E.ini path) (E.fin path)) - maxLen) / δ)
  have hn' : E.len (E.steer (E.ini path) (E.fin path)) < maxLen + n * δ := by
    rw [div_lt_iff₀ hδ] at hn; linarith
  obtain ⟨k, hk⟩ := key n _ hn'
  refine ⟨k + 1, ?_⟩
  have hne : dichoLoop E maxLen (k + 1) [E.steer (E.ini path) (E.fin path)] [] ≠ none := by
    rcases hk [] [] with ⟨acc', h⟩ | ⟨acc', h⟩
    · rw [h]; simp
    · rw [h, dichoLoop]; simp
  unfold dichotomy
  cases cons with
  | none => simp
  | some active =>
    dsimp only
    split
    · simp
    · split
      · simp
      · cases hd : dichoLoop E maxLen (k + 1) [E.steer (E.ini path) (E.fin path)] [] with
        | none => exact absurd hd hne
        | some x => dsimp only; split <;> simp

/-! ## Witnesses -/

/-- Segments of the rational line; the constraint is "not beyond 10", a configuration beyond 10 cannot be projected. -/
def lineD : DEnv (ℚ × ℚ) ℚ ℚ where
  ini := Prod.fst
  fin := Prod.snd
  len p := |p.2 - p.1|
  mid p := (p.1 + p.2) / 2
  steer a b := (a, b)
  sat q := decide (q ≤ 10)
  project q := if q ≤ 10 then some q else none

example : DContract lineD := by
  refine ⟨fun _ _ => rfl, fun _ _ => rfl, ?_⟩
  intro q q' h
  simp only [lineD] at h ⊢
  split at h
  · cases h; simpa
  · simp at h

/-- the hypothesis of `C47_terminates` -/
example (s : ℚ × ℚ) (qi : ℚ) (hs : ¬ lineD.len s < 1) (h : lineD.project (lineD.mid s) = some qi) :
    lineD.len (lineD.steer (lineD.ini s) qi) ≤ lineD.len s - 1 / 4 ∧ lineD.len (lineD.steer qi (lineD.fin s)) ≤ lineD.len s - 1 / 4 := by
  simp only [lineD] at h hs ⊢
  split at h
  · cases h
    have e1 : (s.1 + s.2) / 2 - s.1 = (s.2 - s.1) / 2 := by ring
    have e2 : s.2 - (s.1 + s.2) / 2 = (s.2 - s.1) / 2 := by ring
    rw [e1, e2, abs_div]
    have : |(2 : ℚ)| = 2 := by norm_num
    rw [this]
    constructor <;> linarith
  · simp at h

example : (match dichotomy lineD 1 100 (some true) (0, 3) with
    | .ret b o => some (b, o) | _ => none) = some (true, some [(0, 3/4), (3/4, 3/2), (3/2, 9/4), (9/4, 3)]) := by decide +kernel

/-- Three configurations at distance 1 of each other; the middle of two of them is projected on the third one. -/
def triD : DEnv (Fin 3 × Fin 3) (Fin 3) ℚ where
  ini := Prod.fst
  fin := Prod.snd
  len p := if p.1 = p.2 then 0 else 1
  mid p := if p = (0, 1) ∨ p = (1, 0) then 2 else if p = (0, 2) ∨ p = (2, 0) then 1 else 0
  steer a b := (a, b)
  sat _ := true
  project q := some q

/-- Without such an assumption the projection may never end: the projected middle may be as far from both ends as they are from each
other. -/
theorem C47_diverges_counterexample (fuel : Nat) : DContract triD ∧ dichotomy triD (1 / 2) fuel (some true) (0, 1) = .running := by
  refine ⟨⟨fun _ _ => rfl, fun _ _ => rfl, fun _ _ _ => rfl⟩, ?_⟩
  have key : ∀ fuel (s : Fin 3 × Fin 3) st acc, s.1 ≠ s.2 → dichoLoop triD (1 / 2) fuel (s :: st) acc = none := by
    intro fuel
    induction fuel with
    | zero => intros; rfl
    | succ n ih =>
      intro s st acc hs
      have hl : triD.len s = 1 := by simp [triD, hs]
      have hm : triD.mid s ≠ s.1 ∧ triD.mid s ≠ s.2 := by
        obtain ⟨a, b⟩ := s
        revert hs
        revert a b
        decide
      have hp : triD.project (triD.mid s) = some (triD.mid s) := rfl
      rw [dichoLoop, if_neg (by rw [hl]; norm_num), hp]
      dsimp only
      have e1 : triD.len (triD.steer (triD.mid s) (triD.fin s)) = 1 := by
        show (if triD.mid s = s.2 then (0 : ℚ) else 1) = 1
        rw [if_neg hm.2]
      have e2 : triD.len (triD.steer (triD.ini s) (triD.mid s)) = 1 := by
        show (if s.1 = triD.mid s then (0 : ℚ) else 1) = 1
        rw [if_neg (Ne.symm hm.1)]
      rw [if_neg (by rw [e1, e2]; norm_num)]
      exact ih _ _ _ (Ne.symm hm.1)
  unfold dichotomy
  dsimp only
  rw [if_neg (by simp [triD]), if_neg (by simp), key fuel _ [] [] (by simp [triD])]

/-- C47: a path without constraint set makes the projector dereference a null pointer. -/
theorem C47_null_counterexample (fuel : Nat) : dichotomy lineD 1 fuel none (0, 1) = .nullPointer := rfl

end Verif.Proj
