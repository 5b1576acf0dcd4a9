import Verif.Planner.Diffusing
set_option linter.unusedSectionVars false

/-! # A concrete planning problem: the integer line with a wall at 10 and a steering method of range 3 -/
namespace Verif.Planner.Line
open Verif.Roadmap Verif.Planner

/-- A path of the example: `a` to `b` at unit speed from time `t`. -/
abbrev LP := Int × Int × Int

def dur (p : LP) : Int := max (p.1 - p.2.1) (p.2.1 - p.1)
def pos (p : LP) (t : Int) : Int :=
  if p.1 ≤ p.2.1 then max p.1 (min p.2.1 (p.1 + (t - p.2.2))) else max p.2.1 (min p.1 (p.1 - (t - p.2.2)))

/-- The environment. -/
def env : PEnv Int LP Int where
  dist a b := max (a - b) (b - a)
  rev p := (p.2.1, p.1, p.2.2)
  zeroLength p := decide (dur p = 0)
  ini p := p.1
  fin p := p.2.1
  t0 p := p.2.2
  t1 p := p.2.2 + dur p
  len p := dur p
  extract p s t := (pos p s, pos p t, s)
  steer a b := if a - b ≤ 3 ∧ b - a ≤ 3 then some (a, b, 0) else none
  projector := none
  validate r p :=
    if p.1 < 10 ∧ p.2.1 < 10 then (true, p)
    else if r = false then (if p.1 < 10 then (false, (p.1, 9, p.2.2)) else (false, (p.1, p.1, p.2.2)))
    else (if p.2.1 < 10 then (false, (9, p.2.1, p.2.2 + (p.1 - 9))) else (false, (p.2.1, p.2.1, p.2.2 + dur p)))
  onKernel _ q := some q

/-- Paths that stay before the wall. -/
def Free (p : LP) : Prop := p.1 < 10 ∧ p.2.1 < 10

theorem contract : Contract env Free := by
  refine ⟨?_, ?_, ?_, ?_, ?_, ?_, ?_, ?_, ?_, ?_, ?_, ?_⟩
  · intro a b p h
    simp only [env] at h
    split at h
    · rw [← Option.some.inj h]; exact ⟨rfl, rfl⟩
    · simp at h
  · rintro ⟨a, b, c⟩ t
    simp only [env, pos]
    split <;> omega
  · rintro ⟨a, b, c⟩ t ⟨h1, h2⟩
    simp only at h1 h2
    simp only [env, pos, Free]
    split <;> omega
  · intro f p b p' h; simp [env] at h
  · intro f p h; simp [env] at h
  · rintro ⟨a, b, c⟩
    simp only [env]
    repeat' split
    all_goals first | rfl | simp_all
  · rintro ⟨a, b, c⟩ h
    simp only [env, Free] at h ⊢
    split at h
    · rename_i h1; rw [if_pos h1]; exact h1
    · rename_i h1
      rw [if_neg h1]
      simp only [if_true] at h ⊢
      split at h
      · rename_i h2; rw [if_pos h2]; exact ⟨h2, by simp⟩
      · simp [dur] at h
  · rintro r ⟨a, b, c⟩ h
    simp only [env, Free] at h ⊢
    split at h
    · rename_i h1; simp only [if_pos h1]; exact ⟨h1, h1, by simp, by simp⟩
    · rename_i h1
      repeat' split at h
      all_goals simp at h
  · rintro ⟨a, b, c⟩
    simp only [env]
    repeat' split
    all_goals first | rfl | simp_all
  · intro p; rfl
  · intro p; rfl
  · rintro p ⟨h1, h2⟩; exact ⟨h2, h1⟩

/-- The part returned by a validation from the end. -/
theorem valid_part_rev : ∀ p, (env.t0 (env.validate true p).2 ≠ env.t1 p → Free (env.validate true p).2) ∧
    (env.t0 (env.validate true p).2 = env.t1 p → env.ini (env.validate true p).2 = env.fin p) := by
  rintro ⟨a, b, c⟩
  simp only [env, Free, dur]
  by_cases h1 : a < 10 ∧ b < 10
  · simp only [if_pos h1]
    refine ⟨fun _ => h1, fun h => ?_⟩
    omega
  · simp only [if_neg h1, Bool.true_eq_false, if_false]
    by_cases h2 : b < 10
    · simp only [if_pos h2]
      refine ⟨fun _ => ⟨by omega, h2⟩, fun h => ?_⟩
      omega
    · simp only [if_neg h2]
      exact ⟨fun h => absurd rfl h, fun _ => by simp⟩

/-- Steering from a configuration to itself. -/
theorem steer_self (q : Int) : env.steer q q ≠ none := by simp [env]

theorem good_empty : Good env Free [] (Roadmap.empty : Roadmap Int LP) := ⟨Inv.empty, by simp [Roadmap.empty]⟩

/-- The result of a resolution. -/
def out (r : Res (List LP) PlanErr) : Option (List (Int × Int)) := match r with
  | .path l => some (l.map (fun p => (p.1, p.2.1)))
  | _ => none

/-- a problem that is solved in one step, with a delayed edge -/
example : out (solve (diffusing env ⟨0, 1⟩ (fun _ _ => 0) 0 [5] (fun _ => 3)) (Settings.default (K := Int)) (fun _ => false) (fun _ => false) 10
    (0, Roadmap.empty)) = some [(0, 3), (3, 5)] := by decide +kernel

/-- a problem that is solved in two steps -/
example : out (solve (diffusing env ⟨0, 1⟩ (fun _ _ => 0) 0 [8] (fun n => if n = 0 then 3 else 5)) (Settings.default (K := Int)) (fun _ => false) (fun _ => false) 10
    (0, Roadmap.empty)) = some [(0, 3), (3, 5), (5, 8)] := by decide +kernel

/-- a goal behind the wall is not reached -/
example : out (solve (diffusing env ⟨0, 1⟩ (fun _ _ => 0) 8 [11] (fun _ => 10)) (⟨5, none, true⟩ : Settings Int) (fun _ => false) (fun _ => false) 10
    (0, Roadmap.empty)) = none := by decide +kernel

end Verif.Planner.Line
