import Verif.Planner.EndToEnd
set_option linter.unusedSectionVars false

/-!
# A planner and a joint that turns (C128)

A robot with one unbounded rotation joint.  Angles are counted in turns and are rational, so that the run of the planner is computed by the kernel.
-/
namespace Verif.HalfTurn
open Verif.PathV Verif.Planner

/-- The angle in (-1/2, 1/2]. -/
def norm (x : ℚ) : ℚ := x - (⌈x - 1 / 2⌉ : ℤ)

/-- Configurations. -/
def Rot := { x : ℚ // norm x = x }

instance : DecidableEq Rot := inferInstanceAs (DecidableEq { x : ℚ // norm x = x })

theorem norm_add_int (x : ℚ) (n : ℤ) : norm (x + n) = norm x := by
  have : x + n - 1 / 2 = (x - 1 / 2) + n := by ring
  unfold norm
  rw [this, Int.ceil_add_intCast]
  push_cast
  ring

theorem norm_sub_int (x : ℚ) (n : ℤ) : norm (x - n) = norm x := by
  have := norm_add_int x (-n)
  push_cast at this
  rwa [← sub_eq_add_neg] at this

theorem norm_norm (x : ℚ) : norm (norm x) = norm x := norm_sub_int x _

def rot (x : ℚ) : Rot := ⟨norm x, norm_norm x⟩

/-- `q1 - q0` in (-1/2, 1/2]: logarithm of a planar rotation. -/
def diff (a b : Rot) : ℚ := norm (b.1 - a.1)

/-- Interpolation on the circle: straight-path.cc:108. -/
def space : Space ℚ Rot where
  interp a b u := rot (a.1 + u * diff a b)
  zero a b := Subtype.ext (by show norm (a.1 + 0 * _) = a.1; rw [zero_mul, add_zero]; exact a.2)
  one a b := Subtype.ext (by
    show norm (a.1 + 1 * (b.1 - a.1 - (⌈b.1 - a.1 - 1 / 2⌉ : ℤ))) = b.1
    have : a.1 + 1 * (b.1 - a.1 - (⌈b.1 - a.1 - 1 / 2⌉ : ℤ)) = b.1 - (⌈b.1 - a.1 - 1 / 2⌉ : ℤ) := by ring
    rw [this, norm_sub_int]
    exact b.2)

/-- An obstacle at angle -1/4. -/
def free (q : Rot) : Bool := decide (1 / 100 < |diff (rot (-1 / 4)) q|)

/-- Extraction without constraints: straight-path.cc:142-158. -/
def cut (p : Straight ℚ Rot) (a b : ℚ) : Straight ℚ Rot := ⟨(0, |b - a|), p.impl space a, p.impl space b, none⟩

theorem cut_eq (p : Straight ℚ Rot) (h : p.cons = none) (a b : ℚ) : p.extract space a b = .ok (cut p a b) := by
  simp only [Straight.extract, Straight.eval, constrained, h, cut]

/-- The calls of the planner: straight steering method, discretized validation of step 1/20 (discretized.cc:55-107); `reverse` is `extract` from the end
to the beginning (path.cc:228-233). -/
def env : PEnv Rot (Straight ℚ Rot) ℚ where
  dist a b := |diff a b|
  rev p := cut p p.pr.2 p.pr.1
  zeroLength p := decide (p.pr.2 = 0)
  ini p := p.impl space p.pr.1
  fin p := p.impl space p.pr.2
  t0 p := p.pr.1
  t1 p := p.pr.2
  len p := p.pr.2 - p.pr.1
  extract := cut
  steer a b := some ⟨(0, |diff a b|), a, b, none⟩
  projector := none
  validate rev p := match Validation.discretized (straightOps space) free (1 / 20) rev 100 p with
    | .error _ => (false, p)
    | .ok (v, vp, _) => (v, vp)
  onKernel _ q := some q

def out (o : Res (List (Straight ℚ Rot)) PlanErr) : Option (List (ℚ × ℚ × ℚ)) := match o with
  | .path l => some (l.map fun p => (p.q0.1, p.q1.1, p.pr.2))
  | _ => none

/-- The path of the counterexample: half a turn from 1/2 to 0. -/
def bad : Straight ℚ Rot := ⟨(0, 1 / 2), rot (1 / 2), rot 0, none⟩

/-- C128: from the angle -9/20 to the angle 0, when the angle 1/2 is shot, the diffusing planner ends its solution with the reverse of the validated path from 0 to 1/2.  That path goes on the
other side of the circle, through the obstacle; the path validation of the problem rejects it. -/
theorem C128_planner_counterexample :
    out (solve (diffusing env ⟨-1, -1⟩ (fun _ _ => 0) (rot (-9 / 20)) [rot 0] (fun _ => rot (1 / 2))) (Settings.default (K := ℚ)) (fun _ => false) (fun _ => false) 10
      (0, Roadmap.empty)) = some [(-9 / 20, 1 / 2, 1 / 20), (1 / 2, 0, 1 / 2)] ∧
    free (rot (-9 / 20)) = true ∧ free (rot 0) = true ∧
    (bad.impl space (1 / 4)).1 = -1 / 4 ∧ free (bad.impl space (1 / 4)) = false ∧ (env.validate false bad).1 = false ∧
    (env.validate false ⟨(0, 1 / 2), rot 0, rot (1 / 2), none⟩).1 = true := by
  refine ⟨by decide +kernel, by decide +kernel, by decide +kernel, by decide +kernel, by decide +kernel, by decide +kernel, by decide +kernel⟩

/-- a quarter of turn is reversed as expected -/
example : ((cut ⟨(0, 1 / 4), rot 0, rot (1 / 4), none⟩ (1 / 4) 0).impl space (1 / 8)).1 = 1 / 8 := by decide +kernel

end Verif.HalfTurn
