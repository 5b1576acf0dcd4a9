import Verif.Planner.Closed
import Verif.Planner.EndToEnd
import Mathlib.Analysis.Convex.Basic
import Mathlib.Data.Rat.Sqrt
set_option linter.unusedSectionVars false

/-!
# Joint bounds along planned paths (C130)

With straight paths in a vector space, planners combine configurations only by interpolation: when the initial configuration, the goals and the configurations
that are shot are in a convex set (joint bounds: a product of segments), every configuration of the path returned is in it.  Path validations that
do not check the bounds (all continuous ones) are thus enough, except for BiRRT*, whose sampling near the best path goes out of the bounds.
-/
namespace Verif.EndToEnd
open Verif.PathV Verif.CV Verif.Planner

variable {K ι : Type} [Field K] [LinearOrder K] [IsStrictOrderedRing K] [FloorSemiring K] [Fintype ι] {B : Bench K ι} {hB : B.Ok}

/-- The path stays in the set. -/
def Stays (S : Set (ι → K)) (p : SP B) : Prop := ∀ t, 0 ≤ t → t ≤ p.1.pr.2 → conf p.1 t ∈ S

theorem line_stays {S : Set (ι → K)} (hS : Convex K S) {a b : ι → K} (ha : a ∈ S) (hb : b ∈ S) : Stays S (line B hB a b) := by
  intro t t0 t1
  have hi : ∀ u : K, 0 ≤ u → u ≤ 1 → (vecSpace K ι).interp a b u ∈ S := by
    intro u u0 u1
    have : (vecSpace K ι).interp a b u = (1 - u) • a + u • b := by
      funext j
      simp only [vecSpace, Pi.add_apply, Pi.smul_apply, smul_eq_mul]
      ring
    rw [this]
    exact hS ha hb (sub_nonneg.2 u1) u0 (by ring)
  have t1' : t ≤ B.metric a b := t1
  unfold conf Straight.impl
  show (if t = 0 ∨ B.metric a b - 0 = 0 then a else if t = B.metric a b then b else (vecSpace K ι).interp a b ((t - 0) / (B.metric a b - 0))) ∈ S
  split
  · exact ha
  · next h1 =>
    split
    · exact hb
    · rw [sub_zero, sub_zero] at *
      have hp : 0 < B.metric a b := lt_of_le_of_ne (hB.nonneg a b) fun h => h1 (Or.inr h.symm)
      exact hi _ (div_nonneg t0 hp.le) ((div_le_one hp).2 t1')

theorem ext_stays {S : Set (ι → K)} {p : SP B} (h : Stays S p) {a b : K} (ha : 0 ≤ a ∧ a ≤ p.1.pr.2) (hb : 0 ≤ b ∧ b ≤ p.1.pr.2) : Stays S (ext hB p a b) := by
  intro t t0 t1
  obtain ⟨u, u1, u2, u3⟩ := ext_conf p a b ha hb t t0 t1
  rw [u3]
  exact h u ((le_min ha.1 hb.1).trans u1) (u2.trans (max_le ha.2 hb.2))

/-- The calls of the planners keep configurations and paths in a convex set. -/
theorem closed (B : Bench K ι) (hB : B.Ok) {S : Set (ι → K)} (hS : Convex K S) : Closed (env B hB) (· ∈ S) (· ∈ S) (Stays S) where
  steer a b p ha hb h := by
    obtain rfl := Option.some.inj h
    exact line_stays hS ha hb
  extract p t h := by
    show Stays S (if _ then ext hB p p.1.pr.1 t else p)
    have h0 : p.1.pr.1 = 0 := p.2.1.1
    split
    · next k =>
      change p.1.pr.1 ≤ p.1.pr.1 ∧ p.1.pr.1 ≤ p.1.pr.2 ∧ p.1.pr.1 ≤ t ∧ t ≤ p.1.pr.2 at k
      rw [h0] at k ⊢; exact ext_stays h ⟨k.1, k.2.1⟩ ⟨k.2.2.1, k.2.2.2⟩
    · exact h
  proj f p b p' h := by simp [env] at h
  valid b p h := by
    have h0 : p.1.pr.1 = 0 := p.2.1.1
    rcases validate_spec B hB b p with ⟨-, k, -⟩ | ⟨-, tl, k1, k2, k3⟩
    · rw [k]; exact h
    · cases b with
      | true =>
        simp only [if_true] at k3
        rw [k3.1]; exact ext_stays h ⟨k1, k2⟩ ⟨p.2.1.2.1, le_rfl⟩
      | false =>
        simp only [Bool.false_eq_true, if_false] at k3
        rw [k3.1, h0]; exact ext_stays h ⟨le_rfl, p.2.1.2.1⟩ ⟨k1, k2⟩
  rev p h := by
    have h0 : p.1.pr.1 = 0 := p.2.1.1
    show Stays S (ext hB p p.1.pr.2 p.1.pr.1)
    rw [h0]; exact ext_stays h ⟨p.2.1.2.1, le_rfl⟩ ⟨le_rfl, p.2.1.2.1⟩
  kernel x q q' _ hq h := by
    obtain rfl := Option.some.inj h
    exact hq
  ini p h := h _ (le_of_eq p.2.1.1.symm) (good p).1
  fin p h := h _ p.2.1.2.1 le_rfl

/-- From the list of paths to the path vector. -/
theorem vector_stays {S : Set (ι → K)} (l : List (SP B)) (h : l ≠ [] ∧ ∀ p ∈ l, Stays S p) (t : K) (t0 : 0 ≤ t) (t1 : t ≤ (pathVector l).tr.2) :
    ∃ q, evalV (straightOps (vecSpace K ι)) (pathVector l) t = .ok q ∧ q ∈ S := by
  have hpaths : (pathVector l).paths = l.map Subtype.val := by rw [pathVector_eq]
  have hT : (pathVector l).tr.2 = total (straightOps (vecSpace K ι)) (l.map Subtype.val) := by rw [pathVector_eq]
  obtain ⟨i, p, x, -, k2, k3, k4, -, -, k5⟩ := C19_eval (straightOps (vecSpace K ι)) (pathVector l) (by rw [hpaths]; exact fun e => h.1 (List.map_eq_nil_iff.1 e)) (by
    intro p hp
    rw [hpaths] at hp
    obtain ⟨x, -, rfl⟩ := List.mem_map.1 hp
    exact (good x).1) t t0 (by rw [hpaths]; rw [hT] at t1; exact t1)
  rw [hpaths] at k2
  obtain ⟨y, hy, rfl⟩ := List.mem_map.1 (List.mem_of_getElem? k2)
  have hc : (pathVector l).cons = none := by rw [pathVector_eq]
  rw [k5, hc, eval_conf y]
  have h0 : y.1.pr.1 = 0 := y.2.1.1
  exact ⟨_, rfl, h.2 y hy x (by rw [← h0]; exact k3) k4⟩

/-- C130, joint bounds, diffusing planner. -/
theorem C130_bounds_diffusing (B : Bench K ι) (hB : B.Ok) {S : Set (ι → K)} (hS : Convex K S) (D : DiffParams K) (heur : Roadmap.Roadmap (ι → K) (SP B) → Nat → K) (q0 : ι → K)
    (gs : List (ι → K)) (shoot : Nat → ι → K) (h0 : q0 ∈ S) (hg : ∀ g ∈ gs, g ∈ S) (hs : ∀ n, shoot n ∈ S)
    (st : Settings K) (late intr : Nat → Bool) (fuel n : Nat) (l : List (SP B))
    (hl : solve (diffusing (env B hB) D heur q0 gs shoot) st late intr fuel (n, Roadmap.empty) = .path l) :
    ∀ t, 0 ≤ t → t ≤ (pathVector l).tr.2 → ∃ q, evalV (straightOps (vecSpace K ι)) (pathVector l) t = .ok q ∧ q ∈ S :=
  vector_stays l ((C130_diffusing (closed B hB hS) D heur q0 gs shoot h0 hg hs (n, Roadmap.empty) Within.empty).2 st late intr fuel l hl)

/-- C130, joint bounds, Visibility-PRM. -/
theorem C130_bounds_visibility (B : Bench K ι) (hB : B.Ok) {S : Set (ι → K)} (hS : Convex K S) (heur : Roadmap.Roadmap (ι → K) (SP B) → Nat → K) (q0 : ι → K)
    (gs : List (ι → K)) (sample : Nat → ι → K) (h0 : q0 ∈ S) (hg : ∀ g ∈ gs, g ∈ S) (hs : ∀ n, sample n ∈ S)
    (st : Settings K) (late intr : Nat → Bool) (fuel : Nat) (x : Nat × (Nat → Bool)) (l : List (SP B))
    (hl : solve (visibility (env B hB) heur q0 gs sample) st late intr fuel (x, Roadmap.empty) = .path l) :
    ∀ t, 0 ≤ t → t ≤ (pathVector l).tr.2 → ∃ q, evalV (straightOps (vecSpace K ι)) (pathVector l) t = .ok q ∧ q ∈ S :=
  vector_stays l ((C130_visibility (closed B hB hS) heur q0 gs sample h0 hg hs (x, Roadmap.empty) Within.empty).2 st late intr fuel l hl)

/-- C130, joint bounds, Bi-RRT. -/
theorem C130_bounds_birrt (B : Bench K ι) (hB : B.Ok) {S : Set (ι → K)} (hS : Convex K S) (heur : Roadmap.Roadmap (ι → K) (SP B) → Nat → K) (q0 : ι → K)
    (gs : List (ι → K)) (shoot : Nat → ι → K) (h0 : q0 ∈ S) (hg : ∀ g ∈ gs, g ∈ S) (hs : ∀ n, shoot n ∈ S)
    (st : Settings K) (late intr : Nat → Bool) (fuel : Nat) (x : BState) (l : List (SP B))
    (hl : solve (birrt (env B hB) heur q0 gs shoot) st late intr fuel (x, Roadmap.empty) = .path l) :
    ∀ t, 0 ≤ t → t ≤ (pathVector l).tr.2 → ∃ q, evalV (straightOps (vecSpace K ι)) (pathVector l) t = .ok q ∧ q ∈ S :=
  vector_stays l ((C130_birrt (closed B hB hS) heur q0 gs shoot h0 hg hs (x, Roadmap.empty) Within.empty).2 st late intr fuel l hl)

/-- C130, joint bounds, kPRM*. -/
theorem C130_bounds_kprm {H : Type} (B : Bench K ι) (hB : B.Ok) {S : Set (ι → K)} (hS : Convex K S) (C : KEnv (ι → K) (SP B) K H) (hC : C.toPEnv = env B hB)
    (hk : ∀ q q', q ∈ S → C.check q = some q' → q' ∈ S) (heur : Roadmap.Roadmap (ι → K) (SP B) → Nat → K) (q0 : ι → K)
    (gs : List (ι → K)) (h0 : q0 ∈ S) (hg : ∀ g ∈ gs, g ∈ S) (hs : ∀ n, C.shoot n ∈ S)
    (st : Settings K) (late intr : Nat → Bool) (fuel : Nat) (x : KState) (l : List (SP B))
    (hl : solve (kprm C heur q0 gs) st late intr fuel (x, Roadmap.empty) = .path l) :
    ∀ t, 0 ≤ t → t ≤ (pathVector l).tr.2 → ∃ q, evalV (straightOps (vecSpace K ι)) (pathVector l) t = .ok q ∧ q ∈ S :=
  vector_stays l ((C130_kprm (J := (· ∈ S)) (I := (· ∈ S)) (IP := Stays S) (by rw [hC]; exact closed B hB hS) heur q0 gs h0 hg hs hk (x, Roadmap.empty) Within.empty).2 st late intr fuel l hl)

/-- C130, joint bounds, BiRRT*, when the sampling near the best path stays in the set (it does not in general: `C130_birrtstar_counterexample`). -/
theorem C130_bounds_birrtstar_partial (B : Bench K ι) (hB : B.Ok) {S : Set (ι → K)} (hS : Convex K S) (C : Star.SEnv (ι → K) (SP B) K) (hC : C.toPEnv = env B hB)
    (ha : ∀ x q, x ∈ S → q ∈ S → C.adjust x q ∈ S) (hb : ∀ n x y z, x ∈ S → y ∈ S → z ∈ S → C.between n x y z ∈ S)
    (heur : Roadmap.Roadmap (ι → K) (SP B) → Nat → K) (pop : List (Star.WNode (SP B) K) → Option (Star.WNode (SP B) K × List (Star.WNode (SP B) K))) (fc fp : Nat) (q0 : ι → K)
    (gs : List (ι → K)) (draws : Nat → Star.Draw (ι → K)) (h0 : q0 ∈ S) (hg : ∀ g ∈ gs, g ∈ S) (hs : ∀ n, (draws n).shot ∈ S)
    (st : Settings K) (late intr : Nat → Bool) (fuel : Nat) (x : Star.Trees (SP B) × Nat) (l : List (SP B))
    (hl : solve (Star.birrtstar C heur pop fc fp q0 gs draws) st late intr fuel (x, Roadmap.empty) = .path l) :
    ∀ t, 0 ≤ t → t ≤ (pathVector l).tr.2 → ∃ q, evalV (straightOps (vecSpace K ι)) (pathVector l) t = .ok q ∧ q ∈ S := by
  have hcl : Closed C.toPEnv (· ∈ S) (· ∈ S) (Stays S) := by rw [hC]; exact closed B hB hS
  exact vector_stays l ((Star.C130_birrtstar (J := (· ∈ S)) (I := (· ∈ S)) (IP := Stays S) ⟨hcl, fun _ h => h, ha, hb, hcl.steer⟩ heur pop fc fp q0 gs draws h0 hg hs (x, Roadmap.empty) Within.empty).2 st late intr fuel l hl)

/-- Joint bounds are a convex set. -/
theorem box_convex (lo up : ι → K) : Convex K (Set.Icc lo up) := convex_Icc lo up

namespace Plane

/-- Bounds: `[0, 10] × [0, 10]`. -/
def box : Set (Fin 2 → ℚ) := Set.Icc ![0, 0] ![10, 10]

/-- the hypotheses of C130 hold for the example of C126 -/
example : start ∈ box ∧ goal ∈ box ∧ (∀ n, shoot n ∈ box) ∧ Convex ℚ box := by
  have h : ∀ a b : ℚ, 0 ≤ a → a ≤ 10 → 0 ≤ b → b ≤ 10 → ![a, b] ∈ box := by
    intro a b h1 h2 h3 h4
    refine ⟨fun j => ?_, fun j => ?_⟩ <;> fin_cases j <;> simpa
  refine ⟨h _ _ ?_ ?_ ?_ ?_, h _ _ ?_ ?_ ?_ ?_, fun n => ?_, box_convex _ _⟩ <;> try norm_num
  unfold shoot
  split <;> apply h <;> norm_num

/-- `sample` near the best path, 252-267, with a draw such that the length is 13/14 of the maximal one; the norm is the Euclidean one when it is rational. -/
def between (maxLen : ℚ) (_ : Nat) (x y z : Fin 2 → ℚ) : Fin 2 → ℚ :=
  let m : Fin 2 → ℚ := fun j => x j + 1 / 2 * (z j - x j)
  let v : Fin 2 → ℚ := fun j => m j - y j
  let n := Rat.sqrt (v 0 * v 0 + v 1 * v 1)
  fun j => y j + (maxLen - maxLen / 14) * (v j / n)

def starEnv : Star.SEnv (Fin 2 → ℚ) (SP (bench .progressive)) ℚ where
  toPEnv := env (bench .progressive) (ok .progressive)
  adjust _ q := q
  radius _ := 100
  maxLen := 7
  minLen := 1 / 100
  eps := 1 / 10000
  between := between 7

def noTrees : Star.Trees (SP (bench .progressive)) := ⟨0, 0, fun _ => none, fun _ => none⟩

/-- Two draws of the shooter, then one near the best path. -/
def draws : Nat → Star.Draw (Fin 2 → ℚ) := fun k => ⟨![5, 4], decide (2 ≤ k), 0, 0⟩

/-- C130: the initial configuration, the goal and the configurations that are shot are within the bounds, the first path found (after two steps) also, but the path returned after
one more step, which draws near the best path, goes out of the bounds: its middle node is `(5, -5/2)`. -/
theorem C130_birrtstar_counterexample : ![2, 0] ∈ box ∧ ![8, 0] ∈ box ∧ (∀ n, (draws n).shot ∈ box) ∧
    out (solve (Star.birrtstar starEnv (fun _ _ => 0) Star.popMax 5 100 ![2, 0] [![8, 0]] draws) (⟨2, none, false⟩ : Settings ℚ)
      (fun _ => false) (fun _ => false) 20 ((noTrees, 0), Roadmap.empty)) = some [([2, 0], [5, 4]), ([5, 4], [8, 0])] ∧
    out (solve (Star.birrtstar starEnv (fun _ _ => 0) Star.popMax 5 100 ![2, 0] [![8, 0]] draws) (⟨3, none, false⟩ : Settings ℚ)
      (fun _ => false) (fun _ => false) 20 ((noTrees, 0), Roadmap.empty)) = some [([2, 0], [5, -5 / 2]), ([5, -5 / 2], [8, 0])] ∧
    ![5, -5 / 2] ∉ box := by
  have h : ∀ a b : ℚ, 0 ≤ a → a ≤ 10 → 0 ≤ b → b ≤ 10 → ![a, b] ∈ box := by
    intro a b h1 h2 h3 h4
    refine ⟨fun j => ?_, fun j => ?_⟩ <;> fin_cases j <;> simpa
  refine ⟨?_, ?_, fun n => ?_, by decide +kernel, by decide +kernel, fun k => ?_⟩
  · apply h <;> norm_num
  · apply h <;> norm_num
  · show ![5, 4] ∈ box
    apply h <;> norm_num
  · have := k.1 1
    norm_num at this

end Plane
end Verif.EndToEnd
