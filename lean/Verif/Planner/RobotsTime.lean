import Verif.Planner.Robots
import Verif.Planner.Trajectory

/-!
# Trajectories of robots with joints of any kind (C140)

The robots of `Robots` satisfy what `Trajectory` assumes of the degrees of freedom.
-/
namespace Verif.Turns
open Verif.PathV Verif.CV Verif.Planner Verif.Joints Verif.TimeParam
open Verif.EndToEnd (Mode)

variable {ι : Type} [Fintype ι] {J : ι → Joint} {N : (i : ι) → Normed (J i)}

/-- Component of the displacement of a joint in a basis of its tangent space: `pinocchio::difference`, straight-path.cc:112-140. -/
def component {n : Nat} (jt : Fin n → ι) (φ : (d : Fin n) → (J (jt d)).V →ₗ[ℝ] ℝ) (a b : Config J) (d : Fin n) : ℝ := φ d ((J (jt d)).log ((a (jt d))⁻¹ * b (jt d)))

/-- C140: the components of displacements of robots with joints of any kind satisfy what is assumed by `C140_trajectory`. -/
theorem dofOk (metric : Config J → Config J → ℝ) (pairs : List (BodyPair ℝ (Config J) ι)) (mode : Mode) (step : ℝ) (bounds : Option (Config J → Bool)) (vmax : ι → ℝ)
    {n : Nat} (jt : Fin n → ι) (φ : (d : Fin n) → (J (jt d)).V →ₗ[ℝ] ℝ) : DofOk (world J N metric pairs mode step bounds vmax) (component jt φ) := by
  intro a b u v d h0 h1 h2
  show φ d ((J (jt d)).log (((robot J).interp a b u (jt d))⁻¹ * (robot J).interp a b v (jt d))) = _
  rw [log_interp N a b h0 h1 h2, map_smul, smul_eq_mul]
  rfl

namespace Arms

/-- The five degrees of freedom of the robot. -/
def jointOf : Fin 5 → Fin 3 := ![0, 1, 2, 2, 2]

noncomputable def coord : (d : Fin 5) → (mixed (jointOf d)).V →ₗ[ℝ] ℝ
  | 0 => (LinearMap.id : ℝ →ₗ[ℝ] ℝ)
  | 1 => (LinearMap.id : ℝ →ₗ[ℝ] ℝ)
  | 2 => (LinearMap.proj 0 : (Fin 3 → ℝ) →ₗ[ℝ] ℝ)
  | 3 => (LinearMap.proj 1 : (Fin 3 → ℝ) →ₗ[ℝ] ℝ)
  | 4 => (LinearMap.proj 2 : (Fin 3 → ℝ) →ₗ[ℝ] ℝ)

/-- Order 2, half of the velocity limit of the translation, limits on the wrists too. -/
noncomputable def cfg : Cfg 5 := ⟨2, 1, 1 / 2, 1 / 1000, ![some 1, some 2, some 3, none, some 3]⟩

theorem comp_base (q : Q) : component (J := mixed) jointOf coord origin q 0 = base q := by
  show (Multiplicative.toAdd ((1 : Multiplicative ℝ)⁻¹ * (show Multiplicative ℝ from q 0)) : ℝ) = _
  rw [inv_one, one_mul]
  rfl

/-- `C140_defined` and `C140_trajectory` apply to this robot: for any goal strictly in front of the wall, a straight path becomes a trajectory. -/
example (m : Mode) (q : Q) (h0 : 0 < base q) (h1 : base q ≤ 20) :
    ∃ w, timeParam (problem m) (component (J := mixed) jointOf coord) cfg (pathVector [line (problem m) (ok m) origin q]) = .ok (some w) ∧
      Safe (problem m) (evalV (timedOps (problem m)) w) w.tr.2 origin q ∧
      Executable (component (J := mixed) jointOf coord) cfg (evalV (timedOps (problem m)) w) w.tr.2 := by
  have hs := ahead m q h0.le h1
  have hne : origin ≠ q := by rintro rfl; exact h0.ne base_origin.symm
  obtain ⟨r, hr⟩ := C140_defined (problem m) (ok m) (component (J := mixed) jointOf coord) cfg hs (by simp [cfg]) (by simp [cfg]) (by simp [cfg]) (by
    intro i x hx
    fin_cases i <;> simp [cfg] at hx <;> subst hx <;> norm_num [cfg]) (by
    intro p hp _
    rw [pathVector_eq] at hp
    simp only [List.map_cons, List.map_nil, List.mem_singleton] at hp
    subst hp
    refine ⟨0, 1, rfl, ?_⟩
    show component (J := mixed) jointOf coord origin q 0 ≠ 0
    rw [comp_base]
    exact h0.ne')
  cases r with
  | none =>
    exfalso
    have h := C140_still _ _ _ _ hr
    obtain ⟨-, p2, -⟩ := safeVec_parts (ok m) hs
    rw [p2] at h
    have k := safeVec_safe (ok m) hs
    have k1 := k.ini
    have k2 := k.fin
    rw [h, k1] at k2
    exact hne (Except.ok.inj k2)
  | some w =>
    obtain ⟨k1, -, k2⟩ := C140_trajectory (problem m) (ok m) (dofOk _ _ _ _ _ _ jointOf coord) cfg hs hr
    exact ⟨w, hr, k1, k2⟩

end Arms

end Verif.Turns
