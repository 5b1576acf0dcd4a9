import Verif.Path.Spline
import Mathlib.Analysis.InnerProductSpace.PiL2
set_option linter.unusedSectionVars false

/-!
# Hermite paths (C108)

`path::Hermite` (include/hpp/core/path/hermite.hh, src/path/hermite.cc): a cubic Bernstein spline on [0, 1] with the velocities at its ends as parameters.
Configurations are of any type `Q`; the difference and the integration in the configuration space are external (`Space`), tangent vectors are functions of
the rank of the degree of freedom, of which the first `m` matter.
-/
namespace Verif.Path.Hermite
open Verif.Spline

/-- External operations: `difference (end, init)`, integration, number of degrees of freedom. -/
structure Space (Q : Type) where
  m : ℕ
  diff : Q → Q → ℕ → ℝ
  integrate : Q → (ℕ → ℝ) → Q

/-- Assumptions on the configuration space. -/
structure Contract {Q : Type} (E : Space Q) : Prop where
  /-- the configuration obtained by following the difference -/
  integrate_diff : ∀ a b, E.integrate a (E.diff b a) = b
  integrate_zero : ∀ a v, (∀ d < E.m, v d = 0) → E.integrate a v = a
  /-- only the first `m` values matter -/
  congr : ∀ a v w, (∀ d < E.m, v d = w d) → E.integrate a v = E.integrate a w

/-- A Hermite path: hermite.hh:155-157 and the fields of `Spline`.  `proj`: `projectVectorOnKernel` of the config projector, if any. -/
structure Herm (Q : Type) where
  base : Q
  P : ℕ → ℕ → ℝ
  ini : Q
  fin : Q
  hlen : ℝ
  proj : Option (Q → (ℕ → ℝ) → ℕ → ℝ)

variable {Q : Type}

/-- Writing one row of `parameters_`. -/
def setRow (P : ℕ → ℕ → ℝ) (i : ℕ) (v : ℕ → ℝ) : ℕ → ℕ → ℝ := fun j => if j = i then v else P j

/-- `v0 (speed)`: hermite.hh:95-98. -/
noncomputable def Herm.setV0 (h : Herm Q) (v : ℕ → ℝ) : Herm Q := { h with P := setRow h.P 1 (fun d => h.P 0 d + v d / 3), hlen := -1 }
/-- `v1 (speed)`: hermite.hh:100-103. -/
noncomputable def Herm.setV1 (h : Herm Q) (v : ℕ → ℝ) : Herm Q := { h with P := setRow h.P 2 (fun d => h.P 3 d - v d / 3), hlen := -1 }
/-- `v0 ()`, `v1 ()`: hermite.hh:105-113. -/
def Herm.v0 (h : Herm Q) (d : ℕ) : ℝ := 3 * (h.P 1 d - h.P 0 d)
def Herm.v1 (h : Herm Q) (d : ℕ) : ℝ := 3 * (h.P 3 d - h.P 2 d)

/-- `projectVelocities`: hermite.cc:75-93. -/
noncomputable def Herm.projectVelocities (h : Herm Q) (qi qe : Q) : Herm Q := match h.proj with
  | some f => (h.setV0 (f qi (h.P 3))).setV1 (f qe ((h.setV0 (f qi (h.P 3))).P 3))
  | none => (h.setV0 (h.P 3)).setV1 ((h.setV0 (h.P 3)).P 3)

/-- Constructor: hermite.cc:40-55.  `junk`: the rows of `parameters_` that are not yet assigned. -/
noncomputable def create (E : Space Q) (junk : ℕ → ℕ → ℝ) (init fin : Q) (proj : Option (Q → (ℕ → ℝ) → ℕ → ℝ)) : Herm Q :=
  Herm.projectVelocities ⟨init, setRow (setRow junk 0 (fun _ => 0)) 3 (E.diff fin init), init, fin, -1, proj⟩ init fin

/-- Copy: hermite.cc:57-58. -/
def Herm.copy (h : Herm Q) : Herm Q := { h with hlen := -1 }
/-- Copy with constraints: hermite.cc:60-66. -/
noncomputable def Herm.copyWith (h : Herm Q) (proj : Option (Q → (ℕ → ℝ) → ℕ → ℝ)) : Herm Q := ({ h with hlen := -1, proj := proj } : Herm Q).projectVelocities h.ini h.fin

/-- Norm of the vector of the `m` first values. -/
noncomputable def nrm (m : ℕ) (v : ℕ → ℝ) : ℝ := Real.sqrt (∑ d ∈ Finset.range m, v d ^ 2)

/-- `computeHermiteLength`: hermite.cc:95-100. -/
noncomputable def Herm.computeLength (m : ℕ) (h : Herm Q) : Herm Q :=
  { h with hlen := nrm m (fun d => h.P 1 d - h.P 0 d) + nrm m (fun d => h.P 2 d - h.P 1 d) + nrm m (fun d => h.P 3 d - h.P 2 d) }

/-- The spline: interval [0, 1], degree 3 (hermite.cc:42). -/
def Herm.spl (h : Herm Q) : Spl Q := ⟨3, h.base, h.P, 0, 1⟩

/-- Evaluation, derivative before the multiplication by the Jacobian of the integration (C54). -/
noncomputable def Herm.eval (E : Space Q) (h : Herm Q) (t : ℝ) : Q := h.spl.compute E.integrate t
noncomputable def Herm.derivative (h : Herm Q) (t : ℝ) (d : ℕ) : Option ℝ := h.spl.derivative t 1 d

/-- `velocity (t)`: hermite.cc:102-113, in a vector space; `eval` with constraints gives `q` or fails (`none`): exception. -/
noncomputable def Herm.velocity (h : Herm Q) (evalC : ℝ → Option Q) (t : ℝ) : Option (ℕ → ℝ) :=
  let v : ℕ → ℝ := fun d => (h.derivative t d).getD 0
  match h.proj with
  | none => some v
  | some f => match evalC t with
    | none => none
    | some q => some (f q v)

/-- Calls on a Hermite path. -/
inductive Op (Q : Type) where
  | v0 (v : ℕ → ℝ)
  | v1 (v : ℕ → ℝ)
  | computeLength
  | copy
  | copyWith (proj : Option (Q → (ℕ → ℝ) → ℕ → ℝ))
  /-- `Spline::parameters (m)`: spline.hh:229 -/
  | parameters (P : ℕ → ℕ → ℝ)

noncomputable def step (m : ℕ) (h : Herm Q) : Op Q → Herm Q
  | .v0 v => h.setV0 v
  | .v1 v => h.setV1 v
  | .computeLength => h.computeLength m
  | .copy => h.copy
  | .copyWith f => h.copyWith f
  | .parameters P => { h with P := P }

noncomputable def run (m : ℕ) (h : Herm Q) (os : List (Op Q)) : Herm Q := os.foldl (step m) h

/-- The calls of `Hermite` itself. -/
def Op.own : Op Q → Prop
  | .parameters _ => False
  | _ => True

/-! ## The curve -/

theorem basis3 (u : ℝ) : basis 3 0 u 0 = (1 - u) ^ 3 ∧ basis 3 0 u 1 = 3 * u * (1 - u) ^ 2 ∧ basis 3 0 u 2 = 3 * u ^ 2 * (1 - u) ∧ basis 3 0 u 3 = u ^ 3 := by
  refine ⟨?_, ?_, ?_, ?_⟩
  · rw [basis_zero 3 0 (by omega)]; simp [bernsteinPolynomial]
  · rw [basis_zero 3 1 (by omega)]; simp [bernsteinPolynomial]
  · rw [basis_zero 3 2 (by omega)]; simp [bernsteinPolynomial, Nat.choose]
  · rw [basis_zero 3 3 (by omega)]; simp [bernsteinPolynomial]

/-- The position of the curve in the tangent space. -/
theorem velocity_eq' (h : Herm Q) (u : ℝ) (d : ℕ) : h.spl.velocity u d =
    h.P 0 d * (1 - u) ^ 3 + h.P 1 d * (3 * u * (1 - u) ^ 2) + h.P 2 d * (3 * u ^ 2 * (1 - u)) + h.P 3 d * u ^ 3 := by
  obtain ⟨b0, b1, b2, b3⟩ := basis3 u
  simp only [Spl.velocity, Herm.spl, Finset.sum_range_succ, Finset.sum_range_zero, b0, b1, b2, b3]
  ring

theorem param_of (h : Herm Q) {t : ℝ} (h0 : 0 ≤ t) (h1 : t ≤ 1) : h.spl.param t = t := by
  rw [param_eq h.spl (by simp [Herm.spl]) t ⟨h0, h1⟩]
  simp [Herm.spl]

theorem derivative_eq (h : Herm Q) (t : ℝ) (d : ℕ) : h.derivative t d =
    some (3 * ((1 - t) ^ 2 * (h.P 1 d - h.P 0 d) + 2 * t * (1 - t) * (h.P 2 d - h.P 1 d) + t ^ 2 * (h.P 3 d - h.P 2 d))) := by
  unfold Herm.derivative
  have hs : h.spl.s0 < h.spl.s1 := by simp [Herm.spl]
  simp only [Spl.derivative, Herm.spl]
  norm_num
  have e : ∀ i, i ≤ 3 → basis 3 1 t i = (Polynomial.derivative (bernsteinPolynomial ℝ 3 i)).eval t := fun i hi => C54_basis 3 1 t i hi
  have e0 : basis 3 1 t 0 = -3 * (1 - t) ^ 2 := by
    rw [e 0 (by omega)]; simp [bernsteinPolynomial, Polynomial.derivative_pow]
  have e1 : basis 3 1 t 1 = 3 * (1 - t) ^ 2 - 6 * t * (1 - t) := by
    rw [e 1 (by omega)]; simp [bernsteinPolynomial, Polynomial.derivative_pow]; ring
  have e2 : basis 3 1 t 2 = 6 * t * (1 - t) - 3 * t ^ 2 := by
    rw [e 2 (by omega)]; simp [bernsteinPolynomial, Polynomial.derivative_pow, Nat.choose]; ring
  have e3 : basis 3 1 t 3 = 3 * t ^ 2 := by
    rw [e 3 (by omega)]; simp [bernsteinPolynomial, Polynomial.derivative_pow]
  simp only [Finset.sum_range_succ, Finset.sum_range_zero, e0, e1, e2, e3]
  ring

/-! ## Invariants of the calls -/

/-- What all calls keep. -/
structure Kept (E : Space Q) (init fin : Q) (h : Herm Q) : Prop where
  base : h.base = init
  ini : h.ini = init
  fin' : h.fin = fin
  row0 : ∀ d, h.P 0 d = 0
  row3 : h.P 3 = E.diff fin init

theorem setV0_P (h : Herm Q) (v : ℕ → ℝ) : (h.setV0 v).P 0 = h.P 0 ∧ (h.setV0 v).P 2 = h.P 2 ∧ (h.setV0 v).P 3 = h.P 3 ∧
    (h.setV0 v).P 1 = fun d => h.P 0 d + v d / 3 := by
  simp [Herm.setV0, setRow]
theorem setV1_P (h : Herm Q) (v : ℕ → ℝ) : (h.setV1 v).P 0 = h.P 0 ∧ (h.setV1 v).P 1 = h.P 1 ∧ (h.setV1 v).P 3 = h.P 3 ∧
    (h.setV1 v).P 2 = fun d => h.P 3 d - v d / 3 := by
  simp [Herm.setV1, setRow]

theorem Kept.setV0 {E : Space Q} {init fin : Q} {h : Herm Q} (k : Kept E init fin h) (v : ℕ → ℝ) : Kept E init fin (h.setV0 v) := by
  obtain ⟨a, _, c, _⟩ := setV0_P h v
  exact ⟨k.base, k.ini, k.fin', by rw [a]; exact k.row0, by rw [c]; exact k.row3⟩
theorem Kept.setV1 {E : Space Q} {init fin : Q} {h : Herm Q} (k : Kept E init fin h) (v : ℕ → ℝ) : Kept E init fin (h.setV1 v) := by
  obtain ⟨a, _, c, _⟩ := setV1_P h v
  exact ⟨k.base, k.ini, k.fin', by rw [a]; exact k.row0, by rw [c]; exact k.row3⟩
theorem Kept.projectVelocities {E : Space Q} {init fin : Q} {h : Herm Q} (k : Kept E init fin h) (a b : Q) : Kept E init fin (h.projectVelocities a b) := by
  unfold Herm.projectVelocities
  cases h.proj with
  | none => exact (k.setV0 _).setV1 _
  | some f => exact (k.setV0 _).setV1 _

theorem create_kept (E : Space Q) (junk : ℕ → ℕ → ℝ) (init fin : Q) (proj : Option (Q → (ℕ → ℝ) → ℕ → ℝ)) : Kept E init fin (create E junk init fin proj) :=
  Kept.projectVelocities (h := ⟨init, setRow (setRow junk 0 (fun _ => 0)) 3 (E.diff fin init), init, fin, -1, proj⟩) ⟨rfl, rfl, rfl, by simp [setRow], by simp [setRow]⟩ _ _

theorem step_kept {E : Space Q} {init fin : Q} {h : Herm Q} (k : Kept E init fin h) (o : Op Q) (ho : o.own) : Kept E init fin (step E.m h o) := by
  cases o with
  | v0 v => exact k.setV0 v
  | v1 v => exact k.setV1 v
  | computeLength => exact ⟨k.base, k.ini, k.fin', k.row0, k.row3⟩
  | copy => exact ⟨k.base, k.ini, k.fin', k.row0, k.row3⟩
  | copyWith f => exact Kept.projectVelocities (h := { h with hlen := -1, proj := f }) ⟨k.base, k.ini, k.fin', k.row0, k.row3⟩ _ _
  | parameters P => exact ho.elim

theorem run_kept {E : Space Q} {init fin : Q} {h : Herm Q} (k : Kept E init fin h) (os : List (Op Q)) (ho : ∀ o ∈ os, o.own) :
    Kept E init fin (run E.m h os) := by
  induction os generalizing h with
  | nil => exact k
  | cons o os ih => exact ih (step_kept k o (ho o (by simp))) (fun o' ho' => ho o' (by simp [ho']))

theorem Kept.eval0 {E : Space Q} (hE : Contract E) {init fin : Q} {h : Herm Q} (k : Kept E init fin h) : h.eval E 0 = init := by
  unfold Herm.eval Spl.compute
  rw [param_of h (le_refl 0) zero_le_one]
  have : h.spl.base = init := k.base
  rw [this]
  refine hE.integrate_zero _ _ ?_
  intro d _
  rw [velocity_eq', k.row0]; ring

theorem Kept.eval1 {E : Space Q} (hE : Contract E) {init fin : Q} {h : Herm Q} (k : Kept E init fin h) : h.eval E 1 = fin := by
  unfold Herm.eval Spl.compute
  rw [param_of h zero_le_one (le_refl 1)]
  have : h.spl.base = init := k.base
  rw [this, ← hE.integrate_diff init fin]
  refine hE.congr _ _ _ ?_
  intro d _
  rw [velocity_eq', k.row3]; ring

/-- C108: after any sequence of calls of `v0`, `v1`, `computeHermiteLength` and copies, the path goes from the configuration given first to the one given
second, which are also those returned by `initial` and `end`. -/
theorem C108_ends {E : Space Q} (hE : Contract E) (junk : ℕ → ℕ → ℝ) (init fin : Q) (proj : Option (Q → (ℕ → ℝ) → ℕ → ℝ)) (os : List (Op Q))
    (ho : ∀ o ∈ os, o.own) : let h := run E.m (create E junk init fin proj) os
    h.eval E 0 = init ∧ h.eval E 1 = fin ∧ h.ini = init ∧ h.fin = fin := by
  have k := run_kept (create_kept E junk init fin proj) os ho
  exact ⟨k.eval0 hE, k.eval1 hE, k.ini, k.fin'⟩

/-- C108: `v0 ()` and `v1 ()` are the derivatives at the beginning and at the end (in the tangent space), whatever the path. -/
theorem C108_derivatives (h : Herm Q) (d : ℕ) : h.derivative 0 d = some (h.v0 d) ∧ h.derivative 1 d = some (h.v1 d) := by
  rw [derivative_eq h 0, derivative_eq h 1]
  simp [Herm.v0, Herm.v1]

/-- C108: setting a velocity sets this one, leaves the other one and the control points at the ends, and forgets the length. -/
theorem C108_set (h : Herm Q) (v : ℕ → ℝ) :
    (h.setV0 v).v0 = v ∧ (h.setV0 v).v1 = h.v1 ∧ (h.setV0 v).P 0 = h.P 0 ∧ (h.setV0 v).P 3 = h.P 3 ∧ (h.setV0 v).hlen = -1 ∧
    (h.setV1 v).v1 = v ∧ (h.setV1 v).v0 = h.v0 ∧ (h.setV1 v).P 0 = h.P 0 ∧ (h.setV1 v).P 3 = h.P 3 ∧ (h.setV1 v).hlen = -1 := by
  obtain ⟨a0, a2, a3, a1⟩ := setV0_P h v
  obtain ⟨b0, b1, b3, b2⟩ := setV1_P h v
  refine ⟨?_, ?_, a0, a3, rfl, ?_, ?_, b0, b3, rfl⟩
  · funext d; simp only [Herm.v0, a0, a1]; ring
  · funext d; simp only [Herm.v1, a2, a3]
  · funext d; simp only [Herm.v1, b2, b3]; ring
  · funext d; simp only [Herm.v0, b0, b1]

theorem projectVelocities_v (h : Herm Q) (a b : Q) : (h.projectVelocities a b).v0 = (match h.proj with | some f => f a (h.P 3) | none => h.P 3) ∧
    (h.projectVelocities a b).v1 = (match h.proj with | some f => f b (h.P 3) | none => h.P 3) := by
  unfold Herm.projectVelocities
  cases h.proj with
  | none =>
    obtain ⟨c1, _, _, _, _, d1, d2, _⟩ := C108_set (h.setV0 (h.P 3)) ((h.setV0 (h.P 3)).P 3)
    obtain ⟨e1, _⟩ := C108_set h (h.P 3)
    obtain ⟨_, _, f3, _⟩ := setV0_P h (h.P 3)
    exact ⟨by rw [d2, e1], by simp only; rw [d1, f3]⟩
  | some f =>
    obtain ⟨c1, _, _, _, _, d1, d2, _⟩ := C108_set (h.setV0 (f a (h.P 3))) (f b ((h.setV0 (f a (h.P 3))).P 3))
    obtain ⟨e1, _⟩ := C108_set h (f a (h.P 3))
    obtain ⟨_, _, f3, _⟩ := setV0_P h (f a (h.P 3))
    exact ⟨by rw [d2, e1], by simp only; rw [d1, f3]⟩

/-- C108: a new path starts and ends with the difference of the ends as velocity, projected on the kernel of the constraints at each end if there are
constraints; when the projection gives vectors of the kernel (`Ker q v`), the path is tangent to the constraints at its ends. -/
theorem C108_create (E : Space Q) (junk : ℕ → ℕ → ℝ) (init fin : Q) (proj : Option (Q → (ℕ → ℝ) → ℕ → ℝ)) :
    let h := create E junk init fin proj
    h.v0 = (match proj with | some f => f init (E.diff fin init) | none => E.diff fin init) ∧
    h.v1 = (match proj with | some f => f fin (E.diff fin init) | none => E.diff fin init) ∧ h.hlen = -1 ∧
    ∀ (Ker : Q → (ℕ → ℝ) → Prop) (f), proj = some f → (∀ q v, Ker q (f q v)) →
      Ker init (fun d => (h.derivative 0 d).getD 0) ∧ Ker fin (fun d => (h.derivative 1 d).getD 0) := by
  intro h
  obtain ⟨h1, h2⟩ := projectVelocities_v (⟨init, setRow (setRow junk 0 (fun _ => 0)) 3 (E.diff fin init), init, fin, -1, proj⟩ : Herm Q) init fin
  have e3 : setRow (setRow junk 0 (fun _ => 0)) 3 (E.diff fin init) 3 = E.diff fin init := by simp [setRow]
  simp only [e3] at h1 h2
  refine ⟨h1, h2, ?_, ?_⟩
  · show (Herm.projectVelocities _ _ _).hlen = -1
    unfold Herm.projectVelocities
    cases proj <;> rfl
  · intro Ker f hf hk
    subst hf
    have d0 : (fun d => (h.derivative 0 d).getD 0) = h.v0 := by funext d; rw [(C108_derivatives h d).1]; rfl
    have d1 : (fun d => (h.derivative 1 d).getD 0) = h.v1 := by funext d; rw [(C108_derivatives h d).2]; rfl
    rw [d0, d1]
    have h1' : h.v0 = f init (E.diff fin init) := h1
    have h2' : h.v1 = f fin (E.diff fin init) := h2
    rw [h1', h2']
    exact ⟨hk _ _, hk _ _⟩

/-- C108: `velocity (t)` is in the kernel of the constraints at the configuration of the path, or an exception is thrown, exactly when this configuration
cannot be computed. -/
theorem C108_velocity (h : Herm Q) (evalC : ℝ → Option Q) (t : ℝ) (f : Q → (ℕ → ℝ) → ℕ → ℝ) (hf : h.proj = some f) (Ker : Q → (ℕ → ℝ) → Prop)
    (hk : ∀ q v, Ker q (f q v)) : (h.velocity evalC t = none ↔ evalC t = none) ∧
    ∀ q v, evalC t = some q → h.velocity evalC t = some v → Ker q v := by
  constructor
  · simp only [Herm.velocity, hf]
    cases evalC t <;> simp
  · intro q v hq hv
    simp only [Herm.velocity, hf, hq, Option.some.injEq] at hv
    rw [← hv]
    exact hk _ _

/-- C108: without constraints, a new path follows the difference at constant speed. -/
theorem C108_straight (E : Space Q) (junk : ℕ → ℕ → ℝ) (init fin : Q) (t : ℝ) (d : ℕ) :
    (create E junk init fin none).spl.velocity t d = t * E.diff fin init d := by
  have k := create_kept E junk init fin none
  obtain ⟨h1, h2, -⟩ := C108_create E junk init fin none
  have e1 : (create E junk init fin none).P 1 d = E.diff fin init d / 3 := by
    have := congrFun h1 d
    simp only [Herm.v0, k.row0] at this
    linarith
  have e2 : (create E junk init fin none).P 2 d = 2 * E.diff fin init d / 3 := by
    have := congrFun h2 d
    simp only [Herm.v1, k.row3] at this
    linarith
  rw [velocity_eq', k.row0, e1, e2, k.row3]
  ring

/-! ## Length -/

theorem nrm_eq (m : ℕ) (v : ℕ → ℝ) : nrm m v = ‖(WithLp.toLp 2 (fun d : Fin m => v d) : EuclideanSpace ℝ (Fin m))‖ := by
  rw [EuclideanSpace.norm_eq, nrm, Finset.sum_range]
  simp

theorem nrm_nonneg (m : ℕ) (v : ℕ → ℝ) : 0 ≤ nrm m v := Real.sqrt_nonneg _

theorem nrm_add_le (m : ℕ) (v w : ℕ → ℝ) : nrm m (fun d => v d + w d) ≤ nrm m v + nrm m w := by
  simp only [nrm_eq]
  exact norm_add_le (WithLp.toLp 2 (fun d : Fin m => v d) : EuclideanSpace ℝ (Fin m)) (WithLp.toLp 2 (fun d : Fin m => w d))

theorem nrm_smul (m : ℕ) (c : ℝ) (v : ℕ → ℝ) (hc : 0 ≤ c) : nrm m (fun d => c * v d) = c * nrm m v := by
  simp only [nrm_eq]
  have := norm_smul c (WithLp.toLp 2 (fun d : Fin m => v d) : EuclideanSpace ℝ (Fin m))
  rw [Real.norm_of_nonneg hc] at this
  rw [← this]
  rfl

/-- Specification: length of the polygon of the control points. -/
noncomputable def polygon (m : ℕ) (h : Herm Q) : ℝ :=
  nrm m (fun d => h.P 1 d - h.P 0 d) + nrm m (fun d => h.P 2 d - h.P 1 d) + nrm m (fun d => h.P 3 d - h.P 2 d)

/-- C108: after any sequence of calls (`parameters` excepted), `hermiteLength ()` is -1 or the length of the polygon of the present control points; it
is the latter just after `computeHermiteLength ()`. -/
theorem C108_length_partial (E : Space Q) (junk : ℕ → ℕ → ℝ) (init fin : Q) (proj : Option (Q → (ℕ → ℝ) → ℕ → ℝ)) (os : List (Op Q)) (ho : ∀ o ∈ os, o.own) :
    let h := run E.m (create E junk init fin proj) os
    (h.hlen = -1 ∨ h.hlen = polygon E.m h) ∧ (h.computeLength E.m).hlen = polygon E.m (h.computeLength E.m) := by
  have key : ∀ (os : List (Op Q)), (∀ o ∈ os, o.own) → ∀ h : Herm Q, (h.hlen = -1 ∨ h.hlen = polygon E.m h) →
      ((run E.m h os).hlen = -1 ∨ (run E.m h os).hlen = polygon E.m (run E.m h os)) := by
    intro os
    induction os with
    | nil => intro _ h hh; exact hh
    | cons o os ih =>
      intro ho h hh
      refine ih (fun o' ho' => ho o' (by simp [ho'])) _ ?_
      have hpv : ∀ (h : Herm Q) a b, (h.projectVelocities a b).hlen = -1 := by
        intro h a b
        unfold Herm.projectVelocities
        cases h.proj <;> rfl
      cases o with
      | v0 v => exact Or.inl rfl
      | v1 v => exact Or.inl rfl
      | computeLength => exact Or.inr rfl
      | copy => exact Or.inl rfl
      | copyWith f => exact Or.inl (hpv _ _ _)
      | parameters P => exact False.elim (ho (.parameters P) (by simp))
  refine ⟨key os ho _ (Or.inl (C108_create E junk init fin proj).2.2.1), rfl⟩

/-- C108: the curve between two times is not longer than the difference of three increasing functions which sum up to the polygon. -/
theorem arc (m : ℕ) (h : Herm Q) {s t : ℝ} (h0 : 0 ≤ s) (hst : s ≤ t) (h1 : t ≤ 1) :
    nrm m (fun d => h.spl.velocity t d - h.spl.velocity s d) ≤
      ((1 - s) ^ 3 - (1 - t) ^ 3) * nrm m (fun d => h.P 1 d - h.P 0 d) + (3 * t ^ 2 - 2 * t ^ 3 - (3 * s ^ 2 - 2 * s ^ 3)) * nrm m (fun d => h.P 2 d - h.P 1 d) +
      (t ^ 3 - s ^ 3) * nrm m (fun d => h.P 3 d - h.P 2 d) := by
  have a0 : 0 ≤ (1 - s) ^ 3 - (1 - t) ^ 3 := sub_nonneg.2 (pow_le_pow_left₀ (by linarith) (by linarith) 3)
  have a1 : 0 ≤ 3 * t ^ 2 - 2 * t ^ 3 - (3 * s ^ 2 - 2 * s ^ 3) := by
    have e : 3 * t ^ 2 - 2 * t ^ 3 - (3 * s ^ 2 - 2 * s ^ 3) = (t - s) * (2 * (t * (1 - t)) + 2 * (s * (1 - s)) + s * (1 - t) + t * (1 - s)) := by ring
    rw [e]
    have c1 := mul_nonneg (h0.trans hst) (sub_nonneg.2 h1)
    have c2 := mul_nonneg h0 (sub_nonneg.2 (hst.trans h1))
    have c3 := mul_nonneg h0 (sub_nonneg.2 h1)
    have c4 := mul_nonneg (h0.trans hst) (sub_nonneg.2 (hst.trans h1))
    exact mul_nonneg (sub_nonneg.2 hst) (by linarith)
  have a2 : 0 ≤ t ^ 3 - s ^ 3 := sub_nonneg.2 (pow_le_pow_left₀ h0 hst 3)
  rw [← nrm_smul m _ _ a0, ← nrm_smul m _ _ a1, ← nrm_smul m _ _ a2]
  refine le_trans (le_of_eq ?_) (le_trans (nrm_add_le m _ _) (add_le_add (nrm_add_le m _ _) (le_refl _)))
  congr 1
  funext d
  rw [velocity_eq', velocity_eq']
  ring

/-- Length of the polygon through the points of the curve at given times. -/
noncomputable def chords (m : ℕ) (h : Herm Q) : ℝ → List ℝ → ℝ
  | _, [] => 0
  | s, t :: l => nrm m (fun d => h.spl.velocity t d - h.spl.velocity s d) + chords m h t l

/-- C108: the polygon of the control points is not shorter than the curve (in the tangent space): for all increasing sequences of times, the polygon through
the points of the curve at these times is not longer. -/
theorem C108_longer (m : ℕ) (h : Herm Q) (l : List ℝ) (s : ℝ) (h0 : 0 ≤ s) (hl : (s :: l).Pairwise (· ≤ ·)) (h1 : ∀ t ∈ l, t ≤ 1) :
    chords m h s l ≤ polygon m h := by
  have key : ∀ (l : List ℝ) (s : ℝ), 0 ≤ s → s ≤ 1 → (s :: l).Pairwise (· ≤ ·) → (∀ t ∈ l, t ≤ 1) →
      chords m h s l ≤ (1 - s) ^ 3 * nrm m (fun d => h.P 1 d - h.P 0 d) + (1 - (3 * s ^ 2 - 2 * s ^ 3)) * nrm m (fun d => h.P 2 d - h.P 1 d) +
        (1 - s ^ 3) * nrm m (fun d => h.P 3 d - h.P 2 d) := by
    intro l
    induction l with
    | nil =>
      intro s h0 h1 _ _
      have b1 : 0 ≤ 1 - (3 * s ^ 2 - 2 * s ^ 3) := by
        have : 1 - (3 * s ^ 2 - 2 * s ^ 3) = (1 - s) ^ 2 * (1 + 2 * s) := by ring
        rw [this]; positivity
      have b2 : 0 ≤ 1 - s ^ 3 := sub_nonneg.2 (pow_le_one₀ h0 h1)
      have b0 : 0 ≤ (1 - s) ^ 3 := pow_nonneg (by linarith) 3
      exact add_nonneg (add_nonneg (mul_nonneg b0 (nrm_nonneg _ _)) (mul_nonneg b1 (nrm_nonneg _ _))) (mul_nonneg b2 (nrm_nonneg _ _))
    | cons t l ih =>
      intro s h0 h1 hp hle
      have hst : s ≤ t := (List.pairwise_cons.1 hp).1 t (by simp)
      have ht1 : t ≤ 1 := hle t (by simp)
      have := ih t (h0.trans hst) ht1 (List.pairwise_cons.1 hp).2 (fun x hx => hle x (by simp [hx]))
      have ha := arc m h h0 hst ht1
      unfold chords
      refine (add_le_add ha this).trans (le_of_eq ?_)
      ring
  cases l with
  | nil =>
    unfold chords polygon
    exact add_nonneg (add_nonneg (nrm_nonneg _ _) (nrm_nonneg _ _)) (nrm_nonneg _ _)
  | cons t l =>
    have hst : s ≤ t := (List.pairwise_cons.1 hl).1 t (by simp)
    have hs1 : s ≤ 1 := hst.trans (h1 t (by simp))
    refine (key (t :: l) s h0 hs1 hl h1).trans ?_
    unfold polygon
    have b0 : (1 - s) ^ 3 ≤ 1 := pow_le_one₀ (by linarith) (by linarith)
    have b1 : 1 - (3 * s ^ 2 - 2 * s ^ 3) ≤ 1 := by
      have : 0 ≤ s ^ 2 * (3 - 2 * s) := mul_nonneg (sq_nonneg s) (by linarith)
      nlinarith
    have b2 : 1 - s ^ 3 ≤ 1 := by linarith [pow_nonneg h0 3]
    have c0 := mul_le_mul_of_nonneg_right b0 (nrm_nonneg m (fun d => h.P 1 d - h.P 0 d))
    have c1 := mul_le_mul_of_nonneg_right b1 (nrm_nonneg m (fun d => h.P 2 d - h.P 1 d))
    have c2 := mul_le_mul_of_nonneg_right b2 (nrm_nonneg m (fun d => h.P 3 d - h.P 2 d))
    linarith

/-- C108: the Hermite length is at least the distance between the ends, with equality for a new path without constraints. -/
theorem C108_distance (E : Space Q) (junk : ℕ → ℕ → ℝ) (init fin : Q) (proj : Option (Q → (ℕ → ℝ) → ℕ → ℝ)) (os : List (Op Q)) (ho : ∀ o ∈ os, o.own) :
    nrm E.m (E.diff fin init) ≤ ((run E.m (create E junk init fin proj) os).computeLength E.m).hlen ∧
    ((create E junk init fin none).computeLength E.m).hlen = nrm E.m (E.diff fin init) := by
  constructor
  · have k := run_kept (create_kept E junk init fin proj) os ho
    have := C108_longer E.m (run E.m (create E junk init fin proj) os) [1] 0 (le_refl 0) (by simp) (by simp)
    refine le_trans (le_of_eq ?_) this
    unfold chords chords
    rw [add_zero]
    congr 1
    funext d
    rw [velocity_eq', velocity_eq', k.row0, k.row3]
    ring
  · have k := create_kept E junk init fin none
    obtain ⟨h1, h2, -⟩ := C108_create E junk init fin none
    have e1 : ∀ d, (create E junk init fin none).P 1 d = E.diff fin init d / 3 := by
      intro d
      have := congrFun h1 d
      simp only [Herm.v0, k.row0] at this
      linarith
    have e2 : ∀ d, (create E junk init fin none).P 2 d = 2 * E.diff fin init d / 3 := by
      intro d
      have := congrFun h2 d
      simp only [Herm.v1, k.row3] at this
      linarith
    have third : ∀ w : ℕ → ℝ, (∀ d, w d = 1 / 3 * E.diff fin init d) → nrm E.m w = 1 / 3 * nrm E.m (E.diff fin init) := by
      intro w hw
      rw [← nrm_smul E.m _ _ (by norm_num)]
      congr 1
      funext d
      exact hw d
    simp only [Herm.computeLength]
    have n1 := third (fun d => (create E junk init fin none).P 1 d - (create E junk init fin none).P 0 d) (fun d => by rw [e1, k.row0]; ring)
    have n2 := third (fun d => (create E junk init fin none).P 2 d - (create E junk init fin none).P 1 d) (fun d => by rw [e1, e2]; ring)
    have n3 := third (fun d => (create E junk init fin none).P 3 d - (create E junk init fin none).P 2 d) (fun d => by rw [e2, k.row3]; ring)
    rw [n1, n2, n3]
    ring

/-- C108: a copy is the same path, with the length forgotten; a copy with constraints has the same ends, but its velocities are those of a new path: velocities
set by the user are lost. -/
theorem C108_copy (E : Space Q) (h : Herm Q) (init fin : Q) (k : Kept E init fin h) (proj : Option (Q → (ℕ → ℝ) → ℕ → ℝ)) :
    h.copy.P = h.P ∧ h.copy.hlen = -1 ∧
    (h.copyWith proj).v0 = (match proj with | some f => f init (E.diff fin init) | none => E.diff fin init) ∧
    (h.copyWith proj).v1 = (match proj with | some f => f fin (E.diff fin init) | none => E.diff fin init) := by
  obtain ⟨h1, h2⟩ := projectVelocities_v ({ h with hlen := -1, proj := proj } : Herm Q) h.ini h.fin
  refine ⟨rfl, rfl, ?_, ?_⟩
  · rw [show (h.copyWith proj).v0 = _ from h1, k.ini]
    simp only [k.row3]
  · rw [show (h.copyWith proj).v1 = _ from h2, k.fin']
    simp only [k.row3]

/-! ## Example and counterexamples: one degree of freedom -/
namespace HEx

noncomputable def line : Space ℝ := ⟨1, fun b a _ => b - a, fun a v => a + v 0⟩

theorem contract : Contract line := by
  refine ⟨?_, ?_, ?_⟩
  · intro a b; simp [line]
  · intro a v h; simp [line, h 0 (by simp [line])]
  · intro a v w h; simp [line, h 0 (by simp [line])]

noncomputable def path : Herm ℝ := create line (fun _ _ => 0) 0 3 none

/-- The path from 0 to 3 with initial velocity 30: it goes beyond the goal, its length is larger than the distance. -/
example : (path.setV0 (fun _ => 30)).eval line 0 = 0 ∧ (path.setV0 (fun _ => 30)).eval line 1 = 3 ∧ (path.setV0 (fun _ => 30)).v0 0 = 30 ∧
    ((path.setV0 (fun _ => 30)).computeLength 1).hlen = 19 := by
  have k : Kept line 0 3 (path.setV0 (fun _ => 30)) := (create_kept line _ 0 3 none).setV0 _
  refine ⟨k.eval0 contract, k.eval1 contract, by rw [(C108_set path _).1], ?_⟩
  have h3 := k.row3
  have h0 := k.row0
  have h1 : (path.setV0 (fun _ => 30)).P 1 0 = 10 := by
    have := congrFun (C108_set path (fun _ => 30)).1 0
    simp only [Herm.v0, h0] at this
    linarith
  have h2 : (path.setV0 (fun _ => 30)).P 2 0 = 2 := by
    have e := congrFun (C108_set path (fun _ => 30)).2.1 0
    have e' := congrFun (C108_create line (fun _ _ => 0) 0 3 none).2.1 0
    have e'' : path.v1 0 = 3 := by
      rw [show path.v1 0 = _ from e']; simp [line]
    rw [e''] at e
    simp only [Herm.v1, h3] at e
    simp [line] at e
    linarith
  have h3' : (path.setV0 (fun _ => 30)).P 3 0 = 3 := by rw [h3]; simp [line]
  simp only [Herm.computeLength, nrm, Finset.sum_range_succ, Finset.sum_range_zero, h0, h1, h2, h3', zero_add]
  rw [Real.sqrt_sq_eq_abs, Real.sqrt_sq_eq_abs, Real.sqrt_sq_eq_abs]
  norm_num

/-- C108 (finding): changing the parameters by the methods of `Spline` does not reset the Hermite length: the old one is returned. -/
theorem C108_length_counterexample :
    (run 1 path [.computeLength, .parameters (fun _ _ => 0)]).hlen = 3 ∧ polygon 1 (run 1 path [.computeLength, .parameters (fun _ _ => 0)]) = 0 := by
  constructor
  · have := (C108_distance line (fun _ _ => 0) 0 3 none [] (by simp)).2
    show (path.computeLength line.m).hlen = 3
    rw [show (path.computeLength line.m).hlen = _ from this]
    simp only [nrm, line, Finset.sum_range_succ, Finset.sum_range_zero, zero_add]
    rw [Real.sqrt_sq_eq_abs]
    norm_num
  · simp [polygon, run, step, Herm.computeLength, nrm]

/-- C108 (finding): a copy with constraints (even with none) does not have the velocities set by the user. -/
theorem C108_copy_counterexample : ((path.setV0 (fun _ => 30)).copyWith none).v0 0 = 3 ∧ (path.setV0 (fun _ => 30)).v0 0 = 30 := by
  have k : Kept line 0 3 (path.setV0 (fun _ => 30)) := (create_kept line _ 0 3 none).setV0 _
  refine ⟨?_, by rw [(C108_set path _).1]⟩
  rw [(C108_copy line _ 0 3 k none).2.2.1]
  simp [line]

end HEx

end Verif.Path.Hermite
