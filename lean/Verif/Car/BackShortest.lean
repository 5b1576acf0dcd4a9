import Verif.Car.DubinsThm
import Verif.Car.CarLike
set_option linter.unusedSectionVars false

/-!
# No backward drive is shorter than the path of `steeringMethod::Snibud` (C110)
-/
namespace Verif.Car
open Complex Set
open scoped Interval

variable {E W : Type} [AddCommGroup E] [Module ℝ E]

/-- The car drives backward from a pose to another one along a curve of length `D`: its heading is `θ t` after a distance `t`, it moves against its heading, and it turns by at
most `1 / rho` per unit of length. -/
def CarBackward (rho : ℝ) (p q : Pose) (D : ℝ) : Prop :=
  0 ≤ D ∧ ∃ θ : ℝ → ℝ, (∀ s t, 0 ≤ s → s ≤ t → t ≤ D → |θ t - θ s| ≤ (t - s) / rho) ∧ p.2 = cis (θ 0) ∧ q.2 = cis (θ D) ∧ q.1 = p.1 - ∫ t in (0 : ℝ)..D, cis (θ t)

theorem backward_forward {rho : ℝ} {p q : Pose} {D : ℝ} : CarBackward rho p q D ↔ CarDrive rho q p D := by
  have flip : ∀ (θ : ℝ → ℝ), (∫ t in (0 : ℝ)..D, cis (θ (D - t))) = ∫ t in (0 : ℝ)..D, cis (θ t) := by
    intro θ
    rw [intervalIntegral.integral_comp_sub_left (fun t => cis (θ t)) D]; simp
  constructor
  · rintro ⟨hD, θ, l, p0, q0, P⟩
    refine ⟨hD, fun t => θ (D - t), ?_, ?_, ?_, ?_⟩
    · intro s t h0 hst h1
      have := l (D - t) (D - s) (by linarith) (by linarith) (by linarith)
      rw [abs_sub_comm] at this
      rwa [show D - s - (D - t) = t - s by ring] at this
    · show q.2 = cis (θ (D - 0)); rw [sub_zero]; exact q0
    · show p.2 = cis (θ (D - D)); rw [sub_self]; exact p0
    · rw [flip θ, P]; ring
  · rintro ⟨hD, θ, l, q0, p0, P⟩
    refine ⟨hD, fun t => θ (D - t), ?_, ?_, ?_, ?_⟩
    · intro s t h0 hst h1
      have := l (D - t) (D - s) (by linarith) (by linarith) (by linarith)
      rw [abs_sub_comm] at this
      rwa [show D - s - (D - t) = t - s by ring] at this
    · show p.2 = cis (θ (D - 0)); rw [sub_zero]; exact p0
    · show q.2 = cis (θ (D - D)); rw [sub_self]; exact q0
    · rw [flip θ, P]; ring

/-- C110: the path of Snibud between two different poses is the shortest one along which the car may go backward, among all the curves, words or not. -/
theorem C110_shortest {rho : ℝ} (hr : 0 < rho) {dist : Cfg E W → Cfg E W → ℝ} (hdist : ∀ a b, 0 ≤ dist a b) {q1 q2 : Cfg E W} (h1 : q1.Unit) (h2 : q2.Unit)
    (hne : q1.pose ≠ q2.pose) {interp : Cfg E W → Cfg E W → ℝ → Cfg E W} (hi : ∀ a b u, (interp a b u).o = lerp a.o b.o u) (wheel : ℝ → W) :
    ∃ K1 K2 K3 : CC E W, snibudSteer interp wheel dist rho q1 q2 = .ok [K1, K2, K3] ∧
      IsLeast {D | CarBackward rho q1.pose q2.pose D} (|K1.curveLength| + |K2.curveLength| + |K3.curveLength|) := by
  obtain ⟨K1, K2, K3, e, a, b⟩ := C87_shortest (extra := dist q1 (extraEnd q1 q2)) hr (hdist _ _) h2 h1 hne.symm hi wheel
  obtain ⟨L1, L2, L3, e', _, _, _, _, hall, _⟩ := C87_dubins_partial (extra := dist q1 (extraEnd q1 q2)) hr (hdist _ _) h2 h1 hne.symm hi wheel
  rw [e] at e'
  simp only [Except.ok.injEq, List.cons.injEq, and_true] at e'
  obtain ⟨rfl, rfl, rfl⟩ := e'
  have n : ∀ K ∈ [K1, K2, K3], |K.reverse.curveLength| = K.curveLength := by
    intro K hK
    show |-K.curveLength| = K.curveLength
    rw [abs_neg, abs_of_nonneg (hall K hK).2.2.1]
  refine ⟨K3.reverse, K2.reverse, K1.reverse, by simp only [snibudSteer, e]; rfl, ?_⟩
  rw [n K1 (by simp), n K2 (by simp), n K3 (by simp), show K3.curveLength + K2.curveLength + K1.curveLength = K1.curveLength + K2.curveLength + K3.curveLength by ring]
  exact ⟨backward_forward.2 a, fun D hD => b (backward_forward.1 hD)⟩

example : ∃ q1 q2 : Cfg ℝ ℝ, q1.Unit ∧ q2.Unit ∧ q1.pose ≠ q2.pose ∧ ∃ D, CarBackward 1 q1.pose q2.pose D := by
  refine ⟨⟨2, 0, 1, 0, 0, 0⟩, ⟨0, 0, 1, 0, 0, 0⟩, by simp [Cfg.Unit], by simp [Cfg.Unit], by simp [Cfg.pose, Complex.ext_iff], 2, by norm_num, fun _ => 0, ?_, ?_, ?_, ?_⟩
  · intro s t _ h _; simpa using h
  · apply Complex.ext <;> simp [Cfg.pose, cis]
  · apply Complex.ext <;> simp [Cfg.pose, cis]
  · rw [intervalIntegral.integral_const]; apply Complex.ext <;> simp [Cfg.pose, cis]

end Verif.Car
