import Verif.SplineOpt.CollisionFunction

/-!
# Collision constraints of the spline optimizer along paths with explicit constraints (C129)

`linearize` (spline-gradient-based.cc:111-154) when the path has explicit constraints (`sod.es` is not empty): some degrees of freedom, the outputs,
are functions of the other ones.
-/
namespace Verif.SplineOpt.CF
open Verif.SplineOpt

noncomputable section

variable {ι : Type}

/-- An explicit constraint set (`sod.es`, external class of hpp-constraints, by contract): the outputs, their values as functions of the other degrees of
freedom (`solve`), and the matrix `jacobianNotOutToOut` at a configuration. -/
structure ES where
  out : ℕ → Bool
  solve : Conf → Conf
  K : Conf → ℕ → ℕ → ℝ

/-- Contract of `solve`: the other degrees of freedom are kept, and the outputs depend only on them. -/
structure ES.Ok (e : ES) (m : ℕ) : Prop where
  keep : ∀ q d, e.out d = false → e.solve q d = q d
  dep : ∀ q q', (∀ d < m, e.out d = false → q d = q' d) → ∀ d < m, e.solve q d = e.solve q' d

/-- Chain rule: spline-gradient-based.cc:130-140; the columns of the outputs are moved to the columns of the degrees of freedom they depend on. -/
def ES.chain (e : ES) (m : ℕ) (q : Conf) (J : ℕ → ℝ) : ℕ → ℝ := fun d =>
  if e.out d then 0 else J d + ∑ o ∈ (Finset.range m).filter (fun o => e.out o = true), J o * e.K q o d

/-- `linearize`: spline-gradient-based.cc:111-154.  The configuration of the spline is solved (119-123) before the jacobian of the explicit constraints
is computed; the jacobian of the collision function is constant. -/
def linearizeES (S : Scene ι) (e : ES) (f : Fn) (nb : ℕ) (s : VSpl) (j : ℕ) (ratio : ℝ) : Row :=
  linRow S.m nb s j ratio (e.chain S.m (e.solve (point s ratio)) f.J)

/-! ## Specification -/

/-- Error of the linearization at `q'` of output `o`. -/
def ES.err (e : ES) (m : ℕ) (q q' : Conf) (o : ℕ) : ℝ :=
  e.solve q o - e.solve q' o - ∑ d ∈ (Finset.range m).filter (fun d => e.out d = false), e.K (e.solve q') o d * (q d - q' d)

/-- Outputs that are affine functions of the other degrees of freedom, with their jacobian. -/
def ES.Affine (e : ES) (m : ℕ) : Prop := ∃ (A : ℕ → ℕ → ℝ) (c : ℕ → ℝ), (∀ q, e.K q = A) ∧
  ∀ q o, o < m → e.out o = true → e.solve q o = c o + ∑ d ∈ (Finset.range m).filter (fun d => e.out d = false), A o d * q d

/-! ## Proofs -/

theorem sum_split (m : ℕ) (p : ℕ → Bool) (g : ℕ → ℝ) : ∑ d ∈ Finset.range m, g d =
    ∑ d ∈ (Finset.range m).filter (fun d => p d = true), g d + ∑ d ∈ (Finset.range m).filter (fun d => p d = false), g d := by
  rw [← Finset.sum_filter_add_sum_filter_not (Finset.range m) (fun d => p d = true)]
  simp

theorem chain_sum {e : ES} {m : ℕ} (h : e.Ok m) (J : ℕ → ℝ) (q q' : Conf) :
    ∑ d ∈ Finset.range m, e.chain m (e.solve q') J d * (q d - q' d) =
      ∑ d ∈ Finset.range m, J d * (e.solve q d - e.solve q' d) - ∑ o ∈ (Finset.range m).filter (fun o => e.out o = true), J o * e.err m q q' o := by
  rw [sum_split m e.out, sum_split m e.out (fun d => J d * (e.solve q d - e.solve q' d))]
  have h0 : ∑ d ∈ (Finset.range m).filter (fun d => e.out d = true), e.chain m (e.solve q') J d * (q d - q' d) = 0 :=
    Finset.sum_eq_zero fun d hd => by simp [ES.chain, (Finset.mem_filter.1 hd).2]
  have h1 : ∑ d ∈ (Finset.range m).filter (fun d => e.out d = false), e.chain m (e.solve q') J d * (q d - q' d) =
      ∑ d ∈ (Finset.range m).filter (fun d => e.out d = false), J d * (e.solve q d - e.solve q' d) +
      ∑ d ∈ (Finset.range m).filter (fun d => e.out d = false), ∑ o ∈ (Finset.range m).filter (fun o => e.out o = true),
        J o * (e.K (e.solve q') o d * (q d - q' d)) := by
    rw [← Finset.sum_add_distrib]
    refine Finset.sum_congr rfl fun d hd => ?_
    have hd' := (Finset.mem_filter.1 hd).2
    rw [h.keep q d hd', h.keep q' d hd']
    simp only [ES.chain, hd', Bool.false_eq_true, if_false]
    rw [add_mul, Finset.sum_mul]
    congr 1
    exact Finset.sum_congr rfl fun o _ => by ring
  rw [h0, h1, Finset.sum_comm]
  simp only [ES.err, mul_sub, Finset.sum_sub_distrib, Finset.mul_sum]
  ring

/-- C129: along a path with explicit constraints, the row says that the collision function takes the same value, at the same ratio and after the
explicit constraints are solved, as on the spline it was linearized at, up to the linearization error of the explicit constraints. -/
theorem C129_explicit (S : Scene ι) (f : Fn) {e : ES} (he : e.Ok S.m) {nb : ℕ} {s t : VSpl} {j : ℕ} {ratio : ℝ} {splines : List VSpl}
    (hj : splines[j]? = some t) (hl : Like s t) (hn : s.n + 1 = nb) :
    (linearizeES S e f nb s j ratio).Holds (concat S.m nb splines) ↔
      value S f (e.solve (point t ratio)) - value S f (e.solve (point s ratio)) =
        ∑ o ∈ (Finset.range S.m).filter (fun o => e.out o = true), f.J o * e.err S.m (point t ratio) (point s ratio) o := by
  unfold linearizeES
  rw [C129_row S { f with J := e.chain S.m (e.solve (point s ratio)) f.J } hj hl hn, ← sub_eq_zero, value_sub, value_sub]
  simp only
  rw [chain_sum he, sub_eq_zero]

/-- C129: if the explicit constraints are affine, the row is satisfied exactly by the splines on which the collision function takes the same value. -/
theorem C129_explicit_affine (S : Scene ι) (f : Fn) {e : ES} (he : e.Ok S.m) (ha : e.Affine S.m) {nb : ℕ} {s t : VSpl} {j : ℕ} {ratio : ℝ}
    {splines : List VSpl} (hj : splines[j]? = some t) (hl : Like s t) (hn : s.n + 1 = nb) :
    (linearizeES S e f nb s j ratio).Holds (concat S.m nb splines) ↔
      value S f (e.solve (point t ratio)) = value S f (e.solve (point s ratio)) := by
  rw [C129_explicit S f he hj hl hn]
  obtain ⟨A, c, hA, hc⟩ := ha
  rw [Finset.sum_eq_zero, sub_eq_zero]
  intro o ho
  obtain ⟨hm, ho⟩ := Finset.mem_filter.1 ho
  have hm := Finset.mem_range.1 hm
  have : e.err S.m (point t ratio) (point s ratio) o = 0 := by
    simp only [ES.err, hA, hc _ o hm ho, mul_sub, Finset.sum_sub_distrib]
    ring
  rw [this, mul_zero]

/-- C129: the row does not depend on what the splines hold for the outputs, which are computed again when the path is evaluated. -/
theorem C129_explicit_outputs (S : Scene ι) (f : Fn) {e : ES} (he : e.Ok S.m) {nb : ℕ} {s t t' : VSpl} {j : ℕ} {ratio : ℝ} {l l' : List VSpl}
    (hj : l[j]? = some t) (hj' : l'[j]? = some t') (hl : Like s t) (hl' : Like s t') (hn : s.n + 1 = nb)
    (hq : ∀ d < S.m, e.out d = false → point t ratio d = point t' ratio d) :
    (linearizeES S e f nb s j ratio).Holds (concat S.m nb l) ↔ (linearizeES S e f nb s j ratio).Holds (concat S.m nb l') := by
  rw [C129_explicit S f he hj hl hn, C129_explicit S f he hj' hl' hn]
  have h1 : ∀ d < S.m, e.solve (point t ratio) d = e.solve (point t' ratio) d := he.dep _ _ hq
  have h2 : value S f (e.solve (point t ratio)) = value S f (e.solve (point t' ratio)) :=
    Finset.sum_congr rfl fun d hd => by rw [h1 d (Finset.mem_range.1 hd)]
  have h3 : ∑ o ∈ (Finset.range S.m).filter (fun o => e.out o = true), f.J o * e.err S.m (point t ratio) (point s ratio) o =
      ∑ o ∈ (Finset.range S.m).filter (fun o => e.out o = true), f.J o * e.err S.m (point t' ratio) (point s ratio) o := by
    refine Finset.sum_congr rfl fun o ho => ?_
    unfold ES.err
    rw [h1 o (Finset.mem_range.1 (Finset.mem_filter.1 ho).1)]
    congr 2
    refine Finset.sum_congr rfl fun d hd => ?_
    obtain ⟨hd, hd'⟩ := Finset.mem_filter.1 hd
    rw [hq d (Finset.mem_range.1 hd) hd']
  rw [h2, h3]

/-! ### Example: three degrees of freedom; the third one is twice the first one plus one -/

def exES : ES where
  out := fun d => d == 2
  solve := fun q d => if d = 2 then 1 + 2 * q 0 else q d
  K := fun _ o d => if o = 2 ∧ d = 0 then 2 else 0

example : exES.Ok 3 := by
  constructor
  · intro q d h
    simp only [exES, beq_eq_false_iff_ne] at h ⊢
    rw [if_neg h]
  · intro q q' h d hd
    simp only [exES]
    split
    · rw [h 0 (by norm_num) rfl]
    · exact h d hd (by simpa [exES] using ‹_›)

example : exES.Affine 3 := by
  refine ⟨fun o d => if o = 2 ∧ d = 0 then 2 else 0, fun _ => 1, fun _ => rfl, ?_⟩
  intro q o _ h
  have h : o = 2 := by simpa [exES] using h
  subst h
  have : (Finset.range 3).filter (fun d => exES.out d = false) = {0, 1} := by decide
  rw [this]
  simp [exES]

/-- Its columns: the third one is moved to the first one. -/
example (q : Conf) : exES.chain 3 q (fun d => d + 1) 0 = 7 ∧ exES.chain 3 q (fun d => d + 1) 1 = 2 ∧ exES.chain 3 q (fun d => d + 1) 2 = 0 := by
  have : (Finset.range 3).filter (fun d => exES.out d = true) = {2} := by decide
  refine ⟨?_, ?_, ?_⟩ <;> simp only [ES.chain, this] <;> norm_num [exES]

end

end Verif.SplineOpt.CF
