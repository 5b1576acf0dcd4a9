import Mathlib.Analysis.Calculus.Deriv.Add
import Mathlib.Analysis.Calculus.FDeriv.CompCLM
import Mathlib.Analysis.Calculus.Deriv.Mul
import Mathlib.Analysis.SpecialFunctions.ExpDeriv
import Mathlib.Analysis.Complex.Exponential
import Mathlib.Tactic.Linarith
import Mathlib.Tactic.Ring
set_option linter.unusedSectionVars false

/-!
# Maximal relative velocity of two bodies (C55)
-/
namespace Verif.Speed

/-- What is used of the robot: parents of joints (0 is the universe), radius of bodies, `maximalDistanceToParent`,
`upperBoundLinearVelocity`, `upperBoundAngularVelocity`. -/
structure Robot where
  parent : ℕ → ℕ
  radius : ℕ → ℝ
  dist : ℕ → ℝ
  lin : ℕ → ℝ
  ang : ℕ → ℝ

/-- The loop of `computeSequenceOfJoints`: src/continuous-validation/solid-solid-collision.cc:172-181, with fuel. -/
def climb (parent : ℕ → ℕ) : ℕ → ℕ → ℕ → List ℕ → List ℕ → Option (ℕ × List ℕ × List ℕ)
  | 0, _, _, _, _ => none
  | f + 1, ia, ib, fromA, fromB =>
    if ia = ib then some (ia, fromA, fromB)
    else if ib < ia then climb parent f (parent ia) ib (fromA ++ [ia]) fromB
    else climb parent f ia (parent ib) fromA (fromB ++ [ib])

/-- `computeSequenceOfJoints`: solid-solid-collision.cc:162-198; `b` is 0 when there is no second joint. -/
def sequenceOfJoints (r : Robot) (a b : ℕ) : Option (List ℕ) :=
  (climb r.parent (a + b + 1) a b [] []).map fun x => x.2.1 ++ [x.1] ++ x.2.2.reverse

/-- The loop of `computeCoefficients`: solid-solid-collision.cc:212-230; `none` is `abort ()`. -/
def coeffs (r : Robot) : ℝ → List ℕ → Option (List (ℕ × ℝ))
  | cum, i :: j :: l =>
    match (if r.parent i = j then some i else if r.parent j = i then some j else none) with
    | none => none
    | some child =>
      match coeffs r (cum + r.dist child) (j :: l) with
      | none => none
      | some cs => some ((child, r.lin child + cum * r.ang child) :: cs)
  | _, _ => some []

/-- `computeCoefficients`: solid-solid-collision.cc:200-232; the initial length is the radius of the body of joint a. -/
def computeCoefficients (r : Robot) (a : ℕ) (joints : List ℕ) : Option (List (ℕ × ℝ)) := coeffs r (r.radius a) joints

/-- The sum of `computeMaximalVelocity` on a list of coefficients: solid-solid-collision.cc:77-83; `v` gives the norm of the segment of the
velocity bound of each joint. -/
def sumVel (v : ℕ → ℝ) : List (ℕ × ℝ) → ℝ
  | [] => 0
  | c :: cs => c.2 * v c.1 + sumVel v cs

/-- `setCoefficients` and `computeMaximalVelocity`: solid-solid-collision.cc:234-244, 76-99. -/
noncomputable def maximalVelocity (r : Robot) (v : ℕ → ℝ) (a : ℕ) (b : Option ℕ) : Option ℝ :=
  match sequenceOfJoints r a (b.getD 0) with
  | none => none
  | some joints =>
    match computeCoefficients r a joints with
    | none => none
    | some cs =>
      match b with
      | none => some (sumVel v cs)
      | some _ =>
        match computeCoefficients r a joints.reverse with
        | none => none
        | some cs' => if sumVel v cs' < sumVel v cs then some (sumVel v cs') else some (sumVel v cs)

/-! ## The sequence of joints -/

/-- One edge of the tree, upwards or downwards. -/
def Up (r : Robot) (i j : ℕ) : Prop := i ≠ 0 ∧ r.parent i = j

/-- Consecutive elements are related. -/
def Chain (R : ℕ → ℕ → Prop) : List ℕ → Prop
  | i :: j :: l => R i j ∧ Chain R (j :: l)
  | _ => True

/-- The tree is numbered from the root. -/
def Tree (r : Robot) : Prop := r.parent 0 = 0 ∧ ∀ i, i ≠ 0 → r.parent i < i

theorem chain_append {R : ℕ → ℕ → Prop} (l1 : List ℕ) (x : ℕ) (l2 : List ℕ) (h1 : Chain R (l1 ++ [x])) (h2 : Chain R (x :: l2)) :
    Chain R (l1 ++ x :: l2) := by
  induction l1 with
  | nil => exact h2
  | cons i l1 ih =>
    cases l1 with
    | nil => exact ⟨h1.1, h2⟩
    | cons j l1 => exact ⟨h1.1, ih h1.2⟩

theorem chain_reverse {R : ℕ → ℕ → Prop} (l : List ℕ) (h : Chain R l) : Chain (fun i j => R j i) l.reverse := by
  induction l with
  | nil => exact trivial
  | cons i l ih =>
    cases l with
    | nil => exact trivial
    | cons j l =>
      have := ih h.2
      rw [List.reverse_cons] at this ⊢
      rw [List.reverse_cons, List.append_assoc]
      exact chain_append l.reverse j [i] this ⟨h.1, trivial⟩

theorem chain_mono {R R' : ℕ → ℕ → Prop} (hR : ∀ i j, R i j → R' i j) (l : List ℕ) (h : Chain R l) : Chain R' l := by
  induction l with
  | nil => exact trivial
  | cons i l ih =>
    cases l with
    | nil => exact trivial
    | cons j l => exact ⟨hR _ _ h.1, ih h.2⟩

/-- Invariant of the loop: the lists climb from `a` and `b`. -/
theorem climb_spec (r : Robot) (ht : Tree r) (f : ℕ) (ia ib : ℕ) (fa fb : List ℕ) (hf : ia + ib < f)
    (h1 : Chain (Up r) (fa ++ [ia])) (h2 : Chain (Up r) (fb ++ [ib])) (hb0 : ib = 0 → fb = fb) :
    ∃ c la lb, climb r.parent f ia ib fa fb = some (c, fa ++ la, fb ++ lb) ∧ Chain (Up r) (fa ++ la ++ [c]) ∧ Chain (Up r) (fb ++ lb ++ [c]) ∧
      (la ++ [c]).head? = some ia ∧ (lb ++ [c]).head? = some ib ∧ (ib = 0 → lb = [] ∧ c = 0) := by
  induction f generalizing ia ib fa fb with
  | zero => omega
  | succ f ih =>
    rw [climb]
    by_cases he : ia = ib
    · rw [if_pos he]
      subst he
      exact ⟨ia, [], [], by simp, by simpa using h1, by simpa using h2, by simp, by simp, fun h => ⟨rfl, h⟩⟩
    · rw [if_neg he]
      by_cases hlt : ib < ia
      · rw [if_pos hlt]
        have h0 : ia ≠ 0 := by omega
        have hp := ht.2 ia h0
        obtain ⟨c, la, lb, hc, k1, k2, k3, k4, k5⟩ := ih (r.parent ia) ib (fa ++ [ia]) fb (by omega)
          (by rw [List.append_assoc]; exact chain_append fa ia [r.parent ia] h1 ⟨⟨h0, rfl⟩, trivial⟩) h2 (fun _ => rfl)
        exact ⟨c, ia :: la, lb, by rw [hc]; simp, by simpa using k1, k2, by simp, k4, k5⟩
      · rw [if_neg hlt]
        have h0 : ib ≠ 0 := by omega
        have hp := ht.2 ib h0
        obtain ⟨c, la, lb, hc, k1, k2, k3, k4, k5⟩ := ih ia (r.parent ib) fa (fb ++ [ib]) (by omega) h1
          (by rw [List.append_assoc]; exact chain_append fb ib [r.parent ib] h2 ⟨⟨h0, rfl⟩, trivial⟩) (fun _ => rfl)
        exact ⟨c, la, ib :: lb, by rw [hc]; simp, k1, by simpa using k2, k3, by simp, fun h => absurd h h0⟩

/-- The path goes up to a common ancestor `c`, then down. -/
theorem sequence_spec (r : Robot) (ht : Tree r) (a b : ℕ) :
    ∃ c la lb, sequenceOfJoints r a b = some (la ++ [c] ++ lb.reverse) ∧ Chain (Up r) (la ++ [c]) ∧ Chain (Up r) (lb ++ [c]) ∧
      (la ++ [c]).head? = some a ∧ (lb ++ [c]).head? = some b ∧ (b = 0 → lb = [] ∧ c = 0) := by
  obtain ⟨c, la, lb, hc, k1, k2, k3, k4, k5⟩ := climb_spec r ht (a + b + 1) a b [] [] (by omega) trivial trivial (fun _ => rfl)
  refine ⟨c, la, lb, ?_, by simpa using k1, by simpa using k2, k3, k4, k5⟩
  unfold sequenceOfJoints
  rw [hc]; simp

theorem coeffs_defined (r : Robot) (l : List ℕ) (h : Chain (fun i j => Up r i j ∨ Up r j i) l) (cum : ℝ) : ∃ cs, coeffs r cum l = some cs := by
  induction l generalizing cum with
  | nil => exact ⟨[], by simp [coeffs]⟩
  | cons i l ih =>
    cases l with
    | nil => exact ⟨[], by simp [coeffs]⟩
    | cons j l =>
      rw [coeffs]
      by_cases h1 : r.parent i = j
      · rw [if_pos h1]
        obtain ⟨cs, hcs⟩ := ih h.2 (cum + r.dist i)
        simp only [hcs]
        exact ⟨_, rfl⟩
      · have h2 : r.parent j = i := by
          rcases h.1 with h | h
          · exact absurd h.2 h1
          · exact h.2
        rw [if_neg h1, if_pos h2]
        obtain ⟨cs, hcs⟩ := ih h.2 (cum + r.dist j)
        simp only [hcs]
        exact ⟨_, rfl⟩

theorem path_of (r : Robot) (c : ℕ) (la lb : List ℕ) (h1 : Chain (Up r) (la ++ [c])) (h2 : Chain (Up r) (lb ++ [c])) :
    Chain (fun i j => Up r i j ∨ Up r j i) (la ++ [c] ++ lb.reverse) := by
  have h3 := chain_reverse _ h2
  rw [List.reverse_append] at h3
  rw [List.append_assoc]
  exact chain_append la c lb.reverse (chain_mono (fun _ _ h => Or.inl h) _ h1) (chain_mono (fun _ _ h => Or.inr h) _ h3)

/-- C55: the sequence of joints is a path of the tree, from the first joint to the second one (the universe if there is none); neither it nor the
reverse path makes the program abort. -/
theorem C55_sequence (r : Robot) (ht : Tree r) (a b : ℕ) :
    ∃ l, sequenceOfJoints r a b = some l ∧ l.head? = some a ∧ l.getLast? = some b ∧ Chain (fun i j => Up r i j ∨ Up r j i) l ∧
      (∃ cs, computeCoefficients r a l = some cs) ∧ ∃ cs, computeCoefficients r a l.reverse = some cs := by
  obtain ⟨c, la, lb, hs, k1, k2, k3, k4, _⟩ := sequence_spec r ht a b
  have hp := path_of r c la lb k1 k2
  refine ⟨_, hs, ?_, ?_, hp, coeffs_defined r _ hp _, coeffs_defined r _ (chain_mono (fun _ _ h => h.symm) _ (chain_reverse _ hp)) _⟩
  · rw [List.head?_append, k3]; rfl
  · have e : la ++ [c] ++ lb.reverse = la ++ (lb ++ [c]).reverse := by simp
    rw [e, List.getLast?_append, List.getLast?_reverse, k4]; rfl

/-! ## Kinematics -/

variable {E : Type} [NormedAddCommGroup E] [NormedSpace ℝ E]

/-- Motion of the robot: placement of each joint with respect to its parent (rotation `R` of inverse `S`, translation `p`), and placement `W`
with respect to the universe. -/
structure Motion (E : Type) [NormedAddCommGroup E] [NormedSpace ℝ E] where
  R : ℕ → ℝ → E →L[ℝ] E
  S : ℕ → ℝ → E →L[ℝ] E
  p : ℕ → ℝ → E
  W : ℕ → ℝ → E → E

/-- The motion agrees with the data of the robot (contract of `maximalDistanceToParent`, `upperBoundLinearVelocity`,
`upperBoundAngularVelocity`) while the norm of the velocity of joint `c` does not exceed `v c`. -/
structure Fits (r : Robot) (v : ℕ → ℝ) (m : Motion E) : Prop where
  root : ∀ t x, m.W 0 t x = x
  kin : ∀ c t x, c ≠ 0 → m.W c t x = m.W (r.parent c) t (m.R c t x + m.p c t)
  iso : ∀ c t x, c ≠ 0 → ‖m.R c t x‖ = ‖x‖
  inv : ∀ c t x, c ≠ 0 → m.R c t (m.S c t x) = x ∧ m.S c t (m.R c t x) = x
  dR : ∀ c t, c ≠ 0 → ∃ R', HasDerivAt (m.R c) R' t ∧ ∀ x, ‖R' x‖ ≤ r.ang c * v c * ‖x‖
  dS : ∀ c t, c ≠ 0 → ∃ S', HasDerivAt (m.S c) S' t
  dp : ∀ c t, c ≠ 0 → ∃ p', HasDerivAt (m.p c) p' t ∧ ‖p'‖ ≤ r.lin c * v c
  dist : ∀ c t, c ≠ 0 → ‖m.p c t‖ ≤ r.dist c
  nonneg : ∀ c, 0 ≤ v c ∧ 0 ≤ r.ang c ∧ 0 ≤ r.lin c

/-- Spec: `V` bounds the speed, with respect to joint `b`, of all the points of the body of joint `a`: `y` is the position of the point in the
frame of `b`. -/
def BoundsSpeed (r : Robot) (m : Motion E) (a b : ℕ) (V : ℝ) : Prop :=
  ∀ x : E, ‖x‖ ≤ r.radius a → ∀ y : ℝ → E, (∀ t, m.W b t (y t) = m.W a t x) → ∀ t, ∃ y', HasDerivAt y y' t ∧ ‖y'‖ ≤ V

theorem W_inj {r : Robot} (ht : Tree r) {v : ℕ → ℝ} {m : Motion E} (h : Fits r v m) (c : ℕ) (t : ℝ) (x y : E) (he : m.W c t x = m.W c t y) : x = y := by
  induction c using Nat.strong_induction_on generalizing x y with
  | _ c ih =>
    by_cases hc : c = 0
    · subst hc; rwa [h.root, h.root] at he
    · rw [h.kin c t x hc, h.kin c t y hc] at he
      have := ih _ (ht.2 c hc) _ _ he
      have := add_right_cancel this
      have e := congrArg (m.S c t) this
      rwa [(h.inv c t x hc).2, (h.inv c t y hc).2] at e

/-- Steps for which the coefficients of the code are large enough: upwards, or downwards with the same origin. -/
def Good (r : Robot) (i j : ℕ) : Prop := Up r i j ∨ (Up r j i ∧ r.dist j = 0)

/-- The point moves along the path with bounded distance and speed. -/
theorem speed_chain {r : Robot} (ht : Tree r) {v : ℕ → ℝ} {m : Motion E} (h : Fits r v m) (l : List ℕ) (i : ℕ) (hl : Chain (Good r) (i :: l))
    (cum : ℝ) (cs : List (ℕ × ℝ)) (hcs : coeffs r cum (i :: l) = some cs) (y : ℝ → E) (V : ℝ) (hy : ∀ t, ‖y t‖ ≤ cum)
    (hy' : ∀ t, ∃ y', HasDerivAt y y' t ∧ ‖y'‖ ≤ V) :
    ∃ (z : ℝ → E) (b : ℕ), (i :: l).getLast? = some b ∧ (∀ t, m.W b t (z t) = m.W i t (y t)) ∧ ∀ t, ∃ z', HasDerivAt z z' t ∧ ‖z'‖ ≤ V + sumVel v cs := by
  induction l generalizing i cum cs y V with
  | nil =>
    simp [coeffs] at hcs
    subst hcs
    exact ⟨y, i, rfl, fun _ => rfl, fun t => by simpa [sumVel] using hy' t⟩
  | cons j l ih =>
    obtain ⟨hg, hl'⟩ := hl
    rw [coeffs] at hcs
    rcases hg with hup | ⟨hdown, hd0⟩
    · obtain ⟨hi0, hpar⟩ := hup
      rw [if_pos hpar] at hcs
      simp only at hcs
      cases hcr : coeffs r (cum + r.dist i) (j :: l) with
      | none => rw [hcr] at hcs; simp at hcs
      | some cs' =>
        rw [hcr] at hcs
        have hcs := (Option.some.inj hcs).symm
        subst hcs
        obtain ⟨z, b, hb, hz, hz'⟩ := ih j hl' (cum + r.dist i) cs' hcr (fun t => m.R i t (y t) + m.p i t)
          (V + (r.lin i + cum * r.ang i) * v i)
          (fun t => le_trans (norm_add_le _ _) (add_le_add (by rw [h.iso i t _ hi0]; exact hy t) (h.dist i t hi0)))
          (fun t => by
            obtain ⟨R', hR', hRn⟩ := h.dR i t hi0
            obtain ⟨p', hp', hpn⟩ := h.dp i t hi0
            obtain ⟨y', hyd, hyn⟩ := hy' t
            refine ⟨_, (hR'.clm_apply hyd).add hp', ?_⟩
            have e1 := norm_add_le (R' (y t) + m.R i t y') p'
            have e2 := norm_add_le (R' (y t)) (m.R i t y')
            have e3 := hRn (y t)
            have e4 : ‖m.R i t y'‖ = ‖y'‖ := h.iso i t _ hi0
            have e5 : r.ang i * v i * ‖y t‖ ≤ r.ang i * v i * cum :=
              mul_le_mul_of_nonneg_left (hy t) (mul_nonneg (h.nonneg i).2.1 (h.nonneg i).1)
            nlinarith)
        refine ⟨z, b, ?_, fun t => ?_, fun t => ?_⟩
        · rw [List.getLast?_cons_cons]; exact hb
        · rw [hz t, h.kin i t _ hi0, hpar]
        · obtain ⟨z', k1, k2⟩ := hz' t
          refine ⟨z', k1, ?_⟩
          rw [sumVel]
          linarith
    · obtain ⟨hj0, hpar⟩ := hdown
      have hne : r.parent i ≠ j := by
        intro he
        have h1 := ht.2 j hj0
        by_cases hi0 : i = 0
        · subst hi0; rw [ht.1] at he; omega
        · have := ht.2 i hi0; omega
      rw [if_neg hne, if_pos hpar] at hcs
      simp only at hcs
      cases hcr : coeffs r (cum + r.dist j) (j :: l) with
      | none => rw [hcr] at hcs; simp at hcs
      | some cs' =>
        rw [hcr] at hcs
        have hcs := (Option.some.inj hcs).symm
        subst hcs
        have hp0 : ∀ t, m.p j t = 0 := fun t => by
          have := h.dist j t hj0
          rw [hd0] at this
          exact norm_le_zero_iff.1 this
        have hSn : ∀ t x, ‖m.S j t x‖ = ‖x‖ := fun t x => by
          rw [← h.iso j t _ hj0, (h.inv j t x hj0).1]
        obtain ⟨z, b, hb, hz, hz'⟩ := ih j hl' (cum + r.dist j) cs' hcr (fun t => m.S j t (y t))
          (V + (r.lin j + cum * r.ang j) * v j)
          (fun t => by rw [hSn, hd0, add_zero]; exact hy t)
          (fun t => by
            obtain ⟨R', hR', hRn⟩ := h.dR j t hj0
            obtain ⟨S', hS'⟩ := h.dS j t hj0
            obtain ⟨y', hyd, hyn⟩ := hy' t
            refine ⟨_, hS'.clm_apply hyd, ?_⟩
            -- derivative of the inverse
            have hSb : ∀ x, ‖S' x‖ ≤ r.ang j * v j * ‖x‖ := by
              intro x
              have h1 : HasDerivAt (fun t => m.S j t x) (S' x) t := by
                have := hS'.clm_apply (hasDerivAt_const t x)
                simpa using this
              have h2 := hR'.clm_apply h1
              have h3 : (fun t => m.R j t (m.S j t x)) = fun _ => x := funext fun t => (h.inv j t x hj0).1
              rw [h3] at h2
              have h4 := h2.unique (hasDerivAt_const t x)
              have h5 : m.R j t (S' x) = -(R' (m.S j t x)) := eq_neg_of_add_eq_zero_right h4
              have h6 := h.iso j t (S' x) hj0
              rw [← h6, h5, norm_neg]
              have := hRn (m.S j t x)
              rwa [hSn] at this
            have e2 := norm_add_le (S' (y t)) (m.S j t y')
            have e3 := hSb (y t)
            have e4 : ‖m.S j t y'‖ = ‖y'‖ := hSn t y'
            have e5 : r.ang j * v j * ‖y t‖ ≤ r.ang j * v j * cum :=
              mul_le_mul_of_nonneg_left (hy t) (mul_nonneg (h.nonneg j).2.1 (h.nonneg j).1)
            have e6 : 0 ≤ r.lin j * v j := mul_nonneg (h.nonneg j).2.2 (h.nonneg j).1
            nlinarith)
        refine ⟨z, b, ?_, fun t => ?_, fun t => ?_⟩
        · rw [List.getLast?_cons_cons]; exact hb
        · rw [hz t, h.kin j t _ hj0, hpar, (h.inv j t _ hj0).1, hp0, add_zero]
        · obtain ⟨z', k1, k2⟩ := hz' t
          refine ⟨z', k1, ?_⟩
          rw [sumVel]
          linarith

/-- The sum of the coefficients along a path with good steps bounds the speed. -/
theorem good_bounds {r : Robot} (ht : Tree r) {v : ℕ → ℝ} {m : Motion E} (h : Fits r v m) (a b : ℕ) (l : List ℕ) (ha : l.head? = some a)
    (hb : l.getLast? = some b) (hl : Chain (Good r) l) (cs : List (ℕ × ℝ)) (hcs : computeCoefficients r a l = some cs) :
    BoundsSpeed r m a b (sumVel v cs) := by
  intro x hx y hy t
  cases l with
  | nil => simp at ha
  | cons i l =>
    have hia : i = a := by simpa using ha
    subst hia
    obtain ⟨z, b', hb', hz, hz'⟩ := speed_chain ht h l i hl _ cs hcs (fun _ => x) 0 (fun _ => hx)
      (fun t => ⟨0, hasDerivAt_const t x, by simp⟩)
    have hbb : b' = b := by rw [hb] at hb'; exact (Option.some.inj hb').symm
    subst hbb
    have hzy : z = y := by
      funext t
      exact W_inj ht h b' t _ _ (by rw [hz t, hy t])
    subst hzy
    simpa using hz' t

/-- C55: for a body and obstacles fixed in the environment, the result bounds the speed of all the points of the body. -/
theorem C55_obstacles {r : Robot} (ht : Tree r) {v : ℕ → ℝ} {m : Motion E} (h : Fits r v m) (a : ℕ) :
    ∃ V, maximalVelocity r v a none = some V ∧ BoundsSpeed r m a 0 V := by
  obtain ⟨c, la, lb, hs, k1, k2, k3, k4, k5⟩ := sequence_spec r ht a 0
  obtain ⟨hlb, hc⟩ := k5 rfl
  subst hlb hc
  simp only [List.reverse_nil, List.append_nil] at hs
  obtain ⟨cs, hcs⟩ := coeffs_defined r _ (chain_mono (fun _ _ h => Or.inl h) _ k1) (r.radius a)
  refine ⟨sumVel v cs, ?_, good_bounds ht h a 0 _ k3 (by simp) (chain_mono (fun _ _ h => Or.inl h) _ k1) cs hcs⟩
  unfold maximalVelocity computeCoefficients
  simp only [Option.getD_none, hs, hcs]

/-- C55 (partial): for two joints, the sum from the first to the second bounds the speed of the points of the first body when joints on the side
of the second one have their origin at the one of their parent; in particular when the second joint is an ancestor of the first one.  Missing:
the other cases, and the sum from the second joint to the first one, which is returned when it is smaller (see the counterexample). -/
theorem C55_pair_partial {r : Robot} (ht : Tree r) {v : ℕ → ℝ} {m : Motion E} (h : Fits r v m) (a b : ℕ) (l : List ℕ)
    (hs : sequenceOfJoints r a b = some l) (hd : Chain (fun i j => Up r j i → r.dist j = 0) l) :
    ∃ cs cs', computeCoefficients r a l = some cs ∧ computeCoefficients r a l.reverse = some cs' ∧ BoundsSpeed r m a b (sumVel v cs) ∧
      (sumVel v cs ≤ sumVel v cs' → ∃ V, maximalVelocity r v a (some b) = some V ∧ BoundsSpeed r m a b V) := by
  obtain ⟨l', hl', h1, h2, h3, ⟨cs, hcs⟩, ⟨cs', hcs'⟩⟩ := C55_sequence r ht a b
  rw [hs] at hl'
  have := Option.some.inj hl'
  subst this
  have hg : Chain (Good r) l := by
    clear hs hl' h1 h2 hcs hcs'
    induction l with
    | nil => exact trivial
    | cons i l ih =>
      cases l with
      | nil => exact trivial
      | cons j l =>
        refine ⟨?_, ih hd.2 h3.2⟩
        rcases h3.1 with hu | hdn
        · exact Or.inl hu
        · exact Or.inr ⟨hdn, hd.1 hdn⟩
  have hB := good_bounds ht h a b l h1 h2 hg cs hcs
  refine ⟨cs, cs', hcs, hcs', hB, fun hle => ⟨sumVel v cs, ?_, hB⟩⟩
  unfold maximalVelocity
  simp only [Option.getD_some, hs, hcs, hcs']
  rw [if_neg (not_lt.2 hle)]

/-! ## A robot for which the result is not a bound -/

/-- Three joints in a row at distance 1, small bodies. -/
noncomputable def arm : Robot := ⟨fun i => i - 1, fun _ => 1 / 10, fun i => if i = 2 ∨ i = 3 then 1 else 0, fun _ => 0, fun _ => 1⟩

/-- Only the second joint turns. -/
noncomputable def armV : ℕ → ℝ := fun i => if i = 2 then 1 else 0

theorem arm_tree : Tree arm := ⟨rfl, fun i hi => by simp [arm]; omega⟩

theorem arm_velocity : maximalVelocity arm armV 3 (some 1) = some (1 / 10) := by
  have hs : sequenceOfJoints arm 3 1 = some [3, 2, 1] := by simp [sequenceOfJoints, climb, arm]
  unfold maximalVelocity
  simp only [Option.getD_some, hs]
  have h1 : computeCoefficients arm 3 [3, 2, 1] = some [(3, 1 / 10), (2, 1 / 10 + 1)] := by
    simp [computeCoefficients, coeffs, arm]
  have h2 : computeCoefficients arm 3 [3, 2, 1].reverse = some [(2, 1 / 10), (3, 1 / 10 + 1)] := by
    simp [computeCoefficients, coeffs, arm]
  simp only [h1, h2]
  norm_num [sumVel, armV]

/-- Multiplication by a complex number. -/
noncomputable def rot (z : ℂ) : ℂ →L[ℝ] ℂ := ContinuousLinearMap.mul ℝ ℂ z

/-- The second joint turns at speed 1 in the plane. -/
noncomputable def armM : Motion ℂ where
  R := fun c t => if c = 2 then rot (Complex.exp (t * Complex.I)) else rot 1
  S := fun c t => if c = 2 then rot (Complex.exp (-(t * Complex.I))) else rot 1
  p := fun c _ => if c = 2 ∨ c = 3 then 1 else 0
  W := fun c t x =>
    if c = 0 then x else if c = 1 then x else if c = 2 then Complex.exp (t * Complex.I) * x + 1
    else Complex.exp (t * Complex.I) * (x + 1) + 1

theorem rot_apply (z x : ℂ) : rot z x = z * x := rfl

theorem exp_deriv (t : ℝ) : HasDerivAt (fun t : ℝ => Complex.exp (t * Complex.I)) (Complex.exp (t * Complex.I) * Complex.I) t := by
  have h1 : HasDerivAt (fun t : ℝ => (t : ℂ) * Complex.I) (1 * Complex.I) t := (Complex.ofRealCLM.hasDerivAt (x := t)).mul_const Complex.I
  simpa using h1.cexp

theorem rot_deriv (f : ℝ → ℂ) (f' : ℂ) (t : ℝ) (h : HasDerivAt f f' t) : HasDerivAt (fun t => rot (f t)) (rot f') t :=
  ((ContinuousLinearMap.mul ℝ ℂ).hasFDerivAt (x := f t)).comp_hasDerivAt t h

theorem arm_fits : Fits arm armV armM := by
  have hn : ∀ t : ℝ, ‖Complex.exp (t * Complex.I)‖ = 1 := Complex.norm_exp_ofReal_mul_I
  refine ⟨?_, ?_, ?_, ?_, ?_, ?_, ?_, ?_, ?_⟩
  · intro t x; simp [armM]
  · intro c t x hc
    by_cases h1 : c = 1
    · subst h1; simp [armM, arm, rot_apply]
    · by_cases h2 : c = 2
      · subst h2; simp [armM, arm, rot_apply]
      · by_cases h3 : c = 3
        · subst h3; simp [armM, arm, rot_apply]
        · have e1 : ¬ c - 1 = 0 := by omega
          have e2 : ¬ c - 1 = 1 := by omega
          have e3 : ¬ c - 1 = 2 := by omega
          simp [armM, arm, hc, h1, h2, h3, e1, e2, e3, rot_apply]
  · intro c t x hc
    by_cases h2 : c = 2
    · simp [armM, h2, rot_apply, hn]
    · simp [armM, h2, rot_apply]
  · intro c t x hc
    by_cases h2 : c = 2
    · simp only [armM, h2, if_true, rot_apply]
      constructor
      · rw [← mul_assoc, ← Complex.exp_add]; simp
      · rw [← mul_assoc, ← Complex.exp_add]; simp
    · simp [armM, h2, rot_apply]
  · intro c t hc
    by_cases h2 : c = 2
    · refine ⟨rot (Complex.exp (t * Complex.I) * Complex.I), ?_, fun x => ?_⟩
      · have := rot_deriv _ _ t (exp_deriv t)
        simpa [armM, h2] using this
      · rw [rot_apply, norm_mul, norm_mul, hn]; simp [arm, armV, h2]
    · refine ⟨0, ?_, fun x => ?_⟩
      · simp only [armM, h2, if_false]; exact hasDerivAt_const t _
      · simp [armV, h2]
  · intro c t hc
    by_cases h2 : c = 2
    · have h1 : HasDerivAt (fun t : ℝ => -((t : ℂ) * Complex.I)) (-(1 * Complex.I)) t := ((Complex.ofRealCLM.hasDerivAt (x := t)).mul_const Complex.I).neg
      have := rot_deriv _ _ t h1.cexp
      exact ⟨_, by simpa [armM, h2] using this⟩
    · exact ⟨0, by simp only [armM, h2, if_false]; exact hasDerivAt_const t _⟩
  · intro c t hc
    exact ⟨0, hasDerivAt_const t _, by simp [arm]⟩
  · intro c t hc
    by_cases h2 : c = 2 ∨ c = 3
    · simp [armM, arm, h2]
    · simp [armM, arm, h2]
  · intro c
    refine ⟨?_, by simp [arm], by simp [arm]⟩
    unfold armV; split <;> norm_num

/-- C55: for two joints the result bounds neither the speed of the points of the first body with respect to the second joint, nor the one of the
points of the second body with respect to the first joint. -/
theorem C55_pair_counterexample : Tree arm ∧ Fits arm armV armM ∧ maximalVelocity arm armV 3 (some 1) = some (1 / 10) ∧
    ¬ BoundsSpeed arm armM 3 1 (1 / 10) ∧ ¬ BoundsSpeed arm armM 1 3 (1 / 10) := by
  have hn : ∀ t : ℝ, ‖Complex.exp (t * Complex.I)‖ = 1 := Complex.norm_exp_ofReal_mul_I
  refine ⟨arm_tree, arm_fits, arm_velocity, fun h => ?_, fun h => ?_⟩
  · obtain ⟨y', h1, h2⟩ := h 0 (by simp [arm]) (fun t => Complex.exp (t * Complex.I) * (0 + 1) + 1) (fun t => by simp [armM]) 0
    have h3 : HasDerivAt (fun t : ℝ => Complex.exp (t * Complex.I) * (0 + 1) + 1) (Complex.exp ((0 : ℝ) * Complex.I) * Complex.I * (0 + 1)) 0 :=
      ((exp_deriv 0).mul_const _).add_const _
    rw [h1.unique h3] at h2
    simp at h2
    norm_num at h2
  · obtain ⟨y', h1, h2⟩ := h 0 (by simp [arm]) (fun t => Complex.exp (-(t * Complex.I)) * (0 - 1) - 1) (fun t => by
      simp only [armM]
      norm_num
      rw [← Complex.exp_add]
      simp) 0
    have h0 : HasDerivAt (fun t : ℝ => -((t : ℂ) * Complex.I)) (-(1 * Complex.I)) 0 := ((Complex.ofRealCLM.hasDerivAt (x := 0)).mul_const Complex.I).neg
    have h3 : HasDerivAt (fun t : ℝ => Complex.exp (-(t * Complex.I)) * (0 - 1) - 1) (Complex.exp (-((0 : ℝ) * Complex.I)) * (-(1 * Complex.I)) * (0 - 1)) 0 :=
      ((h0.cexp).mul_const _).sub_const _
    rw [h1.unique h3] at h2
    simp at h2
    norm_num at h2

/-- The theorem for obstacles applies to this arm. -/
example : ∃ V, maximalVelocity arm armV 3 none = some V ∧ BoundsSpeed arm armM 3 0 V := C55_obstacles arm_tree arm_fits 3

/-- The partial theorem applies to this arm: the second joint is an ancestor of the first one. -/
example : sequenceOfJoints arm 3 1 = some [3, 2, 1] ∧ Chain (fun i j => Up arm j i → arm.dist j = 0) [3, 2, 1] := by
  refine ⟨by simp [sequenceOfJoints, climb, arm], ?_, ?_, trivial⟩
  · rintro ⟨_, h⟩; simp [arm] at h
  · rintro ⟨_, h⟩; simp [arm] at h

end Verif.Speed
