import Mathlib.Analysis.SpecialFunctions.Sqrt
import Mathlib.Tactic.Linarith
import Mathlib.Tactic.Ring
import Mathlib.Tactic.Positivity
set_option linter.unusedSectionVars false

/-!
# `WeighedDistance` (C59)
-/
namespace Verif.Dist

/-! ## Default weights -/

/-- `minLength > length && length > 0` then `minLength = length`: weighed-distance.cc:241; `none` is infinity. -/
noncomputable def updMin (m : Option ℝ) (length : ℝ) : Option ℝ :=
  if 0 < length then
    match m with
    | none => some length
    | some x => if length < x then some length else some x
  else m

open Classical in
/-- One iteration of the loop over the joints: weighed-distance.cc:237-248.  State: minimal length, weights of the previous joints. -/
noncomputable def weightStep (s : Option ℝ × List (Option ℝ)) (length : ℝ) : Option ℝ × List (Option ℝ) :=
  let m := updMin s.1 length
  (m, (s.2 ++ [some length]).map fun w => if w = some 0 then m else w)

/-- `computeWeights`, given the lengths computed for the joints by `ComputeWeightStep` (not modelled): weighed-distance.cc:218-251. -/
noncomputable def computeWeights (lengths : List ℝ) : List (Option ℝ) := (lengths.foldl weightStep (none, [])).2

/-- Smallest positive number of a list. -/
def IsMinPos (l : List ℝ) (m : Option ℝ) : Prop :=
  match m with
  | none => ∀ x ∈ l, ¬ 0 < x
  | some v => v ∈ l ∧ 0 < v ∧ ∀ x ∈ l, 0 < x → v ≤ x

/-- What the weight of joint `k` is: its length if positive, otherwise the smallest positive length of the joints before it, infinity if there
is none. -/
def WeightSpec (lengths : List ℝ) (k : Nat) (w : Option ℝ) : Prop :=
  ∃ x, lengths[k]? = some x ∧ (if 0 < x then w = some x else IsMinPos (lengths.take k) w)

theorem updMin_spec (l : List ℝ) (m : Option ℝ) (h : IsMinPos l m) (x : ℝ) : IsMinPos (l ++ [x]) (updMin m x) := by
  unfold updMin
  by_cases hx : 0 < x
  · rw [if_pos hx]
    cases m with
    | none =>
      refine ⟨by simp, hx, fun y hy hp => ?_⟩
      rcases List.mem_append.1 hy with hy | hy
      · exact absurd hp (h y hy)
      · rw [List.mem_singleton.1 hy]
    | some v =>
      obtain ⟨h1, h2, h3⟩ := h
      simp only
      by_cases hv : x < v
      · rw [if_pos hv]
        refine ⟨by simp, hx, fun y hy hp => ?_⟩
        rcases List.mem_append.1 hy with hy | hy
        · exact le_trans hv.le (h3 y hy hp)
        · rw [List.mem_singleton.1 hy]
      · rw [if_neg hv]
        refine ⟨by simp [h1], h2, fun y hy hp => ?_⟩
        rcases List.mem_append.1 hy with hy | hy
        · exact h3 y hy hp
        · rw [List.mem_singleton.1 hy]; exact not_lt.1 hv
  · rw [if_neg hx]
    cases m with
    | none =>
      intro y hy
      rcases List.mem_append.1 hy with hy | hy
      · exact h y hy
      · rw [List.mem_singleton.1 hy]; exact hx
    | some v =>
      obtain ⟨h1, h2, h3⟩ := h
      refine ⟨by simp [h1], h2, fun y hy hp => ?_⟩
      rcases List.mem_append.1 hy with hy | hy
      · exact h3 y hy hp
      · rw [List.mem_singleton.1 hy] at hp; exact absurd hp hx

/-- The invariant of the loop. -/
structure WInv (done : List ℝ) (s : Option ℝ × List (Option ℝ)) : Prop where
  len : s.2.length = done.length
  min : IsMinPos done s.1
  pos : ∀ w ∈ s.2, w ≠ some 0
  spec : ∀ k w, s.2[k]? = some w → WeightSpec done k w

theorem weightStep_inv (done : List ℝ) (s : Option ℝ × List (Option ℝ)) (h : WInv done s) (x : ℝ) (hx : 0 ≤ x) :
    WInv (done ++ [x]) (weightStep s x) := by
  have hm := updMin_spec done s.1 h.min x
  have hm0 : updMin s.1 x ≠ some 0 := by
    intro e; rw [e] at hm; exact lt_irrefl _ hm.2.1
  refine ⟨by simp [weightStep, h.len], hm, ?_, ?_⟩
  · intro w hw
    obtain ⟨y, _, hy⟩ := List.mem_map.1 hw
    skip
    by_cases e : y = some 0
    · rw [if_pos e] at hy; rw [← hy]; exact hm0
    · rw [if_neg e] at hy; rw [← hy]; exact e
  · intro k w hw
    simp only [weightStep, List.getElem?_map] at hw
    cases hk : (s.2 ++ [some x])[k]? with
    | none => rw [hk] at hw; simp at hw
    | some y =>
      rw [hk] at hw
      simp only [Option.map_some] at hw
      have hw' := Option.some.inj hw
      by_cases hlt : k < s.2.length
      · rw [List.getElem?_append_left hlt] at hk
        have hy0 : y ≠ some 0 := h.pos y (List.mem_of_getElem? hk)
        rw [if_neg hy0] at hw'
        subst hw'
        obtain ⟨z, hz, hspec⟩ := h.spec k y hk
        have hkd : k < done.length := by rw [← h.len]; exact hlt
        refine ⟨z, by rw [List.getElem?_append_left hkd]; exact hz, ?_⟩
        rw [List.take_append_of_le_length hkd.le]
        exact hspec
      · have hke : k = s.2.length := by
          have := (List.getElem?_eq_some_iff.1 hk).1
          simp at this; omega
        subst hke
        simp at hk
        subst hk
        refine ⟨x, by rw [h.len]; simp, ?_⟩
        by_cases hxp : 0 < x
        · rw [if_pos hxp]
          rw [if_neg (by simp [hxp.ne'])] at hw'
          exact hw'.symm
        · rw [if_neg hxp]
          have hx0 : x = 0 := le_antisymm (not_lt.1 hxp) hx
          rw [if_pos (by rw [hx0])] at hw'
          have hu : updMin s.1 x = s.1 := by unfold updMin; rw [if_neg hxp]
          rw [← hw', hu, h.len]
          simpa using h.min

/-- C59: the default weights, for all lengths of the joints. -/
theorem C59_weights (lengths : List ℝ) (h : ∀ x ∈ lengths, 0 ≤ x) :
    (computeWeights lengths).length = lengths.length ∧ ∀ k w, (computeWeights lengths)[k]? = some w → WeightSpec lengths k w := by
  have key : ∀ (l done : List ℝ) (s : Option ℝ × List (Option ℝ)), (∀ x ∈ l, 0 ≤ x) → WInv done s → WInv (done ++ l) (l.foldl weightStep s) := by
    intro l
    induction l with
    | nil => intro done s _ hs; simpa using hs
    | cons x l ih =>
      intro done s hl hs
      have := ih (done ++ [x]) (weightStep s x) (fun y hy => hl y (List.mem_cons_of_mem _ hy)) (weightStep_inv done s hs x (hl x (by simp)))
      simpa using this
  have inv := key lengths [] (none, []) h ⟨rfl, by intro x hx; simp at hx, by intro w hw; simp at hw, by intro k w hk; simp at hk⟩
  rw [List.nil_append] at inv
  exact ⟨inv.len, inv.spec⟩

/-- C59 (partial): the default weights are finite and positive when the length of the first joint is positive.  Missing: joints of null length
before any other (see the counterexample). -/
theorem C59_weights_partial (x : ℝ) (l : List ℝ) (hx : 0 < x) (h : ∀ y ∈ l, 0 ≤ y) (w : Option ℝ) (hw : w ∈ computeWeights (x :: l)) :
    ∃ v, w = some v ∧ 0 < v := by
  obtain ⟨k, hk⟩ := List.mem_iff_getElem?.1 hw
  obtain ⟨z, hz, hs⟩ := (C59_weights (x :: l) (by
    intro y hy
    rcases List.mem_cons.1 hy with rfl | hy
    · exact hx.le
    · exact h y hy)).2 k w hk
  by_cases hp : 0 < z
  · rw [if_pos hp] at hs; exact ⟨z, hs, hp⟩
  · rw [if_neg hp] at hs
    cases k with
    | zero =>
      have : x = z := by simpa using hz
      exact absurd (this ▸ hx) hp
    | succ k =>
      cases w with
      | none => exact absurd hx (hs x (by simp))
      | some v => exact ⟨v, rfl, hs.2.1⟩

/-- C59: a joint of null length before any joint of positive length gets an infinite weight, whatever comes after. -/
theorem C59_weights_counterexample : computeWeights [0, 1] = [none, some 1] := by
  unfold computeWeights
  simp [weightStep, updMin]

/-! ## The distance -/

/-- `squaredDistance` of the joints as a function of the square of the weight, and the extra degrees of freedom of a configuration. -/
structure DEnv (C : Type) (n : Nat) where
  joints : List (ℝ → C → C → ℝ)
  extra : C → Fin n → ℝ

/-- The loop over the joints: weighed-distance.cc:280-286. -/
def sumJoints {C : Type} (q1 q2 : C) : List (ℝ → C → C → ℝ) → List ℝ → ℝ → Option ℝ
  | [], _, res => some res
  | _ :: _, [], _ => none
  | j :: js, w :: ws, res => sumJoints q1 q2 js ws (res + j (w * w) q1 q2)

/-- `impl_distance`: weighed-distance.cc:271-289, for finite weights.  `none`: less weights than joints (asserted). -/
noncomputable def distance {C : Type} {n : Nat} (e : DEnv C n) (ws : List ℝ) (q1 q2 : C) : Option ℝ :=
  match sumJoints q1 q2 e.joints ws 0 with
  | none => none
  | some res => some (√(res + ∑ i, (e.extra q1 i - e.extra q2 i) ^ 2))

/-- A pseudo-distance. -/
structure Pseudo {C : Type} (d : C → C → ℝ) : Prop where
  nonneg : ∀ a b, 0 ≤ d a b
  self : ∀ a, d a a = 0
  symm : ∀ a b, d a b = d b a
  tri : ∀ a b c, d a c ≤ d a b + d b c

/-- Contract of `squaredDistance` of a joint with weight `w`: `ρ² + w σ²`, where `ρ` is the distance between translation parts and `σ` between
rotation parts. -/
def JointOk {C : Type} (j : ℝ → C → C → ℝ) (ρ σ : C → C → ℝ) : Prop :=
  Pseudo ρ ∧ Pseudo σ ∧ ∀ w a b, j w a b = ρ a b ^ 2 + w * σ a b ^ 2

/-- The square root of a sum of squares. -/
noncomputable def l2 (x y : ℝ) : ℝ := √(x ^ 2 + y ^ 2)

theorem l2_mono {x y x' y' : ℝ} (hx : 0 ≤ x) (hy : 0 ≤ y) (h1 : x ≤ x') (h2 : y ≤ y') : l2 x y ≤ l2 x' y' := by
  unfold l2
  apply Real.sqrt_le_sqrt
  have := pow_le_pow_left₀ hx h1 2
  have := pow_le_pow_left₀ hy h2 2
  linarith

/-- Minkowski in the plane. -/
theorem l2_add (a b c d : ℝ) : l2 (a + b) (c + d) ≤ l2 a c + l2 b d := by
  unfold l2
  have h1 : 0 ≤ a ^ 2 + c ^ 2 := by positivity
  have h2 : 0 ≤ b ^ 2 + d ^ 2 := by positivity
  apply Real.sqrt_le_iff.2
  refine ⟨by positivity, ?_⟩
  have e1 := Real.sq_sqrt h1
  have e2 := Real.sq_sqrt h2
  have hcs : a * b + c * d ≤ √(a ^ 2 + c ^ 2) * √(b ^ 2 + d ^ 2) := by
    rw [← Real.sqrt_mul h1]
    apply Real.le_sqrt_of_sq_le
    nlinarith [sq_nonneg (a * d - b * c)]
  nlinarith

theorem Pseudo.l2 {C : Type} {d d' : C → C → ℝ} (h : Pseudo d) (h' : Pseudo d') : Pseudo fun a b => Dist.l2 (d a b) (d' a b) := by
  refine ⟨fun a b => Real.sqrt_nonneg _, fun a => ?_, fun a b => ?_, fun a b c => ?_⟩
  · simp [Dist.l2, h.self, h'.self]
  · simp only [h.symm a b, h'.symm a b]
  · exact le_trans (l2_mono (h.nonneg a c) (h'.nonneg a c) (h.tri a b c) (h'.tri a b c)) (l2_add _ _ _ _)

theorem Pseudo.smul {C : Type} {d : C → C → ℝ} (h : Pseudo d) (w : ℝ) : Pseudo fun a b => |w| * d a b := by
  refine ⟨fun a b => mul_nonneg (abs_nonneg _) (h.nonneg a b), fun a => by simp [h.self], fun a b => by simp only [h.symm a b], fun a b c => ?_⟩
  rw [← mul_add]
  exact mul_le_mul_of_nonneg_left (h.tri a b c) (abs_nonneg _)

/-- The distance between the extra degrees of freedom. -/
theorem extra_pseudo {C : Type} (m : Nat) (f : C → Fin m → ℝ) : Pseudo fun a b => √(∑ i, (f a i - f b i) ^ 2) := by
  induction m with
  | zero => exact ⟨fun _ _ => by simp, fun _ => by simp, fun _ _ => by simp, fun _ _ _ => by simp⟩
  | succ m ih =>
    have h1 : Pseudo fun a b : C => |f a 0 - f b 0| :=
      ⟨fun _ _ => abs_nonneg _, fun _ => by simp, fun _ _ => abs_sub_comm _ _, fun a b c => abs_sub_le _ _ _⟩
    have h2 := ih fun q i => f q i.succ
    have := h1.l2 h2
    have e : (fun a b : C => Dist.l2 |f a 0 - f b 0| √(∑ i : Fin m, (f a i.succ - f b i.succ) ^ 2)) =
        fun a b => √(∑ i, (f a i - f b i) ^ 2) := by
      funext a b
      unfold Dist.l2
      rw [sq_abs, Real.sq_sqrt (Finset.sum_nonneg fun i _ => sq_nonneg _), Fin.sum_univ_succ]
    rw [← e]
    exact this

/-- Joints with their contracts. -/
inductive JointsOk {C : Type} : List (ℝ → C → C → ℝ) → List ((C → C → ℝ) × (C → C → ℝ)) → Prop
  | nil : JointsOk [] []
  | cons {j ρ σ js l} : JointOk j ρ σ → JointsOk js l → JointsOk (j :: js) ((ρ, σ) :: l)

theorem sumJoints_acc {C : Type} (q1 q2 : C) (js : List (ℝ → C → C → ℝ)) (ws : List ℝ) (res : ℝ) :
    sumJoints q1 q2 js ws res = (sumJoints q1 q2 js ws 0).map (res + ·) := by
  induction js generalizing ws res with
  | nil => simp [sumJoints]
  | cons j js ih =>
    cases ws with
    | nil => rfl
    | cons w ws =>
      rw [sumJoints, sumJoints, ih, ih ws (0 + _)]
      cases sumJoints q1 q2 js ws 0 with
      | none => rfl
      | some x => simp only [Option.map_some]; congr 1; ring

/-- The sum over the joints is the square of a pseudo-distance, that vanishes only when the joints do not move. -/
theorem sum_pseudo {C : Type} (js : List (ℝ → C → C → ℝ)) (l : List ((C → C → ℝ) × (C → C → ℝ))) (h : JointsOk js l) (ws : List ℝ)
    (hw : js.length ≤ ws.length) :
    ∃ D : C → C → ℝ, Pseudo D ∧ (∀ a b, sumJoints a b js ws 0 = some (D a b ^ 2)) ∧
      ((∀ w ∈ ws, w ≠ 0) → ∀ a b, D a b = 0 → ∀ p ∈ l, p.1 a b = 0 ∧ p.2 a b = 0) := by
  induction h generalizing ws with
  | nil => exact ⟨fun _ _ => 0, ⟨fun _ _ => le_refl _, fun _ => rfl, fun _ _ => rfl, fun _ _ _ => by simp⟩, fun a b => by simp [sumJoints], fun _ a b _ p hp => by simp at hp⟩
  | @cons j ρ σ js l hj hjs ih =>
    cases ws with
    | nil => simp at hw
    | cons w ws =>
      obtain ⟨D, hD, hs, hz⟩ := ih ws (by simpa using hw)
      obtain ⟨hρ, hσ, hjw⟩ := hj
      refine ⟨fun a b => l2 (l2 (ρ a b) (|w| * σ a b)) (D a b), (hρ.l2 (hσ.smul w)).l2 hD, fun a b => ?_, fun hne a b h0 p hp => ?_⟩
      · rw [sumJoints, sumJoints_acc, hs, hjw]
        simp only [Option.map_some]
        congr 1
        unfold l2
        rw [Real.sq_sqrt (by positivity), Real.sq_sqrt (by positivity), mul_pow, sq_abs]
        ring
      · have hsq : l2 (ρ a b) (|w| * σ a b) ^ 2 + D a b ^ 2 = 0 := by
          have := congrArg (fun x => x ^ 2) h0
          simp only [l2] at this ⊢
          rw [Real.sq_sqrt (by positivity)] at this
          simpa using this
        have hD0 : D a b = 0 := by
          have : D a b ^ 2 = 0 := by nlinarith [sq_nonneg (l2 (ρ a b) (|w| * σ a b)), sq_nonneg (D a b)]
          exact pow_eq_zero_iff (two_ne_zero) |>.1 this
        rcases List.mem_cons.1 hp with rfl | hp
        · have h1 : ρ a b ^ 2 + (|w| * σ a b) ^ 2 = 0 := by
            have : l2 (ρ a b) (|w| * σ a b) ^ 2 = 0 := by nlinarith [sq_nonneg (l2 (ρ a b) (|w| * σ a b)), sq_nonneg (D a b)]
            unfold l2 at this
            rwa [Real.sq_sqrt (by positivity)] at this
          have hr : ρ a b = 0 := by
            have : ρ a b ^ 2 = 0 := by nlinarith [sq_nonneg (ρ a b), sq_nonneg (|w| * σ a b)]
            exact pow_eq_zero_iff (two_ne_zero) |>.1 this
          have hs' : |w| * σ a b = 0 := by
            have : (|w| * σ a b) ^ 2 = 0 := by nlinarith [sq_nonneg (ρ a b), sq_nonneg (|w| * σ a b)]
            exact pow_eq_zero_iff (two_ne_zero) |>.1 this
          refine ⟨hr, ?_⟩
          rcases mul_eq_zero.1 hs' with h | h
          · exact absurd (abs_eq_zero.1 h) (hne w (by simp))
          · exact h
        · exact hz (fun x hx => hne x (List.mem_cons_of_mem _ hx)) a b hD0 p hp

/-- C59: for any weights, the distance is defined, non negative, null between equal configurations, symmetric, and satisfies the triangle
inequality; with weights different from zero it is null only when no joint moves and the extra degrees of freedom are equal. -/
theorem C59_distance {C : Type} {n : Nat} (e : DEnv C n) (l : List ((C → C → ℝ) × (C → C → ℝ))) (he : JointsOk e.joints l) (ws : List ℝ)
    (hw : e.joints.length ≤ ws.length) :
    ∃ d : C → C → ℝ, (∀ a b, distance e ws a b = some (d a b)) ∧ Pseudo d ∧
      ((∀ w ∈ ws, w ≠ 0) → ∀ a b, d a b = 0 → (∀ p ∈ l, p.1 a b = 0 ∧ p.2 a b = 0) ∧ e.extra a = e.extra b) := by
  obtain ⟨D, hD, hs, hz⟩ := sum_pseudo e.joints l he ws hw
  have hE := extra_pseudo n e.extra
  refine ⟨fun a b => l2 (D a b) (√(∑ i, (e.extra a i - e.extra b i) ^ 2)), fun a b => ?_, hD.l2 hE, fun hne a b h0 => ?_⟩
  · unfold distance
    rw [hs]
    simp only [l2]
    rw [Real.sq_sqrt (Finset.sum_nonneg fun i _ => sq_nonneg _)]
  · have hnn : 0 ≤ ∑ i, (e.extra a i - e.extra b i) ^ 2 := Finset.sum_nonneg fun i _ => sq_nonneg _
    have hsq : D a b ^ 2 + ∑ i, (e.extra a i - e.extra b i) ^ 2 = 0 := by
      have := congrArg (fun x => x ^ 2) h0
      simp only [l2] at this
      rw [Real.sq_sqrt (by positivity), Real.sq_sqrt hnn] at this
      simpa using this
    have hD0 : D a b = 0 := by
      have : D a b ^ 2 = 0 := by nlinarith [sq_nonneg (D a b)]
      exact pow_eq_zero_iff (two_ne_zero) |>.1 this
    refine ⟨hz hne a b hD0, ?_⟩
    have hS : ∑ i, (e.extra a i - e.extra b i) ^ 2 = 0 := by nlinarith [sq_nonneg (D a b)]
    funext i
    have := (Finset.sum_eq_zero_iff_of_nonneg (fun i _ => sq_nonneg _)).1 hS i (Finset.mem_univ i)
    have := pow_eq_zero_iff (two_ne_zero) |>.1 this
    linarith

/-! ## Setters -/

inductive SErr where
  | runtime
  | ub
deriving DecidableEq

/-- `weights (ws)`: weighed-distance.cc:192-201. -/
def setWeights (old ws : List ℝ) : Except SErr (List ℝ) := if ws.length = old.length then .ok ws else .error .runtime

/-- `setWeight (rank, weight)`: weighed-distance.cc:207-216; the rank is a signed integer, a negative one is out of the vector. -/
def setWeight (old : List ℝ) (rank : Int) (w : ℝ) : Except SErr (List ℝ) :=
  if rank < old.length then (if rank < 0 then .error .ub else .ok (old.set rank.toNat w)) else .error .runtime

/-- C59: a list of weights is accepted when and only when it has the right number of weights; then the weights are those of the list. -/
theorem C59_setWeights (old ws : List ℝ) : (∀ r, setWeights old ws = .ok r → r = ws ∧ r.length = old.length) ∧
    (ws.length = old.length → setWeights old ws = .ok ws) ∧ (ws.length ≠ old.length → setWeights old ws = .error .runtime) := by
  unfold setWeights
  refine ⟨fun r hr => ?_, fun h => if_pos h, fun h => if_neg h⟩
  by_cases h : ws.length = old.length
  · rw [if_pos h] at hr; rw [← Except.ok.inj hr]; exact ⟨rfl, h⟩
  · rw [if_neg h] at hr; simp at hr

/-- C59: a setter changes the weights it is asked to change and no other, and keeps their number, for non-negative ranks. -/
theorem C59_setWeight (old : List ℝ) (rank : Nat) (w : ℝ) :
    (rank < old.length → ∃ r, setWeight old rank w = .ok r ∧ r.length = old.length ∧ r[rank]? = some w ∧ ∀ k, k ≠ rank → r[k]? = old[k]?) ∧
    (old.length ≤ rank → setWeight old rank w = .error .runtime) := by
  unfold setWeight
  constructor
  · intro h
    rw [if_pos (by omega), if_neg (by omega)]
    refine ⟨_, rfl, by simp, by simp [h], fun k hk => ?_⟩
    simp only [Int.toNat_natCast]
    rw [List.getElem?_set_ne (Ne.symm hk)]
  · intro h
    rw [if_neg (by omega)]

/-- C59: a negative rank is not refused. -/
theorem C59_negative_rank_counterexample (old : List ℝ) (w : ℝ) : setWeight old (-1) w = .error .ub := by
  unfold setWeight
  rw [if_pos (by omega), if_pos (by omega)]

/-- An environment that satisfies the contract: a translation and a rotation angle. -/
noncomputable def envEx : DEnv (ℝ × ℝ) 0 := ⟨[fun w a b => |a.1 - b.1| ^ 2 + w * |a.2 - b.2| ^ 2], fun _ i => i.elim0⟩

example : JointsOk envEx.joints [(fun a b => |a.1 - b.1|, fun a b => |a.2 - b.2|)] := by
  refine .cons ⟨?_, ?_, fun _ _ _ => rfl⟩ .nil
  · exact ⟨fun _ _ => abs_nonneg _, fun _ => by simp, fun _ _ => abs_sub_comm _ _, fun a b c => abs_sub_le _ _ _⟩
  · exact ⟨fun _ _ => abs_nonneg _, fun _ => by simp, fun _ _ => abs_sub_comm _ _, fun a b c => abs_sub_le _ _ _⟩

end Verif.Dist
