import Verif.SplineOpt.Steering
import Mathlib.Algebra.Quaternion
import Mathlib.Analysis.SpecialFunctions.Trigonometric.Bounds
set_option linter.unusedSectionVars false

/-!
# Continuity of optimized splines for robots with rotations (C89)

The rows of the constraints only read the control points, which are vectors of the tangent space at the base of each spline; the base of a spline
is its first configuration before the optimization.
-/
namespace Verif.SplineOpt
open Verif.Spline

variable {Q : Type}

/-- The same spline with another base.  The rows of `Verif.SplineOpt.equalities` do not read the base. -/
def reb (b : ℕ → ℝ) (s : Spl Q) : VSpl := ⟨s.n, b, s.P, s.s0, s.s1⟩

/-! ## Specification -/

/-- Consecutive splines follow each other. -/
def Follow (integrate : Q → (ℕ → ℝ) → Q) (splines : List (Spl Q)) : Prop :=
  ∀ j s t, splines[j]? = some s → splines[j + 1]? = some t → s.compute integrate s.s1 = t.compute integrate t.s0

/-- Derivatives up to order `K` at the junctions and at the ends.  (`Spl.derivative` is the derivative of the tangent vector; it is the one of the
path when the group is commutative.) -/
structure SmoothDer (m K : ℕ) (splines : List (Spl Q)) : Prop where
  mid : ∀ j s t, splines[j]? = some s → splines[j + 1]? = some t → ∀ d < m, ∀ k, 1 ≤ k → k ≤ K → s.derivative s.s1 k d = t.derivative t.s0 k d
  first : ∀ s, splines.head? = some s → ∀ d < m, ∀ k, 1 ≤ k → k ≤ K → s.derivative s.s0 k d = some 0
  last : ∀ s, splines.getLast? = some s → ∀ d < m, ∀ k, 1 ≤ k → k ≤ K → s.derivative s.s1 k d = some 0

/-- Same first and last configurations. -/
structure SameEndsQ (integrate : Q → (ℕ → ℝ) → Q) (a b : List (Spl Q)) : Prop where
  first : ∀ s t, a.head? = some s → b.head? = some t → s.compute integrate s.s0 = t.compute integrate t.s0
  last : ∀ s t, a.getLast? = some s → b.getLast? = some t → s.compute integrate s.s1 = t.compute integrate t.s1

/-- Integration in a commutative group: `π` is the sum of the exponentials of the joints, for example the identity of the translations and the angles
modulo `2 π` of the unbounded rotations; it reads the `m` first coordinates. -/
structure Commutative [AddCommGroup Q] (m : ℕ) (integrate : Q → (ℕ → ℝ) → Q) : Prop where
  ex : ∃ π : (ℕ → ℝ) →+ Q, (∀ b v, integrate b v = b + π v) ∧ ∀ v, (∀ d < m, v d = 0) → π v = 0

/-! ## Commutative groups -/

theorem compute_ends {s : Spl Q} (h : s.s0 < s.s1) (integrate : Q → (ℕ → ℝ) → Q) :
    s.compute integrate s.s0 = integrate s.base (s.velocity 0) ∧ s.compute integrate s.s1 = integrate s.base (s.velocity 1) := by
  have hp : s.param s.s0 = 0 ∧ s.param s.s1 = 1 := by
    have hL : 0 < s.s1 - s.s0 := by linarith
    unfold Spl.param
    simp [hL.ne']
  unfold Spl.compute
  rw [hp.1, hp.2]
  exact ⟨rfl, rfl⟩

/-- Bases that make the initial splines of a vector space follow each other. -/
noncomputable def unroll (l : List (Spl Q × List ℕ)) : ℕ → ℕ → ℝ
  | 0 => fun _ => 0
  | j + 1 => fun d => unroll l j d + ((l[j]?.map fun x => x.1.velocity 1 d).getD 0 - (l[j + 1]?.map fun x => x.1.velocity 0 d).getD 0)

noncomputable def unrolled (l : List (Spl Q × List ℕ)) : List (VSpl × List ℕ) := l.mapIdx fun j x => (reb (unroll l j) x.1, x.2)

/-- Same spline up to the base. -/
def Mod (x : VSpl × List ℕ) (y : Spl Q × List ℕ) : Prop := x.2 = y.2 ∧ ∃ b, x.1 = reb b y.1

theorem mod_midRows {m nb k : ℕ} {l : List (VSpl × List ℕ)} {l' : List (Spl Q × List ℕ)} (h : List.Forall₂ Mod l l') : ∀ col, midRows m nb k col l = midRows m nb k col l' := by
  induction h with
  | nil => intro col; rfl
  | @cons x y l l' hxy h ih =>
    intro col
    cases h with
    | nil => obtain ⟨x1, x2⟩ := x; obtain ⟨y1, y2⟩ := y; rfl
    | @cons z w l l' hzw h =>
      obtain ⟨x1, x2⟩ := x
      obtain ⟨y1, y2⟩ := y
      obtain ⟨z1, z2⟩ := z
      obtain ⟨w1, w2⟩ := w
      obtain ⟨h1, b, h2⟩ := hxy
      obtain ⟨h3, c, h4⟩ := hzw
      simp only at h1 h2 h3 h4
      subst h1; subst h2; subst h3; subst h4
      rw [midRows, midRows, ih]
      rfl

theorem mod_problemRows {m nb : ℕ} {l : List (VSpl × List ℕ)} {l' : List (Spl Q × List ℕ)} (h : List.Forall₂ Mod l l') : ∀ j, problemRows m nb j l = problemRows m nb j l' := by
  induction h with
  | nil => intro j; rfl
  | @cons x y l l' hxy h ih =>
    intro j
    obtain ⟨x1, x2⟩ := x
    obtain ⟨y1, y2⟩ := y
    obtain ⟨h1, b, h2⟩ := hxy
    simp only at h1 h2
    subst h1; subst h2
    rw [problemRows, problemRows, ih]
    rfl

theorem forall2_head {α β : Type} {R : α → β → Prop} {l : List α} {l' : List β} (h : List.Forall₂ R l l') :
    (l.head? = none ∧ l'.head? = none) ∨ ∃ x y, l.head? = some x ∧ l'.head? = some y ∧ R x y := by
  cases h with
  | nil => exact Or.inl ⟨rfl, rfl⟩
  | cons h _ => exact Or.inr ⟨_, _, rfl, rfl, h⟩

theorem forall2_last {α β : Type} {R : α → β → Prop} {l : List α} {l' : List β} (h : List.Forall₂ R l l') :
    (l.getLast? = none ∧ l'.getLast? = none) ∨ ∃ x y, l.getLast? = some x ∧ l'.getLast? = some y ∧ R x y := by
  induction h with
  | nil => exact Or.inl ⟨rfl, rfl⟩
  | @cons a b l l' hab h ih =>
    cases h with
    | nil => exact Or.inr ⟨_, _, rfl, rfl, hab⟩
    | cons h1 h2 =>
      rcases ih with ⟨h3, _⟩ | ⟨x, y, h3, h4, h5⟩
      · simp at h3
      · exact Or.inr ⟨x, y, by rw [List.getLast?_cons_cons]; exact h3, by rw [List.getLast?_cons_cons]; exact h4, h5⟩

theorem mod_orderRows {m nb k : ℕ} {l : List (VSpl × List ℕ)} {l' : List (Spl Q × List ℕ)} (h : List.Forall₂ Mod l l') : orderRows m nb l k = orderRows m nb l' k := by
  unfold orderRows
  rcases forall2_head h with ⟨h1, h2⟩ | ⟨⟨x1, x2⟩, ⟨y1, y2⟩, h1, h2, h3, b, h4⟩
  · rw [h1, h2]
  rcases forall2_last h with ⟨g1, g2⟩ | ⟨⟨z1, z2⟩, ⟨w1, w2⟩, g1, g2, g3, c, g4⟩
  · rw [g1, g2, h1, h2]
  simp only at h3 h4 g3 g4
  subst h3; subst h4; subst g3; subst g4
  rw [h1, h2, g1, g2]
  simp only
  rw [mod_midRows h, h.length_eq]
  rfl

theorem mod_equalities {m n K : ℕ} {l : List (VSpl × List ℕ)} {l' : List (Spl Q × List ℕ)} (h : List.Forall₂ Mod l l') : equalities m n K l = equalities m n K l' := by
  unfold equalities continuityRows
  rw [mod_problemRows h]
  congr 1
  congr 1
  funext k
  exact mod_orderRows h

theorem unrolled_mod (l : List (Spl Q × List ℕ)) : List.Forall₂ Mod (unrolled l) l := by
  rw [List.forall₂_iff_get]
  refine ⟨by simp [unrolled], fun i h1 h2 => ?_⟩
  simp only [unrolled, List.get_eq_getElem, List.getElem_mapIdx]
  exact ⟨rfl, _, rfl⟩

/-- C89: for a robot whose configuration space is a commutative group (translations and rotations about one axis), the splines that satisfy
the equality constraints follow each other if the initial ones do, with the same derivatives, null at both ends, and have the same first and last
configurations. -/
theorem C89_commutative [AddCommGroup Q] {m n K : ℕ} {integrate : Q → (ℕ → ℝ) → Q} (hc : Commutative m integrate) {l : List (Spl Q × List ℕ)}
    (hv : Valid m n l) (hK : K ≤ 2 * (n + 1)) (hf : Follow integrate (l.map Prod.fst)) (hs : SmoothDer m K (l.map Prod.fst)) (out : List (Spl Q))
    (hlike : List.Forall₂ Like out (l.map Prod.fst)) (hsat : Sat m (n + 1) (equalities m n K l) out) :
    Follow integrate out ∧ SmoothDer m K out ∧ SameEndsQ integrate out (l.map Prod.fst) := by
  obtain ⟨π, hπ, hπ0⟩ := hc.ex
  have hget : ∀ {j : ℕ} {x : Spl Q × List ℕ}, l[j]? = some x → (l.map Prod.fst)[j]? = some x.1 := by
    intro j x h; rw [List.getElem?_map, h]; rfl
  have hU : ∀ j, (unrolled l)[j]? = l[j]?.map fun x => (reb (unroll l j) x.1, x.2) := by
    intro j; unfold unrolled; rw [List.getElem?_mapIdx]
  have hlenU : (unrolled l).length = l.length := by simp [unrolled]
  have hval : Valid m n (unrolled l) := by
    have : ∀ y ∈ unrolled l, ∃ b, ∃ x ∈ l, y = (reb b x.1, x.2) := by
      intro y hy
      obtain ⟨j, hj⟩ := List.mem_iff_getElem?.1 hy
      rw [hU] at hj
      cases h : l[j]? with
      | none => rw [h] at hj; cases hj
      | some x => rw [h] at hj; cases hj; exact ⟨_, x, List.mem_of_getElem? h, rfl⟩
    refine ⟨fun y hy => ?_, fun y hy => ?_, fun y hy => ?_⟩ <;> obtain ⟨b, x, hx, rfl⟩ := this y hy
    · exact hv.deg x hx
    · exact hv.range x hx
    · exact hv.active x hx
  -- the unrolled splines follow each other
  have hvel : ∀ (b : ℕ → ℝ) (s : Spl Q), s.s0 < s.s1 → ∀ d, (reb b s).compute integ (reb b s).s0 d = b d + s.velocity 0 d ∧
      (reb b s).compute integ (reb b s).s1 d = b d + s.velocity 1 d := by
    intro b s h d
    obtain ⟨h1, h2⟩ := compute_ends (s := reb b s) h integ
    rw [h1, h2]
    exact ⟨rfl, rfl⟩
  have hUf : ∀ {j : ℕ} {s : VSpl}, ((unrolled l).map Prod.fst)[j]? = some s → ∃ x, l[j]? = some x ∧ s = reb (unroll l j) x.1 := by
    intro j s h
    rw [List.getElem?_map, hU] at h
    cases hx : l[j]? with
    | none => rw [hx] at h; cases h
    | some x => rw [hx] at h; cases h; exact ⟨x, rfl, rfl⟩
  have hini : Smooth m K ((unrolled l).map Prod.fst) := by
    refine ⟨fun j s t h h' d hd => ?_, fun s h d hd k h1 hk => ?_, fun s h d hd k h1 hk => ?_⟩
    · obtain ⟨x, hx, rfl⟩ := hUf h
      obtain ⟨y, hy, rfl⟩ := hUf h'
      refine ⟨?_, fun k h1 hk => hs.mid j x.1 y.1 (hget hx) (hget hy) d hd k h1 hk⟩
      rw [(hvel _ _ (hv.range x (List.mem_of_getElem? hx)) d).2, (hvel _ _ (hv.range y (List.mem_of_getElem? hy)) d).1]
      rw [show unroll l (j + 1) d = unroll l j d + ((l[j]?.map fun x => x.1.velocity 1 d).getD 0 -
        (l[j + 1]?.map fun x => x.1.velocity 0 d).getD 0) from rfl, hx, hy]
      simp only [Option.map_some, Option.getD_some]
      ring
    · obtain ⟨x, hx, rfl⟩ := hUf (head_get h)
      exact hs.first x.1 (by rw [List.head?_eq_getElem?]; exact hget hx) d hd k h1 hk
    · rw [List.getLast?_eq_getElem?] at h
      obtain ⟨x, hx, rfl⟩ := hUf h
      refine hs.last x.1 ?_ d hd k h1 hk
      rw [List.getLast?_eq_getElem?]
      have := hget hx
      simpa [hlenU] using this
  -- the result with the same bases
  have hcor : ∀ {j : ℕ} {s' : Spl Q}, out[j]? = some s' → ∃ x, l[j]? = some x ∧ Like s' x.1 := by
    intro j s' h
    have hj : j < out.length := (List.getElem?_eq_some_iff.1 h).1
    have hlen := hlike.length_eq
    have hj' : j < (l.map Prod.fst).length := by omega
    have hj2 : j < l.length := by simpa using hj'
    have := (List.forall₂_iff_get.1 hlike).2 j hj hj'
    refine ⟨l[j], List.getElem?_eq_getElem hj2, ?_⟩
    have e1 : out.get ⟨j, hj⟩ = s' := (List.getElem?_eq_some_iff.1 h).2
    rw [e1] at this
    simpa using this
  have hlen : out.length = l.length := by rw [hlike.length_eq]; simp
  let outV : List VSpl := out.mapIdx fun j s => reb (unroll l j) s
  have hV : ∀ j, outV[j]? = out[j]?.map fun s => reb (unroll l j) s := by
    intro j; show (out.mapIdx _)[j]? = _; rw [List.getElem?_mapIdx]
  have hlenV : outV.length = l.length := by show (out.mapIdx _).length = _; simp [hlen]
  have hlikeV : List.Forall₂ Like outV ((unrolled l).map Prod.fst) := by
    rw [List.forall₂_iff_get]
    refine ⟨by rw [hlenV, List.length_map, hlenU], fun j h1 h2 => ?_⟩
    have hj : j < out.length := by rw [hlen, ← hlenV]; exact h1
    obtain ⟨x, hx, hL⟩ := hcor (List.getElem?_eq_getElem hj)
    have e1 : outV.get ⟨j, h1⟩ = reb (unroll l j) out[j] := by
      have := hV j
      rw [List.getElem?_eq_getElem hj, List.getElem?_eq_getElem h1] at this
      exact Option.some.inj this
    have e2 : ((unrolled l).map Prod.fst).get ⟨j, h2⟩ = reb (unroll l j) x.1 := by
      obtain ⟨y, hy, h⟩ := hUf (List.getElem?_eq_getElem h2)
      rw [hx] at hy
      cases hy
      exact h
    rw [e1, e2]
    exact ⟨hL.1, rfl, hL.2.2.1, hL.2.2.2⟩
  have hconcat : concat m (n + 1) outV = concat m (n + 1) out := by
    funext c
    unfold concat
    rw [hV]
    cases out[c / (m * (n + 1))]? <;> rfl
  have hsatV : Sat m (n + 1) (equalities m n K (unrolled l)) outV := by
    intro r hr
    rw [mod_equalities (unrolled_mod l)] at hr
    rw [hconcat]
    exact hsat r hr
  obtain ⟨hsm, hse⟩ := (C89_continuity hval hK hini).2 outV hlikeV hsatV
  -- back to the group
  have hrange : ∀ {j : ℕ} {s' : Spl Q}, out[j]? = some s' → s'.s0 < s'.s1 := by
    intro j s' h
    obtain ⟨x, hx, hL⟩ := hcor h
    rw [hL.2.2.1, hL.2.2.2]
    exact hv.range x (List.mem_of_getElem? hx)
  have hπeq : ∀ v w : ℕ → ℝ, (∀ d < m, v d = w d) → π v = π w := by
    intro v w h
    have := hπ0 (v - w) (fun d hd => by simp [h d hd])
    rw [map_sub] at this
    exact sub_eq_zero.1 this
  have hheadV : ∀ {s' : Spl Q}, out.head? = some s' → outV.head? = some (reb (unroll l 0) s') := by
    intro s' h
    rw [List.head?_eq_getElem?, hV, head_get h]
    rfl
  have hlastV : ∀ {s' : Spl Q}, out.getLast? = some s' → outV.getLast? = some (reb (unroll l (l.length - 1)) s') := by
    intro s' h
    rw [List.getLast?_eq_getElem?] at h ⊢
    rw [hlenV, hV, ← hlen, h]
    rfl
  refine ⟨?_, ⟨?_, ?_, ?_⟩, ⟨?_, ?_⟩⟩
  · intro j s' t' h h'
    obtain ⟨x, hx, hL⟩ := hcor h
    obtain ⟨y, hy, hL'⟩ := hcor h'
    have hxr := hv.range x (List.mem_of_getElem? hx)
    have hyr := hv.range y (List.mem_of_getElem? hy)
    have h0 := hf j x.1 y.1 (hget hx) (hget hy)
    rw [(compute_ends hxr integrate).2, (compute_ends hyr integrate).1, hπ, hπ] at h0
    rw [(compute_ends (hrange h) integrate).2, (compute_ends (hrange h') integrate).1, hπ, hπ, hL.2.1, hL'.2.1]
    have hd : ∀ d < m, (s'.velocity 1 - x.1.velocity 1) d = (t'.velocity 0 - y.1.velocity 0) d := by
      intro d hd
      have := (hsm.mid j _ _ (by rw [hV, h]; rfl) (by rw [hV, h']; rfl) d hd).1
      rw [(hvel _ _ (hrange h) d).2, (hvel _ _ (hrange h') d).1] at this
      rw [show unroll l (j + 1) d = unroll l j d + ((l[j]?.map fun x => x.1.velocity 1 d).getD 0 -
        (l[j + 1]?.map fun x => x.1.velocity 0 d).getD 0) from rfl, hx, hy] at this
      simp only [Option.map_some, Option.getD_some] at this
      simp only [Pi.sub_apply]
      linarith
    have hp := hπeq _ _ hd
    rw [map_sub, map_sub] at hp
    have e1 : π (s'.velocity 1) = π (x.1.velocity 1) + (π (t'.velocity 0) - π (y.1.velocity 0)) := by rw [← hp]; abel
    rw [e1, ← add_assoc, h0]
    abel
  · intro j s' t' h h' d hd k h1 hk
    exact (hsm.mid j _ _ (by rw [hV, h]; rfl) (by rw [hV, h']; rfl) d hd).2 k h1 hk
  · intro s' h d hd k h1 hk
    exact hsm.first _ (hheadV h) d hd k h1 hk
  · intro s' h d hd k h1 hk
    exact hsm.last _ (hlastV h) d hd k h1 hk
  · intro s' t h h'
    obtain ⟨x, hx, hL⟩ := hcor (head_get h)
    have ht : t = x.1 := by
      have := head_get h'
      rw [hget hx] at this
      exact (Option.some.inj this).symm
    subst ht
    have hxr := hv.range x (List.mem_of_getElem? hx)
    rw [(compute_ends (hrange (head_get h)) integrate).1, (compute_ends hxr integrate).1, hL.2.1, hπ, hπ]
    congr 1
    refine hπeq _ _ fun d hd => ?_
    have := hse.first _ (reb (unroll l 0) x.1) (hheadV h) (by rw [List.head?_eq_getElem?, List.getElem?_map, hU, hx]; rfl) d hd
    rw [(hvel _ _ (hrange (head_get h)) d).1, (hvel _ _ hxr d).1] at this
    linarith
  · intro s' t h h'
    have hl := h
    rw [List.getLast?_eq_getElem?] at hl
    obtain ⟨x, hx, hL⟩ := hcor hl
    have ht : t = x.1 := by
      rw [List.getLast?_eq_getElem?, List.length_map, ← hlen, hget hx] at h'
      exact (Option.some.inj h').symm
    subst ht
    have hxr := hv.range x (List.mem_of_getElem? hx)
    rw [(compute_ends (hrange hl) integrate).2, (compute_ends hxr integrate).2, hL.2.1, hπ, hπ]
    congr 1
    refine hπeq _ _ fun d hd => ?_
    have := hse.last _ (reb (unroll l (l.length - 1)) x.1) (hlastV h)
      (by rw [List.getLast?_eq_getElem?, List.length_map, hlenU, List.getElem?_map, hU, ← hlen, hx]; rfl) d hd
    rw [(hvel _ _ (hrange hl) d).2, (hvel _ _ hxr d).2] at this
    linarith

/-! ## Other groups -/

/-- Control points of a spline of degree `2 h + 1` with null derivatives at both ends (C90). -/
def ramp (h : ℕ) (x y : ℕ → ℝ) (i d : ℕ) : ℝ := if i ≤ h then x d else y d

theorem ramp_zero (h k : ℕ) (hk : k ≤ h) (x y : ℕ → ℝ) (d : ℕ) :
    ∑ i ∈ Finset.range (2 * h + 1 + 1), ramp h x y i d * basis (2 * h + 1) k 0 i = if k = 0 then x d else 0 := by
  have : ∀ i ∈ Finset.range (2 * h + 1 + 1), ramp h x y i d * basis (2 * h + 1) k 0 i = x d * basis (2 * h + 1) k 0 i := by
    intro i hi
    have hi := Finset.mem_range.1 hi
    unfold ramp
    split_ifs with hh
    · rfl
    · rw [basis_at0 (by omega) (by omega), mul_zero, mul_zero]
  rw [Finset.sum_congr rfl this, ← Finset.mul_sum, sum_basis]
  split_ifs <;> simp

theorem ramp_one (h k : ℕ) (hk : k ≤ h) (x y : ℕ → ℝ) (d : ℕ) :
    ∑ i ∈ Finset.range (2 * h + 1 + 1), ramp h x y i d * basis (2 * h + 1) k 1 i = if k = 0 then y d else 0 := by
  have : ∀ i ∈ Finset.range (2 * h + 1 + 1), ramp h x y i d * basis (2 * h + 1) k 1 i = y d * basis (2 * h + 1) k 1 i := by
    intro i hi
    unfold ramp
    split_ifs with hh
    · rw [basis_at1 (by omega), mul_zero, mul_zero]
    · rfl
  rw [Finset.sum_congr rfl this, ← Finset.mul_sum, sum_basis]
  split_ifs <;> simp

/-- The spline. -/
def rampS (h : ℕ) (b : Q) (x y : ℕ → ℝ) (T : ℝ) : Spl Q := ⟨2 * h + 1, b, ramp h x y, 0, T⟩

theorem rampS_der {h : ℕ} (b : Q) (x y : ℕ → ℝ) {T : ℝ} (hT : 0 < T) {k : ℕ} (hk : k ≤ h) (d : ℕ) :
    (rampS h b x y T).derivative 0 k d = some (if k = 0 then x d else 0) ∧ (rampS h b x y T).derivative T k d = some (if k = 0 then y d else 0) := by
  have key : ∀ u, ∑ i ∈ Finset.range (2 * h + 1 + 1), ramp h x y i d * (basis (2 * h + 1) k u i / (T - 0) ^ k) =
      (∑ i ∈ Finset.range (2 * h + 1 + 1), ramp h x y i d * basis (2 * h + 1) k u i) / (T - 0) ^ k := by
    intro u
    rw [Finset.sum_div]
    exact Finset.sum_congr rfl fun i _ => by ring
  unfold Spl.derivative rampS
  simp only
  rw [if_neg (by rw [sub_zero]; exact hT.ne'), if_neg (by omega), key, key,
    sub_self, zero_div, div_self (by rw [sub_zero]; exact hT.ne'), ramp_zero h k hk, ramp_one h k hk]
  by_cases h0 : k = 0
  · subst h0; simp; exact fun h => absurd h hT.ne'
  · simp [h0]; intro _; omega

theorem rampS_ends {h : ℕ} (b : Q) (x y : ℕ → ℝ) {T : ℝ} (hT : 0 < T) (integrate : Q → (ℕ → ℝ) → Q) :
    (rampS h b x y T).compute integrate 0 = integrate b x ∧ (rampS h b x y T).compute integrate T = integrate b y := by
  obtain ⟨h1, h2⟩ := compute_ends (s := rampS h b x y T) hT integrate
  have e0 : (rampS h b x y T).velocity 0 = x := by
    funext d
    have := ramp_zero h 0 (Nat.zero_le _) x y d
    rwa [if_pos rfl] at this
  have e1 : (rampS h b x y T).velocity 1 = y := by
    funext d
    have := ramp_one h 0 (Nat.zero_le _) x y d
    rwa [if_pos rfl] at this
  rw [e0] at h1
  rw [e1] at h2
  exact ⟨h1, h2⟩

/-- Two splines as made by the steering method (C90_straight) from `q0` to `q1` and from there on, with the tangent vectors `v` and `w`. -/
def inputTwo (h m : ℕ) (q0 q1 : Q) (v w : ℕ → ℝ) (T T' : ℝ) : List (Spl Q × List ℕ) :=
  [(rampS h q0 0 v T, List.range m), (rampS h q1 0 w T', List.range m)]

/-- The same splines with the junction moved by `u`. -/
def movedTwo (h : ℕ) (q0 q1 : Q) (v w u : ℕ → ℝ) (T T' : ℝ) : List (Spl Q) := [rampS h q0 0 (v + u) T, rampS h q1 u w T']

/-- C89: in any configuration space with an integration, for two splines of any degree made by the steering method, which follow each other: the splines
with the junction moved by `u` satisfy the equality constraints and have the same ends; they follow each other if and only if the integration of
`v + u` from `q0` is the integration of `v` from `q0`, then of `u`. -/
theorem C89_junction (h m : ℕ) (integrate : Q → (ℕ → ℝ) → Q) (hz : ∀ q, integrate q 0 = q) (q0 q1 : Q) (v w u : ℕ → ℝ) (T T' : ℝ) (hT : 0 < T) (hT' : 0 < T')
    (hq : integrate q0 v = q1) :
    Valid m (2 * h + 1) (inputTwo h m q0 q1 v w T T') ∧
    Follow integrate ((inputTwo h m q0 q1 v w T T').map Prod.fst) ∧
    SmoothDer m h ((inputTwo h m q0 q1 v w T T').map Prod.fst) ∧
    List.Forall₂ Like (movedTwo h q0 q1 v w u T T') ((inputTwo h m q0 q1 v w T T').map Prod.fst) ∧
    Sat m (2 * h + 1 + 1) (equalities m (2 * h + 1) h (inputTwo h m q0 q1 v w T T')) (movedTwo h q0 q1 v w u T T') ∧
    SmoothDer m h (movedTwo h q0 q1 v w u T T') ∧
    SameEndsQ integrate (movedTwo h q0 q1 v w u T T') ((inputTwo h m q0 q1 v w T T').map Prod.fst) ∧
    (Follow integrate (movedTwo h q0 q1 v w u T T') ↔ integrate q0 (v + u) = integrate (integrate q0 v) u) := by
  have hfol : ∀ (x y x' y' : ℕ → ℝ), Follow integrate [rampS h q0 x y T, rampS h q1 x' y' T'] ↔ integrate q0 y = integrate q1 x' := by
    intro x y x' y'
    constructor
    · intro hf
      have := hf 0 _ _ rfl rfl
      rwa [show (rampS h q0 x y T).s1 = T from rfl, show (rampS h q1 x' y' T').s0 = 0 from rfl, (rampS_ends _ _ _ hT _).2, (rampS_ends _ _ _ hT' _).1] at this
    · intro he j s t hs ht
      cases j with
      | succ j => simp at ht
      | zero =>
        simp only [List.getElem?_cons_zero, Option.some.injEq] at hs
        simp only [zero_add, List.getElem?_cons_succ, List.getElem?_cons_zero, Option.some.injEq] at ht
        subst hs; subst ht
        rw [show (rampS h q0 x y T).s1 = T from rfl, show (rampS h q1 x' y' T').s0 = 0 from rfl, (rampS_ends _ _ _ hT _).2, (rampS_ends _ _ _ hT' _).1]
        exact he
  have hsm : ∀ (x y x' y' : ℕ → ℝ), SmoothDer m h [rampS h q0 x y T, rampS h q1 x' y' T'] := by
    intro x y x' y'
    refine ⟨fun j s t hs ht d _ k h1 hk => ?_, fun s hs d _ k h1 hk => ?_, fun s hs d _ k h1 hk => ?_⟩
    · cases j with
      | succ j => simp at ht
      | zero =>
        simp only [List.getElem?_cons_zero, Option.some.injEq] at hs
        simp only [zero_add, List.getElem?_cons_succ, List.getElem?_cons_zero, Option.some.injEq] at ht
        subst hs; subst ht
        have h2 := (rampS_der q0 x y hT hk d).2
        have h3 := (rampS_der q1 x' y' hT' hk d).1
        rw [if_neg (by omega)] at h2 h3
        exact h2.trans h3.symm
    · cases hs
      have h2 := (rampS_der q0 x y hT hk d).1
      rwa [if_neg (by omega)] at h2
    · cases hs
      have h2 := (rampS_der q1 x' y' hT' hk d).2
      rwa [if_neg (by omega)] at h2
  refine ⟨⟨?_, ?_, ?_⟩, ?_, hsm _ _ _ _, ?_, ?_, hsm _ _ _ _, ⟨?_, ?_⟩, ?_⟩
  · intro x hx
    simp only [inputTwo, List.mem_cons, List.not_mem_nil, or_false] at hx
    rcases hx with rfl | rfl <;> rfl
  · intro x hx
    simp only [inputTwo, List.mem_cons, List.not_mem_nil, or_false] at hx
    rcases hx with rfl | rfl
    · exact hT
    · exact hT'
  · intro x hx d hd
    simp only [inputTwo, List.mem_cons, List.not_mem_nil, or_false] at hx
    rcases hx with rfl | rfl <;> exact List.mem_range.1 hd
  · exact (hfol _ _ _ _).2 (by rw [hq, hz])
  · exact .cons ⟨rfl, rfl, rfl, rfl⟩ (.cons ⟨rfl, rfl, rfl, rfl⟩ .nil)
  · -- the constraints
    have hbf : ∀ (q : Q) (x y : ℕ → ℝ) (T : ℝ), 0 < T → ∀ (p : ℕ → ℝ) (k : ℕ) (uu : ℝ),
        ∑ i ∈ Finset.range (2 * h + 1 + 1), p i * bf (rampS h q x y T) k uu i =
          (∑ i ∈ Finset.range (2 * h + 1 + 1), p i * basis (2 * h + 1) k uu i) / T ^ k := by
      intro q x y T hT p k uu
      rw [Finset.sum_div]
      refine Finset.sum_congr rfl fun i _ => ?_
      unfold bf
      rw [show (rampS h q x y T).s1 - (rampS h q x y T).s0 = T from sub_zero T, if_neg hT.ne']
      show p i * (basis (2 * h + 1) k uu i / T ^ k) = _
      ring
    intro r hr
    unfold movedTwo
    rcases List.mem_append.1 hr with hr | hr
    · exfalso
      obtain ⟨j, s, a, k, d, h1, h2, h3, rfl⟩ := problemRows_mem hr
      simp only [inputTwo, problemRows, fixRows] at hr
      simp at hr
      rcases hr with ⟨_, _, _, ⟨hh, hh'⟩, _⟩ | ⟨_, _, _, ⟨hh, hh'⟩, _⟩ <;> omega
    · obtain ⟨k, hk, hr⟩ := List.mem_flatMap.1 hr
      have hk : k ≤ h := by have := List.mem_range.1 hk; omega
      unfold orderRows at hr
      simp only [inputTwo, List.head?_cons, List.getLast?_cons_cons, List.getLast?_singleton, List.length_cons, List.length_nil] at hr
      rcases List.mem_append.1 hr with hr | hr
      · rcases List.mem_append.1 hr with hr | hr
        · obtain ⟨d, hd, rfl⟩ := List.mem_map.1 hr
          have hd := List.mem_range.1 hd
          rw [contRow_start (s' := rampS h q0 0 (v + u) T) rfl hd, hbf _ _ _ _ hT, hbf _ _ _ _ hT]
          show (∑ i ∈ _, ramp h 0 (v + u) i d * _) / _ = if _ then (∑ i ∈ _, ramp h 0 v i d * _) / _ else 0
          rw [ramp_zero h k hk, ramp_zero h k hk]
          by_cases h0 : k = 0 <;> simp [h0]
        · simp only [midRows, List.append_nil] at hr
          obtain ⟨d, hd, rfl⟩ := List.mem_map.1 hr
          have hd := (mem_union.1 hd).1
          have hrow := contRow_mid (m := m) (nb := 2 * h + 1 + 1) (j := 0) (splines := [rampS h q0 0 (v + u) T, rampS h q1 u w T'])
            (s := rampS h q0 0 v T) (t := rampS h q1 0 w T') rfl rfl hd (bf (rampS h q0 0 v T) k 1)
            (bf (rampS h q1 0 w T') k 0) (k == 0)
          rw [zero_mul] at hrow
          rw [hrow, hbf _ _ _ _ hT, hbf _ _ _ _ hT', hbf _ _ _ _ hT, hbf _ _ _ _ hT']
          show (∑ i ∈ _, ramp h u w i d * _) / _ - (∑ i ∈ _, ramp h 0 (v + u) i d * _) / _ =
            if _ then (∑ i ∈ _, ramp h 0 w i d * _) / _ - (∑ i ∈ _, ramp h 0 v i d * _) / _ else 0
          rw [ramp_zero h k hk, ramp_zero h k hk, ramp_one h k hk, ramp_one h k hk]
          by_cases h0 : k = 0 <;> simp [h0]
      · obtain ⟨d, hd, rfl⟩ := List.mem_map.1 hr
        have hd := List.mem_range.1 hd
        rw [contRow_end (s' := rampS h q1 u w T') rfl hd, hbf _ _ _ _ hT', hbf _ _ _ _ hT']
        show (∑ i ∈ _, ramp h u w i d * _) / _ = if _ then (∑ i ∈ _, ramp h 0 w i d * _) / _ else 0
        rw [ramp_one h k hk, ramp_one h k hk]
        by_cases h0 : k = 0 <;> simp [h0]
  · intro s t hs ht
    cases hs; cases ht
    exact (rampS_ends q0 0 (v + u) hT integrate).1.trans (rampS_ends q0 0 v hT integrate).1.symm
  · intro s t hs ht
    cases hs; cases ht
    exact (rampS_ends q1 u w hT' integrate).2.trans (rampS_ends q1 0 w hT' integrate).2.symm
  · rw [hq]
    exact hfol _ _ _ _

/-! ## Rotations of space -/

open scoped Quaternion

/-- Norm of the tangent vector of a ball joint. -/
noncomputable def ang (v : ℕ → ℝ) : ℝ := √(v 0 ^ 2 + v 1 ^ 2 + v 2 ^ 2)

/-- Exponential of `so(3)` as a quaternion, the representation of rotations in configurations. -/
noncomputable def expQ (v : ℕ → ℝ) : ℍ[ℝ] :=
  let c := if ang v = 0 then 1 / 2 else Real.sin (ang v / 2) / ang v
  ⟨Real.cos (ang v / 2), c * v 0, c * v 1, c * v 2⟩

/-- Integration in `SO(3)`. -/
noncomputable def integrateSO3 (q : ℍ[ℝ]) (v : ℕ → ℝ) : ℍ[ℝ] := q * expQ v

theorem integrateSO3_zero (q : ℍ[ℝ]) : integrateSO3 q 0 = q := by
  have : expQ 0 = 1 := by
    have h0 : ang 0 = 0 := by simp [ang]
    unfold expQ
    rw [h0]
    ext <;> simp
  unfold integrateSO3
  rw [this, mul_one]

/-- Quarter turns about the first and about the second axis. -/
noncomputable def turn1 : ℕ → ℝ := fun d => if d = 0 then Real.pi / 2 else 0
noncomputable def turn2 : ℕ → ℝ := fun d => if d = 1 then Real.pi / 2 else 0

theorem expQ_turn1 : expQ turn1 = ⟨√2 / 2, √2 / 2, 0, 0⟩ := by
  have h0 : ang turn1 = Real.pi / 2 := by
    unfold ang turn1
    simp only [if_true, one_ne_zero, if_false, OfNat.ofNat_ne_zero, ne_eq, not_false_eq_true, zero_pow, add_zero]
    exact Real.sqrt_sq (by positivity)
  have hp : Real.pi / 2 ≠ 0 := by positivity
  unfold expQ
  simp only [h0, if_neg hp]
  rw [show Real.pi / 2 / 2 = Real.pi / 4 by ring, Real.cos_pi_div_four, Real.sin_pi_div_four]
  ext
  · rfl
  · show √2 / 2 / (Real.pi / 2) * turn1 0 = √2 / 2
    simp only [turn1, if_true]
    field_simp
  · show _ * turn1 1 = 0
    simp [turn1]
  · show _ * turn1 2 = 0
    simp [turn1]

theorem expQ_turn2 : expQ turn2 = ⟨√2 / 2, 0, √2 / 2, 0⟩ := by
  have h0 : ang turn2 = Real.pi / 2 := by
    unfold ang turn2
    simp only [if_true, zero_ne_one, if_false, OfNat.ofNat_ne_one, ne_eq, OfNat.ofNat_ne_zero, not_false_eq_true, zero_pow, add_zero, zero_add]
    exact Real.sqrt_sq (by positivity)
  have hp : Real.pi / 2 ≠ 0 := by positivity
  unfold expQ
  simp only [h0, if_neg hp]
  rw [show Real.pi / 2 / 2 = Real.pi / 4 by ring, Real.cos_pi_div_four, Real.sin_pi_div_four]
  ext
  · rfl
  · show _ * turn2 0 = 0
    simp [turn2]
  · show √2 / 2 / (Real.pi / 2) * turn2 1 = √2 / 2
    simp only [turn2, if_true]
    field_simp
  · show _ * turn2 2 = 0
    simp [turn2]

theorem expQ_both : (expQ (turn1 + turn2)).imK = 0 := by
  show _ * (turn1 + turn2) 2 = 0
  simp [turn1, turn2]

theorem mul_turns : (expQ turn1 * expQ turn2).imK = 1 / 2 := by
  have h2 : √2 * √2 = (2 : ℝ) := Real.mul_self_sqrt (by norm_num)
  rw [Quaternion.imK_mul, expQ_turn1, expQ_turn2]
  show √2 / 2 * 0 + √2 / 2 * (√2 / 2) - 0 * 0 + 0 * (√2 / 2) = 1 / 2
  nlinarith

/-- C89: for a ball joint (or the rotation of a free-flying base) and splines of any degree, there are two pieces that follow each other and other pieces
that satisfy all the equality constraints of the optimizer, with the same ends and the same derivatives, and do not follow each other: the orientation
jumps at the junction, from a quaternion to one that is neither the same nor the opposite one. -/
theorem C89_rotation_counterexample (h : ℕ) : ∃ (l : List (Spl ℍ[ℝ] × List ℕ)) (out : List (Spl ℍ[ℝ])),
    Valid 3 (2 * h + 1) l ∧ Follow integrateSO3 (l.map Prod.fst) ∧ SmoothDer 3 h (l.map Prod.fst) ∧ List.Forall₂ Like out (l.map Prod.fst) ∧
    Sat 3 (2 * h + 1 + 1) (equalities 3 (2 * h + 1) h l) out ∧ SameEndsQ integrateSO3 out (l.map Prod.fst) ∧
    ∃ s t, out = [s, t] ∧ s.compute integrateSO3 s.s1 ≠ t.compute integrateSO3 t.s0 ∧ s.compute integrateSO3 s.s1 ≠ -t.compute integrateSO3 t.s0 := by
  obtain ⟨h1, h2, h3, h4, h5, -, h6, -⟩ := C89_junction h 3 integrateSO3 integrateSO3_zero 1 (integrateSO3 1 turn1) turn1 0 turn2 1 1 one_pos one_pos rfl
  refine ⟨_, _, h1, h2, h3, h4, h5, h6, _, _, rfl, ?_⟩
  have e1 : (rampS h (1 : ℍ[ℝ]) 0 (turn1 + turn2) 1).compute integrateSO3 (rampS h (1 : ℍ[ℝ]) 0 (turn1 + turn2) 1).s1 = expQ (turn1 + turn2) :=
    (rampS_ends _ _ _ one_pos _).2.trans (one_mul _)
  have e2 : (rampS h (integrateSO3 1 turn1) turn2 0 1).compute integrateSO3 (rampS h (integrateSO3 1 turn1) turn2 0 1).s0 = expQ turn1 * expQ turn2 := by
    refine (rampS_ends _ _ _ one_pos _).1.trans ?_
    unfold integrateSO3
    rw [one_mul]
  rw [e1, e2]
  constructor
  · intro he
    have := congrArg QuaternionAlgebra.imK he
    rw [expQ_both, mul_turns] at this
    norm_num at this
  · intro he
    have := congrArg QuaternionAlgebra.imK he
    rw [Quaternion.imK_neg, expQ_both, mul_turns] at this
    norm_num at this

/-- Translations and rotations about one axis: the hypotheses of `C89_commutative` hold, for a robot with one of each. -/
example : Commutative (Q := ℝ × Real.Angle) 2 (fun b v => (b.1 + v 0, b.2 + ((v 1 : ℝ) : Real.Angle))) :=
  ⟨⟨{ toFun := fun v => (v 0, ((v 1 : ℝ) : Real.Angle)), map_zero' := Prod.ext rfl Real.Angle.coe_zero, map_add' := fun v w => Prod.ext rfl (Real.Angle.coe_add _ _) },
    fun b v => rfl, fun v hv => by simp [hv 0 (by norm_num), hv 1 (by norm_num)]⟩⟩

/-- A circle: a junction moved by a quarter of turn. -/
example : Follow (fun (b : Real.Angle) v => b + ((v 0 : ℝ) : Real.Angle))
    (movedTwo 1 0 ((Real.pi / 2 : ℝ) : Real.Angle) (fun _ => Real.pi / 2) (fun _ => 1) (fun _ => Real.pi / 4) 1 1) := by
  refine (C89_junction 1 1 (fun (b : Real.Angle) v => b + ((v 0 : ℝ) : Real.Angle)) (by simp) 0 _ (fun _ => Real.pi / 2) (fun _ => 1)
    (fun _ => Real.pi / 4) 1 1 one_pos one_pos (by simp)).2.2.2.2.2.2.2.2 ?_
  simp

end Verif.SplineOpt
