import Verif.Sampling.Shooter
set_option linter.unusedSectionVars false

/-!
# Gaussian configuration shooter (C103)

The configuration space of a joint is a Lie group; the exponential map of the whole robot (`integrate`) and the saturation are external
functions.
-/
namespace Verif.Sampling
open Verif.Validation

/-! ## Standard deviations -/

/-- Lie group of a joint: vector space, rotations of the plane or of space, and products. The groups `SE(n)` are the product of a vector
space and of rotations: src/configuration-shooter/gaussian.cc:55-64. -/
inductive LG | vec (n : ℕ) | so2 | so3 | prod (a b : LG)

/-- `SE(2)`: gaussian.cc:55-64. -/
def LG.se2 : LG := .prod (.vec 2) .so2
/-- `SE(3)`: gaussian.cc:55-64. -/
def LG.se3 : LG := .prod (.vec 3) .so3

/-- Number of configuration variables (`NQ` of the operations of hpp-pinocchio). -/
def LG.nq : LG → ℕ
  | .vec n => n
  | .so2 => 2
  | .so3 => 4
  | .prod a b => a.nq + b.nq

/-- Number of degrees of freedom (`NV`). -/
def LG.nv : LG → ℕ
  | .vec n => n
  | .so2 => 1
  | .so3 => 3
  | .prod a b => a.nv + b.nv

open Classical in
/-- A coordinate of a vector space: gaussian.cc:73-77. -/
noncomputable def vecSigma (u l : EReal) : ℝ :=
  if (u ≠ ⊤ ∧ u ≠ ⊥) ∧ (l ≠ ⊤ ∧ l ≠ ⊥) then u.toReal - l.toReal else 1

/-- `computeSigmasAlgo`: gaussian.cc:44-88. The bounds are the part of the vectors of limits of the joint. -/
noncomputable def sigmasAlgo : LG → List EReal → List EReal → List ℝ
  | .vec _, u, l => List.zipWith vecSigma u l
  | .so2, _, _ => List.replicate 1 (2 * Real.pi / Real.sqrt 2)
  | .so3, _, _ => List.replicate 3 (2 * Real.pi / Real.sqrt 3)
  | .prod a b, u, l => sigmasAlgo a (u.take a.nq) (l.take a.nq) ++ sigmasAlgo b (u.drop (u.length - b.nq)) (l.drop (l.length - b.nq))

/-- Loop over the joints in `Gaussian::sigma`: gaussian.cc:124-126; the joints select consecutive parts of the vectors of limits. -/
noncomputable def jointSigmas : List LG → List EReal → List EReal → List ℝ
  | [], _, _ => []
  | g :: gs, u, l => sigmasAlgo g (u.take g.nq) (l.take g.nq) ++ jointSigmas gs (u.drop g.nq) (l.drop g.nq)

/-- Specification: what the degrees of freedom of a group are, in order: translations along the configuration variable of given rank, or
rotations of the space of given dimension. -/
def LG.dofs : LG → ℕ → List (ℕ ⊕ ℕ)
  | .vec n, r => (List.range n).map fun i => .inl (r + i)
  | .so2, _ => [.inr 2]
  | .so3, _ => [.inr 3, .inr 3, .inr 3]
  | .prod a b, r => a.dofs r ++ b.dofs (r + a.nq)

/-- Degrees of freedom of a list of joints. -/
def allDofs : List LG → ℕ → List (ℕ ⊕ ℕ)
  | [], _ => []
  | g :: gs, r => g.dofs r ++ allDofs gs (r + g.nq)

open Classical in
/-- Specification of the default standard deviation of a degree of freedom: the width of its interval if it is finite and 1 otherwise for a
translation, `2π / √n` for a rotation. -/
noncomputable def stdDefault (u l : List EReal) : ℕ ⊕ ℕ → ℝ
  | .inl r => if h : ∃ a b : ℝ, u[r]? = some (b : EReal) ∧ l[r]? = some (a : EReal) then h.choose_spec.choose - h.choose else 1
  | .inr n => 2 * Real.pi / Real.sqrt n

theorem stdDefault_inl (u l : List EReal) (r : ℕ) (a b : EReal) (hu : u[r]? = some b) (hl : l[r]? = some a) :
    stdDefault u l (.inl r) = vecSigma b a := by
  unfold stdDefault vecSigma
  by_cases h : ∃ x y : ℝ, u[r]? = some (y : EReal) ∧ l[r]? = some (x : EReal)
  · simp only [dif_pos h]
    have h1 := h.choose_spec.choose_spec
    have e1 := Option.some.inj (hu.symm.trans h1.1)
    have e2 := Option.some.inj (hl.symm.trans h1.2)
    rw [if_pos (by rw [e1, e2]; simp)]
    conv_rhs => rw [e1, e2]
    rw [EReal.toReal_coe, EReal.toReal_coe]
  · simp only [dif_neg h]
    rw [if_neg]
    rintro ⟨⟨h1, h2⟩, h3, h4⟩
    exact h ⟨a.toReal, b.toReal, by rw [hu, EReal.coe_toReal h1 h2], by rw [hl, EReal.coe_toReal h3 h4]⟩

theorem zipWith_vec (n : ℕ) (u l : List EReal) (hu : u.length = n) (hl : l.length = n) (U L : List EReal) (r : ℕ)
    (hU : ∀ i < n, U[r + i]? = u[i]?) (hL : ∀ i < n, L[r + i]? = l[i]?) :
    List.zipWith vecSigma u l = ((List.range n).map fun i => (Sum.inl (r + i) : ℕ ⊕ ℕ)).map (stdDefault U L) := by
  apply List.ext_getElem
  · simp [hu, hl]
  · intro i h1 h2
    have hi : i < n := by simpa using h2
    have hiu : i < u.length := by omega
    have hil : i < l.length := by omega
    simp only [List.getElem_zipWith, List.getElem_map, List.getElem_range]
    rw [stdDefault_inl U L (r + i) l[i] u[i] (by rw [hU i hi, List.getElem?_eq_getElem hiu])
      (by rw [hL i hi, List.getElem?_eq_getElem hil])]

theorem sigmasAlgo_spec (g : LG) (u l : List EReal) (hu : u.length = g.nq) (hl : l.length = g.nq) (U L : List EReal) (r : ℕ)
    (hU : ∀ i < g.nq, U[r + i]? = u[i]?) (hL : ∀ i < g.nq, L[r + i]? = l[i]?) :
    sigmasAlgo g u l = (g.dofs r).map (stdDefault U L) := by
  induction g generalizing u l r with
  | vec n => exact zipWith_vec n u l hu hl U L r hU hL
  | so2 => simp [sigmasAlgo, LG.dofs, stdDefault]
  | so3 => simp [sigmasAlgo, LG.dofs, stdDefault, List.replicate]
  | prod a b iha ihb =>
    simp only [LG.nq] at hu hl hU hL
    simp only [sigmasAlgo, LG.dofs, List.map_append]
    have e1 : u.length - b.nq = a.nq := by omega
    have e2 : l.length - b.nq = a.nq := by omega
    rw [e1, e2]
    rw [iha (u.take a.nq) (l.take a.nq) (by simp; omega) (by simp; omega) r
      (fun i hi => by rw [hU i (by omega), List.getElem?_take_of_lt hi]) (fun i hi => by rw [hL i (by omega), List.getElem?_take_of_lt hi])]
    rw [ihb (u.drop a.nq) (l.drop a.nq) (by simp; omega) (by simp; omega) (r + a.nq)
      (fun i hi => by rw [List.getElem?_drop, add_assoc, hU (a.nq + i) (by omega)])
      (fun i hi => by rw [List.getElem?_drop, add_assoc, hL (a.nq + i) (by omega)])]

/-- Number of configuration variables of a list of joints. -/
def nqs (gs : List LG) : ℕ := (gs.map LG.nq).sum
/-- Number of degrees of freedom of a list of joints. -/
def nvs (gs : List LG) : ℕ := (gs.map LG.nv).sum

theorem jointSigmas_spec_aux (gs : List LG) (u l : List EReal) (hu : u.length = nqs gs) (hl : l.length = nqs gs) (U L : List EReal) (r : ℕ)
    (hU : ∀ i < nqs gs, U[r + i]? = u[i]?) (hL : ∀ i < nqs gs, L[r + i]? = l[i]?) :
    jointSigmas gs u l = (allDofs gs r).map (stdDefault U L) := by
  induction gs generalizing u l r with
  | nil => rfl
  | cons g gs ih =>
    have e : nqs (g :: gs) = g.nq + nqs gs := by simp [nqs]
    rw [e] at hu hl hU hL
    simp only [jointSigmas, allDofs, List.map_append]
    rw [sigmasAlgo_spec g (u.take g.nq) (l.take g.nq) (by simp; omega) (by simp; omega) U L r
      (fun i hi => by rw [hU i (by omega), List.getElem?_take_of_lt hi]) (fun i hi => by rw [hL i (by omega), List.getElem?_take_of_lt hi])]
    rw [ih (u.drop g.nq) (l.drop g.nq) (by simp; omega) (by simp; omega) (r + g.nq)
      (fun i hi => by rw [List.getElem?_drop, add_assoc, hU (g.nq + i) (by omega)])
      (fun i hi => by rw [List.getElem?_drop, add_assoc, hL (g.nq + i) (by omega)])]

/-- The standard deviations of the joints are the default ones, degree of freedom by degree of freedom. -/
theorem jointSigmas_spec (gs : List LG) (u l : List EReal) (hu : u.length = nqs gs) (hl : l.length = nqs gs) :
    jointSigmas gs u l = (allDofs gs 0).map (stdDefault u l) :=
  jointSigmas_spec_aux gs u l hu hl u l 0 (by simp) (by simp)

theorem dofs_length (g : LG) (r : ℕ) : (g.dofs r).length = g.nv := by
  induction g generalizing r with
  | vec n => simp [LG.dofs, LG.nv]
  | so2 => rfl
  | so3 => rfl
  | prod a b iha ihb => simp [LG.dofs, LG.nv, iha, ihb]

theorem allDofs_length (gs : List LG) (r : ℕ) : (allDofs gs r).length = nvs gs := by
  induction gs generalizing r with
  | nil => rfl
  | cons g gs ih => simp [allDofs, nvs, dofs_length, ih]

/-! ## The shooter -/

/-- A robot: groups of its joints, limits of the joints, number of extra degrees of freedom and their bounds, current configuration and
velocity. -/
structure Robot where
  joints : List LG
  lo : List EReal
  up : List EReal
  elo : List EReal
  eup : List EReal
  current : List EReal

/-- Sizes agree. -/
structure Robot.Ok (b : Robot) : Prop where
  lo : b.lo.length = nqs b.joints
  up : b.up.length = nqs b.joints
  extra : b.elo.length = b.eup.length
  current : b.current.length = nqs b.joints + b.elo.length

/-- A shooter: center and standard deviations; `none`: a coefficient that was never written. -/
structure Gauss where
  center : List EReal
  sigmas : List (Option ℝ)

/-- `Gaussian::sigma`: gaussian.cc:120-129. Only the degrees of freedom of the joints are written, then the whole vector is multiplied. -/
noncomputable def Gauss.setSigma (b : Robot) (f : ℝ) (s : Gauss) : Gauss :=
  ⟨s.center, ((jointSigmas b.joints b.up b.lo).map some ++ s.sigmas.drop (nvs b.joints)).map (Option.map (· * f))⟩

/-- Constructor of `Gaussian`: include/hpp/core/configuration-shooter/gaussian.hh:82-87. The vector of standard deviations is allocated and
not initialized. -/
noncomputable def Gauss.create (b : Robot) : Gauss :=
  Gauss.setSigma b (1 / 4) ⟨b.current, List.replicate (nvs b.joints + b.elo.length) none⟩

/-- Methods of the shooter that change it: gaussian.hh:57, 69, 71-74. -/
inductive Op | center (c : List EReal) | sigma (f : ℝ) | sigmas (s : List ℝ)

/-- One call. -/
noncomputable def Gauss.step (b : Robot) (s : Gauss) : Op → Gauss
  | .center c => ⟨c, s.sigmas⟩
  | .sigma f => s.setSigma b f
  | .sigmas l => ⟨s.center, l.map some⟩

/-- A history of calls. -/
noncomputable def Gauss.run (b : Robot) (ops : List Op) : Gauss := ops.foldl (Gauss.step b) (Gauss.create b)

/-- The external functions: `integrate` (center, velocity) and `saturate`. -/
structure Ext where
  integrate : List EReal → List ℝ → List EReal
  saturate : List EReal → List EReal

/-- Contract of `hpp::pinocchio::saturate`: the result is within the bounds. -/
def Ext.Ok (b : Robot) (x : Ext) : Prop :=
  ∀ q, ∃ q1 q2, x.saturate q = q1 ++ q2 ∧ q1.length = b.lo.length ∧ q2.length = b.elo.length ∧ Within b.lo b.up q1 ∧ Within b.elo b.eup q2

open Classical in
/-- `Gaussian::impl_shoot`: gaussian.cc:102-118. `noise k σ`: value drawn for degree of freedom `k` with standard deviation `σ`.
`normal_distribution` requires a nonnegative standard deviation. The vector integrated is the attribute `center_`, not the local variable
`center`; an empty one is out of range accesses. -/
noncomputable def Gauss.shoot (b : Robot) (x : Ext) (noise : ℕ → ℝ → ℝ) (s : Gauss) : Res :=
  if s.sigmas.length = nvs b.joints + b.elo.length ∧ (∀ o ∈ s.sigmas, ∃ v, o = some v ∧ 0 ≤ v) then
    if s.center.length = nqs b.joints + b.elo.length then
      .ok ((x.saturate (x.integrate s.center (s.sigmas.mapIdx fun k o => noise k (o.getD 0)))).map some)
    else .ub
  else .ub

/-- Specification: center after a history. -/
def lastCenter (b : Robot) : List Op → List EReal
  | [] => b.current
  | .center c :: _ => c
  | _ :: ops => lastCenter b ops

/-- Specification: standard deviation of degree of freedom `k` after a history given from the last call to the first one: that of the last
call. -/
noncomputable def lastSigma (b : Robot) (k : ℕ) : List Op → Option ℝ
  | [] => (allDofs b.joints 0)[k]?.map fun d => stdDefault b.up b.lo d / 4
  | .center _ :: ops => lastSigma b k ops
  | .sigma f :: _ => (allDofs b.joints 0)[k]?.map fun d => stdDefault b.up b.lo d * f
  | .sigmas l :: _ => l[k]?

theorem setSigma_get (b : Robot) (hb : b.Ok) (f : ℝ) (s : Gauss) (k : ℕ) (hk : k < nvs b.joints) :
    (s.setSigma b f).sigmas[k]? = ((allDofs b.joints 0)[k]?.map fun d => stdDefault b.up b.lo d * f).map some := by
  have hl : k < (allDofs b.joints 0).length := by rw [allDofs_length]; exact hk
  simp only [Gauss.setSigma, jointSigmas_spec b.joints b.up b.lo hb.up hb.lo]
  rw [List.getElem?_map, List.getElem?_append_left (by simpa using hl)]
  simp [List.getElem?_eq_getElem hl]

/-- C103: after any history, the center of the distribution is the last one given, and the standard deviation of a degree of freedom of a
joint is the one given by the last call: the default one times the factor (1/4 at creation), or the one given. -/
theorem C103_settings_partial (b : Robot) (hb : b.Ok) (ops : List Op) (hs : ∀ l, Op.sigmas l ∈ ops → l.length = nvs b.joints + b.elo.length) :
    (Gauss.run b ops).center = lastCenter b ops.reverse ∧
    (Gauss.run b ops).sigmas.length = nvs b.joints + b.elo.length ∧
    ∀ k < nvs b.joints, (Gauss.run b ops).sigmas[k]? = (lastSigma b k ops.reverse).map some := by
  have hlen : ∀ (f : ℝ) (s : Gauss), s.sigmas.length = nvs b.joints + b.elo.length →
      (s.setSigma b f).sigmas.length = nvs b.joints + b.elo.length := by
    intro f s h
    simp [Gauss.setSigma, jointSigmas_spec b.joints b.up b.lo hb.up hb.lo, allDofs_length, h]
  induction ops using List.reverseRecOn with
  | nil =>
    refine ⟨rfl, hlen _ _ (by simp), fun k hk => ?_⟩
    simp only [Gauss.run, List.foldl_nil, Gauss.create, List.reverse_nil, lastSigma]
    rw [setSigma_get b hb _ _ k hk]
    congr 2
    funext d
    ring
  | append_singleton ops op ih =>
    obtain ⟨h1, h2, h3⟩ := ih (fun l hl => hs l (List.mem_append_left _ hl))
    simp only [Gauss.run] at h1 h2 h3
    simp only [Gauss.run, List.foldl_append, List.foldl_cons, List.foldl_nil, List.reverse_append, List.reverse_cons, List.reverse_nil,
      List.nil_append, List.singleton_append]
    cases op with
    | center c => exact ⟨rfl, h2, h3⟩
    | sigma f => exact ⟨h1, hlen _ _ h2, fun k hk => setSigma_get b hb _ _ k hk⟩
    | sigmas l =>
      refine ⟨h1, ?_, fun k hk => ?_⟩
      · simpa [Gauss.step] using hs l (by simp)
      · simp [Gauss.step, lastSigma]

/-- C103: a configuration returned by the shooter passes the joint bound validation, whatever the history and the values drawn. -/
theorem C103_bounds (b : Robot) (x : Ext) (hx : x.Ok b) (noise : ℕ → ℝ → ℝ) (ops : List Op) (q : List Flt)
    (h : (Gauss.run b ops).shoot b x noise = .ok q) :
    ∃ xs : List EReal, q = xs.map some ∧ jointBound b.lo b.up b.elo b.eup xs = none := by
  unfold Gauss.shoot at h
  split at h
  · split at h
    · obtain rfl := Res.ok.inj h
      obtain ⟨q1, q2, e, h1, -, h2, h3⟩ := hx (x.integrate (Gauss.run b ops).center
        ((Gauss.run b ops).sigmas.mapIdx fun k o => noise k (o.getD 0)))
      exact ⟨_, rfl, by rw [e]; exact (C37_jointBound _ _ _ _ q1 q2 h1).2 ⟨h2, h3⟩⟩
    · cases h
  · cases h

/-- Specification of "limits in order": a limit which is finite on both sides is not reversed. -/
def Robot.Ordered (b : Robot) : Prop := ∀ (r : ℕ) (x y : ℝ), b.lo[r]? = some (x : EReal) → b.up[r]? = some (y : EReal) → x ≤ y

theorem stdDefault_nonneg (b : Robot) (ho : b.Ordered) (d : ℕ ⊕ ℕ) : 0 ≤ stdDefault b.up b.lo d := by
  cases d with
  | inl r =>
    unfold stdDefault
    by_cases h : ∃ x y : ℝ, b.up[r]? = some (y : EReal) ∧ b.lo[r]? = some (x : EReal)
    · simp only [dif_pos h]
      have h1 := h.choose_spec.choose_spec
      linarith [ho r _ _ h1.2 h1.1]
    · simp only [dif_neg h]; norm_num
  | inr n => unfold stdDefault; positivity

/-- C103: without extra degrees of freedom, a configuration is always returned if centers have the size of a configuration, factors and
deviations given are not negative and limits are in order. The deviations used are positive or zero. -/
theorem C103_returns_partial (b : Robot) (hb : b.Ok) (he : b.elo = []) (ho : b.Ordered) (x : Ext) (noise : ℕ → ℝ → ℝ) (ops : List Op)
    (hc : ∀ c, Op.center c ∈ ops → c.length = nqs b.joints) (hf : ∀ f, Op.sigma f ∈ ops → 0 ≤ f)
    (hs : ∀ l, Op.sigmas l ∈ ops → l.length = nvs b.joints ∧ ∀ v ∈ l, 0 ≤ v) :
    ∃ q, (Gauss.run b ops).shoot b x noise = .ok q := by
  obtain ⟨h1, h2, h3⟩ := C103_settings_partial b hb ops (fun l hl => by rw [(hs l hl).1, he]; rfl)
  have h4 : ∀ os : List Op, (∀ o ∈ os, o ∈ ops) → (lastCenter b os).length = nqs b.joints + b.elo.length := by
    intro os
    induction os with
    | nil => intro _; exact hb.current
    | cons o os ih =>
      intro ho'
      cases o with
      | center c => simpa [lastCenter, he] using hc c (ho' _ (by simp))
      | sigma f => exact ih (fun o h => ho' o (by simp [h]))
      | sigmas l => exact ih (fun o h => ho' o (by simp [h]))
  have h5 : ∀ os : List Op, (∀ o ∈ os, o ∈ ops) → ∀ k < nvs b.joints, ∃ v, lastSigma b k os = some v ∧ 0 ≤ v := by
    intro os
    induction os with
    | nil =>
      intro _ k hk
      have hl : k < (allDofs b.joints 0).length := by rw [allDofs_length]; exact hk
      refine ⟨stdDefault b.up b.lo (allDofs b.joints 0)[k] / 4, by simp [lastSigma, List.getElem?_eq_getElem hl], ?_⟩
      linarith [stdDefault_nonneg b ho (allDofs b.joints 0)[k]]
    | cons o os ih =>
      intro ho' k hk
      cases o with
      | center c => exact ih (fun o h => ho' o (by simp [h])) k hk
      | sigma f =>
        have hl : k < (allDofs b.joints 0).length := by rw [allDofs_length]; exact hk
        refine ⟨stdDefault b.up b.lo (allDofs b.joints 0)[k] * f, by simp [lastSigma, List.getElem?_eq_getElem hl], ?_⟩
        exact mul_nonneg (stdDefault_nonneg b ho _) (hf f (ho' _ (by simp)))
      | sigmas l =>
        obtain ⟨e1, e2⟩ := hs l (ho' _ (by simp))
        have hl : k < l.length := by omega
        exact ⟨l[k], by simp [lastSigma, List.getElem?_eq_getElem hl], e2 _ (List.getElem_mem hl)⟩
  have hlen : (Gauss.run b ops).sigmas.length = nvs b.joints := by rw [h2, he]; rfl
  · unfold Gauss.shoot
    rw [if_pos, if_pos]
    · exact ⟨_, rfl⟩
    · rw [h1]; exact h4 _ (fun o h => by simpa using h)
    · refine ⟨h2, fun o hmem => ?_⟩
      obtain ⟨k, hk, rfl⟩ := List.getElem_of_mem hmem
      obtain ⟨v, e1, e2⟩ := h5 ops.reverse (fun o h => by simpa using h) k (by omega)
      have := h3 k (by omega)
      rw [e1, List.getElem?_eq_getElem hk] at this
      exact ⟨v, Option.some.inj this, e2⟩

/-- Counterexample to C103: as soon as there is an extra degree of freedom, its standard deviation is never initialized: the first call to
`shoot` has undefined behaviour, and so have the next ones, whatever the factors given. -/
theorem C103_extra_counterexample (b : Robot) (hb : b.Ok) (he : b.elo ≠ []) (x : Ext) (noise : ℕ → ℝ → ℝ) (ops : List Op)
    (hs : ∀ l, Op.sigmas l ∉ ops) : (Gauss.run b ops).shoot b x noise = .ub := by
  have hpos : 0 < b.elo.length := List.length_pos_iff.2 he
  have key : (Gauss.run b ops).sigmas[nvs b.joints]? = some none ∧ (Gauss.run b ops).sigmas.length = nvs b.joints + b.elo.length := by
    have hset : ∀ (f : ℝ) (s : Gauss), (s.sigmas[nvs b.joints]? = some none ∧ s.sigmas.length = nvs b.joints + b.elo.length) →
        ((s.setSigma b f).sigmas[nvs b.joints]? = some none ∧ (s.setSigma b f).sigmas.length = nvs b.joints + b.elo.length) := by
      intro f s h
      have hl : (jointSigmas b.joints b.up b.lo).length = nvs b.joints := by
        rw [jointSigmas_spec b.joints b.up b.lo hb.up hb.lo, List.length_map, allDofs_length]
      constructor
      · simp only [Gauss.setSigma]
        rw [List.getElem?_map, List.getElem?_append_right (by simp [hl])]
        simp only [List.length_map, hl, Nat.sub_self, List.getElem?_drop, Nat.add_zero, h.1, Option.map_some, Option.map_none]
      · simp [Gauss.setSigma, hl, h.2]
    induction ops using List.reverseRecOn with
    | nil =>
      refine hset _ _ ⟨?_, by simp⟩
      simp only
      rw [List.getElem?_replicate, if_pos (by omega)]
    | append_singleton ops op ih =>
      have h := ih (fun l hl => hs l (List.mem_append_left _ hl))
      simp only [Gauss.run] at h
      simp only [Gauss.run, List.foldl_append, List.foldl_cons, List.foldl_nil]
      cases op with
      | center c => exact h
      | sigma f => exact hset _ _ h
      | sigmas l => exact absurd (List.mem_append_right _ (by simp)) (hs l)
  unfold Gauss.shoot
  rw [if_neg]
  rintro ⟨-, h⟩
  obtain ⟨v, e, -⟩ := h none (List.mem_of_getElem? key.1)
  cases e

/-- Counterexample to C103: with an empty center `shoot` has undefined behaviour; the neutral configuration, computed for this case, is not
used. This is the case of the shooter "Gaussian" of the problem solver unless parameter `ConfigurationShooter/Gaussian/center` is set, since
its default value is an empty vector (src/problem-solver.cc:129-144, 1063-1065). -/
theorem C103_center_counterexample (b : Robot) (hn : b.current ≠ []) (hb : b.Ok) (x : Ext) (noise : ℕ → ℝ → ℝ) (ops : List Op) :
    (Gauss.run b (ops ++ [.center []])).shoot b x noise = .ub := by
  have : (Gauss.run b (ops ++ [.center []])).center = [] := by simp [Gauss.run, Gauss.step]
  unfold Gauss.shoot
  rw [this]
  have h : ¬ (([] : List EReal).length = nqs b.joints + b.elo.length) := by
    rw [← hb.current]
    exact fun h => hn (List.length_eq_zero_iff.1 h.symm)
  rw [if_neg h]
  split <;> rfl

/-- Counterexample to the documentation of `Gaussian::sigma` (gaussian.hh:60-67): the default deviation of a rotation of the plane is not
`2π / √(2n - 3)`, with `n = 2`. -/
theorem C103_rotation_counterexample : sigmasAlgo .so2 [] [] ≠ [2 * Real.pi / Real.sqrt (2 * 2 - 3)] := by
  simp only [sigmasAlgo, List.replicate, ne_eq, List.cons.injEq, and_true]
  have h1 : Real.sqrt (2 * 2 - 3) = 1 := by norm_num
  rw [h1]
  have h2 : (1 : ℝ) < Real.sqrt 2 := by
    rw [show (1 : ℝ) = Real.sqrt 1 by simp]
    exact Real.sqrt_lt_sqrt (by norm_num) (by norm_num)
  have h3 := Real.pi_pos
  intro h
  rw [div_one, div_eq_iff (by positivity)] at h
  nlinarith

/-- A free-flying body with bounded translations along two axes: deviations, centers, shots. -/
noncomputable def Ex.body : Robot where
  joints := [.se2, .vec 1]
  lo := [((0 : ℝ) : EReal), ((0 : ℝ) : EReal), ((-1 : ℝ) : EReal), ((-1 : ℝ) : EReal), ⊥]
  up := [((1 : ℝ) : EReal), ((3 : ℝ) : EReal), ((1 : ℝ) : EReal), ((1 : ℝ) : EReal), ⊤]
  elo := []
  eup := []
  current := [0, 0, 1, 0, 0]

example : Ex.body.Ok := ⟨rfl, rfl, rfl, rfl⟩

example : Ex.body.Ordered := by
  intro r x y h1 h2
  rcases r with _ | _ | _ | _ | _ | r
  · have h1' := EReal.coe_injective (Option.some.inj h1); have h2' := EReal.coe_injective (Option.some.inj h2); linarith
  · have h1' := EReal.coe_injective (Option.some.inj h1); have h2' := EReal.coe_injective (Option.some.inj h2); linarith
  · have h1' := EReal.coe_injective (Option.some.inj h1); have h2' := EReal.coe_injective (Option.some.inj h2); linarith
  · have h1' := EReal.coe_injective (Option.some.inj h1); have h2' := EReal.coe_injective (Option.some.inj h2); linarith
  · simp [Ex.body] at h1
  · simp [Ex.body] at h1

example : lastSigma Ex.body 1 [.center [], .sigma 2] = some 6 := by
  have : stdDefault Ex.body.up Ex.body.lo (.inl 1) = 3 := by
    rw [stdDefault_inl _ _ 1 ((0 : ℝ) : EReal) ((3 : ℝ) : EReal) rfl rfl]
    simp [vecSigma]
  have h : (allDofs Ex.body.joints 0)[1]? = some (.inl 1) := by decide +kernel
  simp only [lastSigma, h, Option.map_some, this]
  norm_num

end Verif.Sampling
