import Verif.Planner.CarsSampledOptimize
import Verif.Planner.Retime
set_option linter.unusedSectionVars false

/-!
# Trajectories of cars (C165)

`SimpleTimeParameterization` run after the planners and the shortcuts, with continuous validation (`Planner/Cars.lean`, `Planner/CarsOptimize.lean`) or discretized
validation (`Planner/CarsSampled.lean`, `Planner/CarsSampledOptimize.lean`).  The components of the velocity bound of a path of constant
curvature on the position are wrong (C86), but not their norm: the speed of the trajectory is bounded by the norm of both limits.

Simplifications: those of these files.
-/
namespace Verif.Planner.Cars
open Verif.Car Verif.PathV Verif.Planner Verif.Roadmap
open Verif.Retime (Timed timed Laws)
open Verif.Turns (RunForward law_lip)
open Classical
open Set (Icc)

variable {ι : Type} [Fintype ι]

/-- The degrees of freedom of the car: position (2), rotation, other joints. -/
abbrev Dof (ι : Type) := Fin 3 ⊕ ι

/-- `velocityBound` on the whole path, by degree of freedom: constant-curvature.cc:313-378; `D`: what the ranks of the vector stand for. -/
noncomputable def speeds {n : Nat} (D : Fin n → Dof ι) (K : CC (ι → ℝ) Unit) (i : Fin n) : ℝ :=
  let b := K.fullBound K.t0 K.t1
  match D i with
  | .inl 0 => b.1.1
  | .inl 1 => b.1.2.1
  | .inl 2 => b.1.2.2
  | .inr j => b.2 j

/-- A path of constant curvature as `SimpleTimeParameterization` sees it; the last field (only used in the statements of C50) is the bound itself. -/
noncomputable def arcPiece {n : Nat} (D : Fin n → Dof ι) (K : CC (ι → ℝ) Unit) : TimeParam.Piece n := ⟨K.t0, K.t1, K.t1 - K.t0, speeds D K, fun _ => speeds D K⟩

/-- The loop over the pieces: simple-time-parameterization.cc:226-274.  A negative component of the velocity bound (C86: `absSineMax` may be negative) gives a negative or `-infinity` `B`, hence
the exception of lines 242-247. -/
noncomputable def timeLoop {n : Nat} (D : Fin n → Dof ι) (c : TimeParam.Cfg n) : Arcs ι → Except TimeParam.Err (List (Timed (CC (ι → ℝ) Unit)))
  | [] => .ok []
  | K :: l =>
    if K.t0 = K.t1 then timeLoop D c l
    else if ∃ i, speeds D K i < 0 then .error .runtime
    else
      match TimeParam.paramPiece c (arcPiece D K) with
      | .error e => .error e
      | .ok o =>
        match timeLoop D c l with
        | .error e => .error e
        | .ok r => .ok (⟨K, o.law⟩ :: r)

/-- The path vector, whose pieces are path vectors, as an argument of `flatten`. -/
def nest (v : Whole ι) : Vec ℝ (Cfg (ι → ℝ) Unit) (Nest ℝ (Cfg (ι → ℝ) Unit) (CC (ι → ℝ) Unit) 1) := ⟨v.cons, v.tr, v.paths.map fun w => (Sum.inr w : CC (ι → ℝ) Unit ⊕ Piece ι)⟩

/-- `SimpleTimeParameterization::optimize`: simple-time-parameterization.cc:165-276; `none`: the input path itself is returned.  `flatten` fails only with constraints on both a vector and its pieces
(here there are none). -/
noncomputable def timeParam {n : Nat} (D : Fin n → Dof ι) (c : TimeParam.Cfg n) (v : Whole ι) : Except TimeParam.Err (Option (Vec ℝ (Cfg (ι → ℝ) Unit) (Timed (CC (ι → ℝ) Unit)))) :=
  if v.tr.2 - v.tr.1 = 0 then .ok none
  else if c.order ≤ 1 ∧ 0 < c.maxAcc then .error .invalid
  else if (∃ i l, c.limit i = some l ∧ TimeParam.ubOf c.safety l ≤ 0) ∧ (∃ i l, c.limit i = some l ∧ 0 ≤ TimeParam.lbOf c.safety l) then .error .invalid
  else
    match flatten ccOps 1 (nest v) (create none) with
    | .error _ => .error .logic
    | .ok f =>
      match timeLoop D c f.paths with
      | .error e => .error e
      | .ok r => .ok (some (r.foldl (appendPath (timed ccOps)) (create none)))

/-! ## Specification -/

/-- Between any two times of `[0, T]` the car moves by no more than the norm of the limits of both coordinates, its heading turns by no more than the limit of the rotation, and each other joint moves
by no more than its limit, times the safety factor, times the difference of the times. -/
structure Limited {n : Nat} (D : Fin n → Dof ι) (c : TimeParam.Cfg n) (g : ℝ → Except PathV.Err (Cfg (ι → ℝ) Unit)) (T : ℝ) : Prop where
  position : ∀ i j lx ly, D i = .inl 0 → D j = .inl 1 → c.limit i = some lx → c.limit j = some ly → ∀ s t q q', 0 ≤ s → s ≤ t → t ≤ T → g s = .ok q → g t = .ok q' →
    √((q'.x - q.x) ^ 2 + (q'.y - q.y) ^ 2) ≤ √((c.safety * lx) ^ 2 + (c.safety * ly) ^ 2) * (t - s)
  heading : ∀ i l, D i = .inl 2 → c.limit i = some l → ∀ s t q q', 0 ≤ s → s ≤ t → t ≤ T → g s = .ok q → g t = .ok q' →
    √((q'.c - q.c) ^ 2 + (q'.s - q.s) ^ 2) ≤ c.safety * l * (t - s)
  other : ∀ i k l, D i = .inr k → c.limit i = some l → ∀ s t q q', 0 ≤ s → s ≤ t → t ≤ T → g s = .ok q → g t = .ok q' → |q'.o k - q.o k| ≤ c.safety * l * (t - s)

/-- A trajectory of a car on `[0, T]`, along the arcs `ks`, from `a` to `b`, on which each configuration satisfies `F`. -/
structure Drive (X : World ι) (F : Cfg (ι → ℝ) Unit → Prop) (g : ℝ → Except PathV.Err (Cfg (ι → ℝ) Unit)) (T : ℝ) (ks : Arcs ι) (a b : Conf ι) : Prop where
  pos : 0 < T
  ini : g 0 = .ok a.1
  fin : g T = .ok b.1
  arcs : Chain X ks
  free : ∀ t, 0 ≤ t → t ≤ T → ∃ K ∈ ks, ∃ u, K.t0 ≤ u ∧ u ≤ K.t1 ∧ g t = .ok (K.eval u) ∧ F (K.eval u)

/-! ## Proofs -/

variable {X : World ι}

theorem flat0 (l : Arcs ι) (acc : Piece ι) : flatten (P := CC (ι → ℝ) Unit) ccOps 0 (show Vec ℝ (Cfg (ι → ℝ) Unit) (Nest ℝ (Cfg (ι → ℝ) Unit) (CC (ι → ℝ) Unit) 0) from vec l) acc =
    .ok (l.foldl (appendPath ccOps) acc) := by
  have e : ∀ (l : Arcs ι) (acc : Piece ι), l.foldlM (pushStep ccOps none) acc = .ok (l.foldl (appendPath ccOps) acc) := by
    intro l
    induction l with
    | nil => intro acc; rfl
    | cons K l ih => intro acc; rw [List.foldlM_cons]; exact ih _
  refine Eq.trans ?_ (e l acc)
  have := flatten_zero (P := CC (ι → ℝ) Unit) ccOps (vec l) acc
  rw [cons_vec, paths_vec] at this
  exact this

theorem nest_flatten (l : List (SP X)) : flatten ccOps 1 (nest (pathVector l)) (create none) = .ok (vec (l.flatMap fun p => p.1)) := by
  have hc : (nest (pathVector l)).cons = none := by
    show (pathVector l).cons = none
    rw [pathVector_eq]
  let up : Piece ι → Nest ℝ (Cfg (ι → ℝ) Unit) (CC (ι → ℝ) Unit) 1 := fun w => (Sum.inr w : CC (ι → ℝ) Unit ⊕ Piece ι)
  have hp : (nest (pathVector l)).paths = l.map fun p => up (vec p.1) := by
    have : (nest (pathVector l)).paths = (pathVector l).paths.map up := rfl
    rw [this, pathVector_eq, List.map_map]; rfl
  have step : ∀ (l : List (SP X)) (acc : Piece ι), (l.map fun p => up (vec p.1)).foldlM (flatStep ccOps 0 none) acc = .ok ((l.flatMap fun p => p.1).foldl (appendPath ccOps) acc) := by
    intro l
    induction l with
    | nil => intro acc; rfl
    | cons p l ih =>
      intro acc
      rw [List.map_cons, List.foldlM_cons, List.flatMap_cons, List.foldl_append]
      have e : flatStep ccOps 0 none acc (up (vec p.1)) = .ok (p.1.foldl (appendPath ccOps) acc) := flat0 p.1 acc
      rw [e]
      exact ih _
  rw [flatten_succ, hc, hp]
  exact step l _

theorem total_flat (l : List (SP X)) : total (vecOps ccOps) (l.map fun p => vec p.1) = total ccOps (l.flatMap fun p => p.1) := by
  induction l with
  | nil => rfl
  | cons p l ih => rw [List.map_cons, total_cons, List.flatMap_cons, total_append, ih]; congr 1; exact vlen p

/-- The flat vector has the same values. -/
theorem flat_eval (l : List (SP X)) (hne : l ≠ []) (hch : Chained ccOps (l.flatMap fun p => p.1)) {s : ℝ} (h0 : 0 ≤ s) (h1 : s ≤ total ccOps (l.flatMap fun p => p.1)) :
    evalU (vecOps ccOps) (l.map fun p => vec p.1) s = evalU ccOps (l.flatMap fun p => p.1) s := by
  obtain ⟨A, v, C, u, e, u0, u1, hA, rfl⟩ := exists_pos (vecOps ccOps) (l.map fun p => vec p.1) (fun e => hne (List.map_eq_nil_iff.1 e)) s h0 (by rw [total_flat]; exact h1)
  obtain ⟨l1, l2, rfl, rfl, e2⟩ := List.map_eq_append_iff.1 e
  obtain ⟨p, l3, rfl, rfl, rfl⟩ := List.map_eq_cons_iff.1 e2
  have lenp : ∀ p : SP X, 0 ≤ (vecOps ccOps).len (vec p.1) := fun p => (total_nonneg p.2).trans (vlen p).ge
  have lenK : ∀ p : SP X, ∀ K ∈ p.1, 0 ≤ ccOps.len K := fun p K hK => sub_nonneg.2 (p.2.arc K hK).1.le
  rw [e, evalU_at _ _ _ _ _ (by
    intro x hx
    obtain ⟨q, -, rfl⟩ := List.mem_map.1 hx
    exact lenp q) hA u1]
  have u2 := u1.trans (vlen p).le
  obtain ⟨A2, K, B2, u', e', u0', u1', hA2, rfl⟩ := exists_pos ccOps p.1 p.2.ne u u0 u2
  show evalV ccOps (vec p.1) ((vec p.1).tr.1 + _) = _
  rw [tr_vec, evalV_none _ _ (cons_vec _), paths_vec, zero_add, total_flat]
  have hK := lenK p
  rw [List.flatMap_append, List.flatMap_cons] at hch ⊢
  rw [e'] at hch hK ⊢
  rw [evalU_at ccOps A2 B2 K u' (fun x hx => hK x (by simp [hx])) hA2 u1']
  have := chained_at ccOps ((l1.flatMap fun p => p.1) ++ A2) (B2 ++ l3.flatMap fun p => p.1) K u' (by
    intro x hx
    rcases List.mem_append.1 hx with hx | hx
    · obtain ⟨q, -, hx⟩ := List.mem_flatMap.1 hx
      exact lenK q x hx
    · exact hK x (by simp [hx])) (by simpa using hch) u0' u1'
  rw [total_append] at this
  simp only [List.append_assoc, List.cons_append] at this ⊢
  rw [← add_assoc, this]

/-- What a piece of the result satisfies. -/
def Fine {n : Nat} (D : Fin n → Dof ι) (c : TimeParam.Cfg n) (K : CC (ι → ℝ) Unit) (law : TimeParam.Law) : Prop :=
  K.t0 < K.t1 ∧ TimeParam.PieceSpec c ⟨arcPiece D K, law⟩

theorem timeLoop_laws {n : Nat} {D : Fin n → Dof ι} {c : TimeParam.Cfg n} (hm : ¬(c.order ≤ 1 ∧ 0 < c.maxAcc)) (hlim : ∀ i x, c.limit i = some x → 0 ≤ c.safety * x) (l : Arcs ι)
    (hl : ∀ K ∈ l, K.t0 ≤ K.t1) (os : List (Timed (CC (ι → ℝ) Unit))) (h : timeLoop D c l = .ok os) : Laws ccOps (Fine D c) l os := by
  induction l generalizing os with
  | nil => cases h; exact .nil
  | cons K l ih =>
    rw [timeLoop] at h
    have ih' := ih fun q hq => hl q (List.mem_cons_of_mem _ hq)
    have hle := hl K (by simp)
    by_cases hr : K.t0 = K.t1
    · rw [if_pos hr] at h
      exact .skip K l os hr (ih' os h)
    · rw [if_neg hr] at h
      by_cases hv : ∃ i, speeds D K i < 0
      · rw [if_pos hv] at h; cases h
      · rw [if_neg hv] at h
        push Not at hv
        cases ho : TimeParam.paramPiece c (arcPiece D K) with
        | error e => rw [ho] at h; cases h
        | ok o =>
          rw [ho] at h
          simp only at h
          cases hl' : timeLoop D c l with
          | error e => rw [hl'] at h; cases h
          | ok r =>
            rw [hl'] at h
            cases h
            obtain ⟨e1, e2⟩ := TimeParam.paramPiece_ok c _ o ⟨hle, hv, fun s _ i => (abs_of_nonneg (hv i)).le⟩ hr hm hlim ho
            obtain ⟨src, law⟩ := o
            simp only at e1
            subst e1
            exact .take K law l r ⟨lt_of_le_of_ne hle hr, e2⟩ (ih' r hl')

theorem norm_pos (q q' : Cfg (ι → ℝ) Unit) : ‖q'.pose.1 - q.pose.1‖ = √((q'.x - q.x) ^ 2 + (q'.y - q.y) ^ 2) := by
  rw [Complex.norm_def, Complex.normSq_apply]
  simp [Cfg.pose, sq]

theorem norm_head (q q' : Cfg (ι → ℝ) Unit) : ‖q'.pose.2 - q.pose.2‖ = √((q'.c - q.c) ^ 2 + (q'.s - q.s) ^ 2) := by
  rw [Complex.norm_def, Complex.normSq_apply]
  simp [Cfg.pose, sq]

/-- The displacement given by the bound on one degree of freedom. -/
theorem fine_step {n : Nat} {D : Fin n → Dof ι} {c : TimeParam.Cfg n} {K : CC (ι → ℝ) Unit} {law : TimeParam.Law} (h : Fine D c K law) (i : Fin n) (l : ℝ) (hl : c.limit i = some l) {s t : ℝ}
    (h0 : 0 ≤ s) (hst : s ≤ t) (h1 : t ≤ law.T) : |(TimeParam.val law.a t - TimeParam.val law.a s) * speeds D K i| ≤ c.safety * l * (t - s) :=
  law_lip (l := law) _ _ (fun x hx => by
    obtain ⟨v, hv, k⟩ := h.2.limits x hx
    exact ⟨v, hv, k i l hl⟩) s ⟨h0, hst.trans h1⟩ t ⟨h0.trans hst, h1⟩ hst

theorem fine_mono {n : Nat} {D : Fin n → Dof ι} {c : TimeParam.Cfg n} {K : CC (ι → ℝ) Unit} {law : TimeParam.Law} (h : Fine D c K law) {s t : ℝ} (h0 : 0 ≤ s) (hst : s ≤ t) (h1 : t ≤ law.T) :
    0 ≤ TimeParam.val law.a t - TimeParam.val law.a s := by
  obtain ⟨_, hg⟩ := h.2.good
  exact sub_nonneg.2 (hg.mono ⟨h0, hst.trans h1⟩ ⟨h0.trans hst, h1⟩ hst)

/-- A vector of arcs with their laws is within the limits. -/
theorem limited_of {n : Nat} {D : Fin n → Dof ι} {c : TimeParam.Cfg n} {os : List (Timed (CC (ι → ℝ) Unit))} (hne : os ≠ []) (pos : ∀ o ∈ os, 0 < (timed ccOps).len o)
    (hc : Chained (timed ccOps) os) (hf : ∀ o ∈ os, Fine D c o.path o.law) (hu : ∀ o ∈ os, o.path.init.c ^ 2 + o.path.init.s ^ 2 = 1) :
    Limited D c (evalU (timed ccOps) os) (total (timed ccOps) os) := by
  have key : ∀ (d : Cfg (ι → ℝ) Unit → Cfg (ι → ℝ) Unit → ℝ) (V : ℝ), (∀ x y z, d x z ≤ d x y + d y z) →
      (∀ o ∈ os, ∀ s t, 0 ≤ s → s ≤ t → t ≤ o.law.T → d (o.path.eval (TimeParam.val o.law.a s)) (o.path.eval (TimeParam.val o.law.a t)) ≤ V * (t - s)) →
      ∀ s t q q', 0 ≤ s → s ≤ t → t ≤ total (timed ccOps) os → evalU (timed ccOps) os s = .ok q → evalU (timed ccOps) os t = .ok q' → d q q' ≤ V * (t - s) := by
    intro d V tri h
    refine Retime.lip_vec tri (fun o ho => (pos o ho).le) hc (fun o _ t _ _ => ⟨_, rfl⟩) ?_ hne
    intro o ho s t q q' s0 hst ht hq hq'
    obtain rfl := Except.ok.inj hq
    obtain rfl := Except.ok.inj hq'
    exact h o ho s t s0 hst ht
  refine ⟨?_, ?_, ?_⟩
  · intro i j lx ly hi hj hlx hly s t q q' s0 hst ht hq hq'
    rw [← norm_pos]
    refine key (fun q q' => ‖q'.pose.1 - q.pose.1‖) _ (fun x y z => ?_) ?_ s t q q' s0 hst ht hq hq'
    · rw [add_comm]; exact norm_sub_le_norm_sub_add_norm_sub _ _ _
    · intro o ho s t s0 hst ht
      have hF := hf o ho
      have hd := (C86_displacement o.path hF.1 (hu o ho) (TimeParam.val o.law.a t) (TimeParam.val o.law.a s)).1
      have hn := (C86_bound_norm o.path hF.1 o.path.t0 o.path.t1).1
      have b1 := fine_step hF i lx hlx s0 hst ht
      have b2 := fine_step hF j ly hly s0 hst ht
      have m := fine_mono hF s0 hst ht
      have ei : speeds D o.path i = (o.path.velocityBound o.path.t0 o.path.t1).1 := by simp only [speeds, hi]; rfl
      have ej : speeds D o.path j = (o.path.velocityBound o.path.t0 o.path.t1).2.1 := by simp only [speeds, hj]; rfl
      rw [ei] at b1
      rw [ej] at b2
      rw [abs_of_nonneg m] at hd
      set x := (o.path.velocityBound o.path.t0 o.path.t1).1
      set y := (o.path.velocityBound o.path.t0 o.path.t1).2.1
      set Δ := TimeParam.val o.law.a t - TimeParam.val o.law.a s
      have hts : 0 ≤ t - s := sub_nonneg.2 hst
      refine hd.trans ((mul_le_mul_of_nonneg_right hn m).trans ?_)
      have e1 : √(x ^ 2 + y ^ 2) * Δ = √((Δ * x) ^ 2 + (Δ * y) ^ 2) := by
        rw [show (Δ * x) ^ 2 + (Δ * y) ^ 2 = (x ^ 2 + y ^ 2) * Δ ^ 2 by ring, Real.sqrt_mul (by positivity), Real.sqrt_sq m]
      have e2 : √((c.safety * lx) ^ 2 + (c.safety * ly) ^ 2) * (t - s) = √((c.safety * lx * (t - s)) ^ 2 + (c.safety * ly * (t - s)) ^ 2) := by
        rw [show (c.safety * lx * (t - s)) ^ 2 + (c.safety * ly * (t - s)) ^ 2 = ((c.safety * lx) ^ 2 + (c.safety * ly) ^ 2) * (t - s) ^ 2 by ring, Real.sqrt_mul (by positivity), Real.sqrt_sq hts]
      rw [e1, e2]
      refine Real.sqrt_le_sqrt (add_le_add ?_ ?_)
      · rw [← sq_abs (Δ * x)]; exact pow_le_pow_left₀ (abs_nonneg _) b1 2
      · rw [← sq_abs (Δ * y)]; exact pow_le_pow_left₀ (abs_nonneg _) b2 2
  · intro i l hi hl s t q q' s0 hst ht hq hq'
    rw [← norm_head]
    refine key (fun q q' => ‖q'.pose.2 - q.pose.2‖) _ (fun x y z => ?_) ?_ s t q q' s0 hst ht hq hq'
    · rw [add_comm]; exact norm_sub_le_norm_sub_add_norm_sub _ _ _
    · intro o ho s t s0 hst ht
      have hF := hf o ho
      have hd := (C86_displacement o.path hF.1 (hu o ho) (TimeParam.val o.law.a t) (TimeParam.val o.law.a s)).2
      have b := fine_step hF i l hl s0 hst ht
      have m := fine_mono hF s0 hst ht
      have ei : speeds D o.path i = |o.path.speed * o.path.curvature| := by
        rw [← C86_bound_rotation o.path hF.1 o.path.t0 o.path.t1]; simp only [speeds, hi]; rfl
      rw [ei, mul_comm, abs_mul, abs_abs] at b
      exact hd.trans b
  · intro i k l hi hl
    refine key (fun q q' => |q'.o k - q.o k|) _ (fun x y z => ?_) ?_
    · rw [add_comm]; exact abs_sub_le _ _ _
    · intro o ho s t s0 hst ht
      have hF := hf o ho
      have b := fine_step hF i l hl s0 hst ht
      have hp : 0 < o.path.t1 - o.path.t0 := sub_pos.2 hF.1
      have ei : speeds D o.path i = |o.path.fin.o k - o.path.init.o k| / (o.path.t1 - o.path.t0) := by
        simp only [speeds, hi, CC.fullBound, if_neg hF.1.ne]
      refine le_trans (le_of_eq ?_) b
      rw [ei, abs_mul, abs_div, abs_abs, abs_of_pos hp]
      have e : ∀ u, (o.path.eval u).o k = o.path.init.o k + (u - o.path.t0) / (o.path.t1 - o.path.t0) * (o.path.fin.o k - o.path.init.o k) := by
        intro u
        simp only [CC.eval, lerp, CC.ratio, if_neg hp.ne']
        simp
      rw [e, e, show ∀ a b c d : ℝ, a + b * c - (a + d * c) = (b - d) * c by intros; ring, ← sub_div, sub_sub_sub_cancel_right, abs_mul, abs_div, abs_of_pos hp]
      ring

/-- From the properties of the path to those of the trajectory. -/
theorem drive_of {n : Nat} (D : Fin n → Dof ι) (c : TimeParam.Cfg n) {F : Cfg (ι → ℝ) Unit → Prop} {a b : Conf ι} {l : List (SP X)} (hne : l ≠ []) (harcs : Chain X (l.flatMap fun p => p.1))
    (hini : evalV (vecOps ccOps) (pathVector l) 0 = .ok a.1) (hfin : evalV (vecOps ccOps) (pathVector l) (pathVector l).tr.2 = .ok b.1)
    (hfree : ∀ t, 0 ≤ t → t ≤ (pathVector l).tr.2 → ∃ K ∈ l.flatMap fun p => p.1, ∃ u, K.t0 ≤ u ∧ u ≤ K.t1 ∧ evalV (vecOps ccOps) (pathVector l) t = .ok (K.eval u) ∧ F (K.eval u))
    {w : Vec ℝ (Cfg (ι → ℝ) Unit) (Timed (CC (ι → ℝ) Unit))} (hw : timeParam D c (pathVector l) = .ok (some w)) :
    RunForward (evalV (vecOps ccOps) (pathVector l)) (pathVector l).tr.2 (evalV (timed ccOps) w) w.tr.2 ∧
      Drive X F (evalV (timed ccOps) w) w.tr.2 ((pathVector l).paths.flatMap fun v => v.paths) a b ∧ Limited D c (evalV (timed ccOps) w) w.tr.2 := by
  have hch := chained_of (fun K hK => (harcs.arc K hK).1) harcs.link
  have e : ((pathVector l).paths.flatMap fun v => v.paths) = l.flatMap fun p => p.1 := by
    rw [pathVector_eq]
    simp only [List.flatMap_map, paths_vec]
  have hpv : pathVector l = ⟨none, (0, total ccOps (l.flatMap fun p => p.1)), l.map fun p => vec p.1⟩ := by rw [pathVector_eq, total_flat]
  rw [e]
  have htr : (pathVector l).tr.2 = total ccOps (l.flatMap fun p => p.1) := by rw [hpv]
  have hev : ∀ s, 0 ≤ s → s ≤ (pathVector l).tr.2 → evalV (vecOps ccOps) (pathVector l) s = evalU ccOps (l.flatMap fun p => p.1) s := by
    intro s s0 s1
    rw [htr] at s1
    rw [evalV_none _ _ (by rw [hpv]), pathVector_eq]
    exact flat_eval l hne hch s0 s1
  unfold timeParam at hw
  split at hw
  · cases hw
  · next hlen =>
    split at hw
    · cases hw
    · next hm =>
      split at hw
      · cases hw
      · next hz =>
        rw [nest_flatten] at hw
        simp only [paths_vec] at hw
        cases hl : timeLoop D c (l.flatMap fun p => p.1) with
        | error e => rw [hl] at hw; cases hw
        | ok os =>
          rw [hl] at hw
          obtain rfl := Option.some.inj (Except.ok.inj hw)
          have laws := timeLoop_laws hm (fun i x hx => (TimeParam.limits_nonneg c hz i x hx).le) _ (fun K hK => (harcs.arc K hK).1.le) os hl
          obtain ⟨r1, r2, r3, r4⟩ := Retime.run (fun K law hK => hK.2.good) laws (fun K hK => ⟨(harcs.arc K hK).2.1, by
            have h1 := (harcs.arc K hK).1.le
            rw [(harcs.arc K hK).2.1] at h1
            exact h1⟩) hch
          have hos : os ≠ [] := by
            intro e
            refine hlen ?_
            rw [htr, r2 e, hpv, sub_zero]
          have hmem := laws.mem
          rw [appendAll]
          have e2 : evalV (timed ccOps) ⟨none, (0, total (timed ccOps) os), os⟩ = evalU (timed ccOps) os := funext fun s => evalV_none _ _ rfl s
          simp only [create, List.nil_append, zero_add]
          rw [e2]
          have hT : 0 < total (timed ccOps) os := by
            obtain ⟨o, os', rfl⟩ := List.exists_cons_of_ne_nil hos
            rw [total_cons]
            have := PathV.total_nonneg (timed (ccOps (E := ι → ℝ) (W := Unit))) os' fun x hx => (r3 x (by simp [hx])).le
            linarith [r3 o (by simp)]
          have m0 : (0 : ℝ) ∈ Icc 0 (total (timed ccOps) os) := ⟨le_rfl, hT.le⟩
          have m1 : total (timed ccOps) os ∈ Icc 0 (total (timed ccOps) os) := ⟨hT.le, le_rfl⟩
          obtain ⟨σ, M, s1, s2, s3, s4, s5⟩ := r1 hos
          have k0 : ∀ t ∈ Icc 0 (total (timed ccOps) os), 0 ≤ σ t := fun t ht => by rw [← s3]; exact s1 m0 ht ht.1
          have k1 : ∀ t ∈ Icc 0 (total (timed ccOps) os), σ t ≤ (pathVector l).tr.2 := fun t ht => by rw [htr, ← s4]; exact s1 ht m1 ht.2
          have s5' : ∀ t ∈ Icc 0 (total (timed ccOps) os), evalU (timed ccOps) os t = evalV (vecOps ccOps) (pathVector l) (σ t) := fun t ht => by
            rw [hev _ (k0 t ht) (k1 t ht)]; exact s5 t ht
          refine ⟨⟨σ, M, s1, s2, s3, s4.trans htr.symm, s5'⟩, ⟨hT, ?_, ?_, harcs, fun t t0 t1 => ?_⟩, ?_⟩
          · rw [s5' _ m0, s3]; exact hini
          · rw [s5' _ m1, s4, ← htr]; exact hfin
          · rw [s5' _ ⟨t0, t1⟩]
            exact hfree _ (k0 t ⟨t0, t1⟩) (k1 t ⟨t0, t1⟩)
          · exact limited_of hos r3 r4 (fun o ho => (hmem o ho).2) fun o ho => (harcs.arc _ (hmem o ho).1).1.unit

/-- Sufficient conditions for a trajectory to be found. -/
theorem defined_of {n : Nat} (D : Fin n → Dof ι) (c : TimeParam.Cfg n) (l : List (SP X)) (ho : 0 ≤ c.order ∧ c.order ≤ 2)
    (hm : ¬(c.order ≤ 1 ∧ 0 < c.maxAcc)) (hthr : 0 < c.thr) (hlim : ∀ i x, c.limit i = some x → 0 < c.safety * x)
    (hv : ∀ K ∈ (pathVector l).paths.flatMap fun v => v.paths, K.t0 ≠ K.t1 → (∀ i, 0 ≤ speeds D K i) ∧ ∃ i x, c.limit i = some x ∧ 0 < speeds D K i) : ∃ r, timeParam D c (pathVector l) = .ok r := by
  have harc : ∀ K ∈ l.flatMap fun p => p.1, K.t0 ≤ K.t1 := by
    intro K hK
    obtain ⟨p, -, hK⟩ := List.mem_flatMap.1 hK
    exact (p.2.arc K hK).1.le
  rw [pathVector_eq] at hv
  simp only [List.flatMap_map, paths_vec] at hv
  unfold timeParam
  split
  · exact ⟨_, rfl⟩
  · rw [if_neg]
    · rw [nest_flatten]
      simp only [paths_vec]
      have key : ∀ ks : Arcs ι, (∀ K ∈ ks, K ∈ l.flatMap fun p => p.1) → ∃ r, timeLoop D c ks = .ok r := by
        intro ks
        induction ks with
        | nil => exact fun _ => ⟨_, rfl⟩
        | cons K ks ih =>
          intro hl
          obtain ⟨r, hr⟩ := ih fun q hq => hl q (by simp [hq])
          rw [timeLoop]
          by_cases e : K.t0 = K.t1
          · rw [if_pos e]; exact ⟨r, hr⟩
          · rw [if_neg e]
            have hle := harc K (hl K (by simp))
            obtain ⟨v0, i, x, hx, hi⟩ := hv K (hl K (by simp)) e
            rw [if_neg (by push Not; exact v0)]
            obtain ⟨r', hr'⟩ := TimeParam.C50_defined c [arcPiece D K] (by simpa using (⟨hle, v0, fun s _ i => (abs_of_nonneg (v0 i)).le⟩ : TimeParam.PieceOk (arcPiece D K))) ho hm hthr hlim (by
              simp only [List.mem_singleton, forall_eq]
              exact fun _ => ⟨i, x, hx, hi⟩)
            cases ho : TimeParam.paramPiece c (arcPiece D K) with
            | ok o => simp only [hr]; exact ⟨_, rfl⟩
            | error e' =>
              exfalso
              unfold TimeParam.optimize at hr'
              rw [if_neg, if_neg hm] at hr'
              · split at hr'
                · cases hr'
                · rw [TimeParam.paramLoop, if_neg (show (arcPiece D K).r0 ≠ (arcPiece D K).r1 from e), ho] at hr'
                  cases hr'
              · simp only [List.map_cons, List.map_nil, List.sum_cons, List.sum_nil, add_zero]
                show K.t1 - K.t0 ≠ 0
                exact (sub_pos.2 (lt_of_le_of_ne hle e)).ne'
      obtain ⟨r, hr⟩ := key _ fun K hK => hK
      rw [hr]
      exact ⟨_, rfl⟩
    · rintro ⟨⟨i, x, hx, h1⟩, -⟩
      rw [TimeParam.ubOf_eq] at h1
      exact absurd (hlim i x hx) (not_lt.2 h1)

/-- C165: the input is returned only if it has length 0. -/
theorem C165_still {n : Nat} (D : Fin n → Dof ι) (c : TimeParam.Cfg n) {v : Whole ι} (h : timeParam D c v = .ok none) : v.tr.2 = v.tr.1 := by
  unfold timeParam at h
  split at h
  · next e => linarith
  · split at h
    · cases h
    · split at h
      · cases h
      · split at h
        · cases h
        · split at h <;> cases h

/-! ## Continuous validation -/

/-- C165: the path of a car accepted by continuous validation. -/
theorem C165_continuous_partial {n : Nat} (D : Fin n → Dof ι) (c : TimeParam.Cfg n) {a b : Conf ι} {v : Whole ι} (h : SafeVec X a b v)
    {w : Vec ℝ (Cfg (ι → ℝ) Unit) (Timed (CC (ι → ℝ) Unit))} (hw : timeParam D c v = .ok (some w)) :
    RunForward (evalV (vecOps ccOps) v) v.tr.2 (evalV (timed ccOps) w) w.tr.2 ∧
      Drive X (CarFree X.pairs) (evalV (timed ccOps) w) w.tr.2 (v.paths.flatMap fun v => v.paths) a b ∧ Limited D c (evalV (timed ccOps) w) w.tr.2 := by
  obtain ⟨l, hne, rfl, hc⟩ := h
  have hs := safe_of_connects l a b hne hc
  exact drive_of D c hne hs.arcs hs.ini hs.fin hs.free hw

/-- C165: a planner with continuous validation (`Solves`: the diffusing planner, Visibility-PRM, k-PRM*), then any optimizers, then the time parameterization. -/
theorem C165_continuous_solved_partial {n : Nat} (D : Fin n → Dof ι) (c : TimeParam.Cfg n) (hX : X.Ok) (hsep : Separates (env X).toEnv) {q0 : Conf ι} {gs : List (Conf ι)} (hq : q0 ∉ gs)
    {l : List (SP X)} (h : Solves (env X) (Valid X) q0 gs l) (os : List (Opt X)) (hos : ∀ o ∈ os, o.Ok) {v : Whole ι} (hv : optimizeAll X os (pathVector l) = some v)
    {w : Vec ℝ (Cfg (ι → ℝ) Unit) (Timed (CC (ι → ℝ) Unit))} (hw : timeParam D c v = .ok (some w)) :
    ∃ g ∈ gs, Drive X (CarFree X.pairs) (evalV (timed ccOps) w) w.tr.2 (v.paths.flatMap fun v => v.paths) q0 g ∧ Limited D c (evalV (timed ccOps) w) w.tr.2 := by
  rcases h with ⟨g, hg, hne, hc⟩ | ⟨-, p, hp, -⟩
  · exact ⟨g, hg, (C165_continuous_partial D c (optimize_safe hX hsep os hos (fun e => hq (by rw [e]; exact hg)) ⟨l, hne, rfl, hc⟩ hv) hw).2⟩
  · rw [steer_self hX] at hp; simp at hp

/-- C165: the diffusing planner with continuous validation, then any optimizers, then the time parameterization. -/
theorem C165_continuous_diffusing_partial {n : Nat} (D : Fin n → Dof ι) (c : TimeParam.Cfg n) (hX : X.Ok) (hsep : Separates (env X).toEnv) (P : DiffParams ℝ)
    (heur : Roadmap (Conf ι) (SP X) → Nat → ℝ) (q0 : Conf ι) (gs : List (Conf ι)) (hq : q0 ∉ gs) (shoot : Nat → Conf ι) (st : Settings ℝ) (late intr : Nat → Bool) (fuel m : Nat) (l : List (SP X))
    (hl : solve (diffusing (env X) P heur q0 gs shoot) st late intr fuel (m, Roadmap.empty) = .path l) (os : List (Opt X)) (hos : ∀ o ∈ os, o.Ok) {v : Whole ι}
    (hv : optimizeAll X os (pathVector l) = some v) {w : Vec ℝ (Cfg (ι → ℝ) Unit) (Timed (CC (ι → ℝ) Unit))} (hw : timeParam D c v = .ok (some w)) :
    ∃ g ∈ gs, Drive X (CarFree X.pairs) (evalV (timed ccOps) w) w.tr.2 (v.paths.flatMap fun v => v.paths) q0 g ∧ Limited D c (evalV (timed ccOps) w) w.tr.2 :=
  C165_continuous_solved_partial D c hX hsep hq (C67_diffusing (contract hX) P heur q0 gs shoot ⟨Inv.empty, by simp [Roadmap.empty]⟩ st late intr fuel m l hl) os hos hv hw

end Verif.Planner.Cars

namespace Verif.Planner.CarsSampled
open Verif.Car Verif.PathV Verif.Planner Verif.Roadmap Verif.Planner.Cars
open Verif.Retime (Timed timed Laws)
open Verif.Turns (RunForward)
open Classical

variable {ι : Type} [Fintype ι] {B : Bench ι}

theorem pathVector_low (l : List (SP B)) : Cars.pathVector (l.map low) = pathVector l := by unfold Cars.pathVector pathVector; rw [List.map_map]; rfl

theorem flat_low (l : List (SP B)) : ((l.map low).flatMap fun p => p.1) = l.flatMap fun p => p.1 := by rw [List.flatMap_map]; rfl

/-- C165: from a path of a car without collision, `SimpleTimeParameterization` makes a trajectory: the same configurations in the same order, hence without collision, between the same ends; the speed of
the car is at most the norm of the limits of both coordinates, the speed of rotation and those of the other joints are at most their limits (times the safety factor).  Partial: the limits of the coordinates are not met separately, see `C165_limit_counterexample`. -/
theorem C165_trajectory_partial {n : Nat} (D : Fin n → Dof ι) (c : TimeParam.Cfg n) {d : Bool} {a b : Conf ι} {v : Whole ι} (h : SafeVec B d a b v)
    {w : Vec ℝ (Cfg (ι → ℝ) Unit) (Timed (CC (ι → ℝ) Unit))} (hw : timeParam D c v = .ok (some w)) :
    RunForward (evalV (vecOps ccOps) v) v.tr.2 (evalV (timed ccOps) w) w.tr.2 ∧ Drive B.X B.Free (evalV (timed ccOps) w) w.tr.2 (v.paths.flatMap fun v => v.paths) a b ∧
      Limited D c (evalV (timed ccOps) w) w.tr.2 := by
  obtain ⟨l, hne, rfl, hc⟩ := h
  have ha : B.Free a.1 := by
    obtain ⟨p, ps, rfl⟩ := List.exists_cons_of_ne_nil hne
    have := (valid_iff p).1 hc.1.1 0 le_rfl (tnn p) _ (vec_ends (low p)).1
    change B.Free (ini (low p)).1 at this
    rw [show ini (low p) = a from hc.2.1] at this
    exact this
  have hs := safe_of_connects l (V := Keep B d) (fun p h => Or.inl h.1) hne ha hc
  have harcs := hs.arcs
  rw [← pathVector_low] at hw ⊢
  refine drive_of D c (fun e => hne (List.map_eq_nil_iff.1 e)) ?_ ?_ ?_ ?_ hw
  · rw [flat_low]; exact harcs
  · rw [pathVector_low]; exact hs.ini
  · rw [pathVector_low]; exact hs.fin
  · rw [pathVector_low, flat_low]; exact hs.free

/-- C165 (partial): a trajectory is found if the order is between 0 and 2, the limits are positive, no component of the velocity bound of an arc is negative and, along each arc, a degree of freedom with a
limit moves.  Partial: components may be negative, see `C165_throws_counterexample`. -/
theorem C165_defined_partial {n : Nat} (D : Fin n → Dof ι) (c : TimeParam.Cfg n) {d : Bool} {a b : Conf ι} {v : Whole ι} (h : SafeVec B d a b v) (ho : 0 ≤ c.order ∧ c.order ≤ 2)
    (hm : ¬(c.order ≤ 1 ∧ 0 < c.maxAcc)) (hthr : 0 < c.thr) (hlim : ∀ i x, c.limit i = some x → 0 < c.safety * x)
    (hv : ∀ K ∈ v.paths.flatMap fun v => v.paths, K.t0 ≠ K.t1 → (∀ i, 0 ≤ speeds D K i) ∧ ∃ i x, c.limit i = some x ∧ 0 < speeds D K i) : ∃ r, timeParam D c v = .ok r := by
  obtain ⟨l, hne, rfl, hc⟩ := h
  rw [← pathVector_low] at hv ⊢
  exact defined_of D c _ ho hm hthr hlim hv

/-- C165: BiRRT, then any optimizers, then the time parameterization: moreover the car never changes direction. -/
theorem C165_birrt_partial {n : Nat} (D : Fin n → Dof ι) (c : TimeParam.Cfg n) (hB : B.Ok) (hsep : Separates (env B).toEnv) (heur : Roadmap (Conf ι) (SP B) → Nat → ℝ) (q0 : Conf ι) (gs : List (Conf ι))
    (hq : q0 ∉ gs) (shoot : Nat → Conf ι) (st : Settings ℝ) (late intr : Nat → Bool) (fuel : Nat) (x : BState) (l : List (SP B)) (h0 : B.Free q0.1)
    (hl : solve (birrt (env B) heur q0 gs shoot) st late intr fuel (x, Roadmap.empty) = .path l) (os : List (Opt B)) (hos : ∀ o ∈ os, o.Ok) {v : Whole ι}
    (hv : optimizeAll B os (pathVector l) = some v) {w : Vec ℝ (Cfg (ι → ℝ) Unit) (Timed (CC (ι → ℝ) Unit))} (hw : timeParam D c v = .ok (some w)) :
    ∃ g ∈ gs, Drive B.X B.Free (evalV (timed ccOps) w) w.tr.2 (v.paths.flatMap fun v => v.paths) q0 g ∧ Limited D c (evalV (timed ccOps) w) w.tr.2 ∧
      ∀ K ∈ v.paths.flatMap fun v => v.paths, if B.X.back then K.curveLength ≤ 0 else 0 ≤ K.curveLength := by
  obtain ⟨h1, -⟩ := OneWay.C158_birrt_partial (follows hB) (contract hB) (pointContract hB) (fun _ _ => rfl) heur q0 gs shoot (s := (x, Roadmap.empty))
    ⟨Inv.empty, by simp [Roadmap.empty]⟩ (by simp [OneWay.Edges, Roadmap.empty]) st late intr fuel l hl
  obtain ⟨g, hg, hne, hc⟩ := solves_keep (d := true) hB (fun p hp => ⟨hp.1, fun _ => hp.2⟩) h0 h1
  have hab : q0 ≠ g := fun e => hq (by rw [e]; exact hg)
  obtain ⟨-, k1, k2⟩ := C165_trajectory_partial D c (optimize_safe hB hsep os hos hab ⟨l, hne, rfl, hc⟩ hv) hw
  exact ⟨g, hg, k1, k2, (C164_optimize_partial hB hsep os hos true hab hne hc hv).2 rfl⟩

/-- C165: the other planners, which give paths without collision (`Solves`), then any optimizers, then the time parameterization. -/
theorem C165_solved_partial {n : Nat} (D : Fin n → Dof ι) (c : TimeParam.Cfg n) (hB : B.Ok) (hsep : Separates (env B).toEnv) {q0 : Conf ι} {gs : List (Conf ι)} (hq : q0 ∉ gs) {l : List (SP B)}
    (h0 : B.Free q0.1) (h : Solves (env B) (Valid B) q0 gs l) (os : List (Opt B)) (hos : ∀ o ∈ os, o.Ok) {v : Whole ι} (hv : optimizeAll B os (pathVector l) = some v)
    {w : Vec ℝ (Cfg (ι → ℝ) Unit) (Timed (CC (ι → ℝ) Unit))} (hw : timeParam D c v = .ok (some w)) :
    ∃ g ∈ gs, Drive B.X B.Free (evalV (timed ccOps) w) w.tr.2 (v.paths.flatMap fun v => v.paths) q0 g ∧ Limited D c (evalV (timed ccOps) w) w.tr.2 := by
  obtain ⟨g, hg, hne, hc⟩ := solves_keep (d := false) hB (fun p hp => ⟨Or.inl hp, fun h => by simp at h⟩) h0 h
  exact ⟨g, hg, (C165_trajectory_partial D c (optimize_safe hB hsep os hos (fun e => hq (by rw [e]; exact hg)) ⟨l, hne, rfl, hc⟩ hv) hw).2⟩

theorem nest_flatten (l : List (SP B)) : flatten ccOps 1 (nest (pathVector l)) (create none) = .ok (vec (l.flatMap fun p => p.1)) := by
  rw [← pathVector_low, Cars.nest_flatten, flat_low]

theorem tr_flat (l : List (SP B)) : (pathVector l).tr = (0, total ccOps (l.flatMap fun p => p.1)) := by
  rw [← pathVector_low, Cars.pathVector_eq, Cars.total_flat, flat_low]

namespace Demo
open Verif.Car.Demo Cars.Demo

/-- Arc of length `L`, radius 1, from the origin and the heading `(c, s)`. -/
noncomputable def bend (c s L : ℝ) : CC (Fin 0 → ℝ) Unit := CC.create ⟨0, 0, c, s, 0, ()⟩ ⟨0, 0, c, s, 0, ()⟩ L L 1 ()

theorem bend_y (c s L t : ℝ) (hu : c ^ 2 + s ^ 2 = 1) : ((bend c s L).eval t).y ≤ 3 := by
  set θ := (bend c s L).curvature * ((bend c s L).ratio t * (bend c s L).curveLength)
  have e : ((bend c s L).eval t).y = s * Real.sin θ + c * (1 - Real.cos θ) := by
    simp [CC.eval, bend, CC.create, θ]
    ring
  rw [e]
  have h1 := Real.sin_sq_add_cos_sq θ
  have h2 := Real.neg_one_le_cos θ
  have h3 := Real.cos_le_one θ
  have hc : |c| ≤ 1 := abs_le_one_iff_mul_self_le_one.2 (by nlinarith [sq_nonneg s])
  have hs : |s| ≤ 1 := abs_le_one_iff_mul_self_le_one.2 (by nlinarith [sq_nonneg c])
  have k1 : s * Real.sin θ ≤ 1 := by
    refine (le_abs_self _).trans ?_
    rw [abs_mul]
    exact mul_le_one₀ hs (abs_nonneg _) (Real.abs_sin_le_one _)
  have k2 : c * (1 - Real.cos θ) ≤ 1 * 2 := mul_le_mul ((le_abs_self c).trans hc) (by linarith) (by linarith) (by norm_num)
  linarith

noncomputable def bendPath (c s L : ℝ) (hu : c ^ 2 + s ^ 2 = 1) (hL : 0 ≤ L) : SP bench := ⟨[bend c s L], by
  refine ⟨by simp, fun K hK => ?_, by simp⟩
  rw [List.mem_singleton.1 hK]
  exact ⟨⟨by simp [bend, CC.create], by simpa [bend, CC.create] using hu, (C85_create _ _ _ _ _ _).1⟩, rfl, Or.inr (by simp [bend, CC.create, bench, world])⟩, by
  intro K hK
  rw [List.mem_singleton.1 hK]
  refine ⟨?_, fun j => j.elim0⟩
  simp [bend, CC.create, abs_of_nonneg hL]⟩

theorem bend_kept (c s L : ℝ) (hu : c ^ 2 + s ^ 2 = 1) (hL : 0 ≤ L) :
    SafeVec bench true (ini (low (bendPath c s L hu hL))) (fin (low (bendPath c s L hu hL))) (pathVector [bendPath c s L hu hL]) := by
  have acc : ((env bench).validate false (bendPath c s L hu hL)).1 = true := by
    refine C162_accepts bench_ok false _ ?_
    intro K hK t t0 t1 k hk o ho
    rw [List.mem_singleton.1 hK]
    obtain rfl : k = wall := by simpa [bench, world] using hk
    obtain rfl : o = ⟨fun q => 4 - q.y, fun q => if 0 < 4 - q.y then some (4 - q.y) else none⟩ := by simpa [wall] using ho
    have := bend_y c s L t hu
    simp only
    rw [if_pos (by linarith)]
    simp
  refine ⟨_, by simp, rfl, ⟨((contract bench_ok).valid_true false _ acc).1, fun _ K hK => ?_⟩, rfl, rfl⟩
  rw [List.mem_singleton.1 hK]
  show (0 : ℝ) ≤ L
  exact hL

/-- Only the motion along the first axis of the car is limited. -/
noncomputable def limits : TimeParam.Cfg 3 := ⟨0, 0, 1, 1 / 1000, fun i => if i = 0 then some 1 else none⟩

theorem unit01 : (0 : ℝ) ^ 2 + 1 ^ 2 = 1 := by norm_num

theorem bend_bound : (bend 0 1 1).velocityBound 0 1 = (Real.sin 1, 1, 1) := by
  have hpi := Real.pi_pos
  have h3 := Real.pi_gt_three
  have harg : Complex.arg ⟨(bend 0 1 1).init.c, (bend 0 1 1).init.s⟩ = Real.pi / 2 := by
    have : (⟨(bend 0 1 1).init.c, (bend 0 1 1).init.s⟩ : ℂ) = Complex.I := by
      rw [Complex.ext_iff]; simp [bend, CC.create]
    rw [this, Complex.arg_I]
  have hsw : (bend 0 1 1).sweep 0 1 = (0, 1) := by simp [CC.sweep, bend, CC.create]
  have hang : (bend 0 1 1).angles 0 1 = (Real.pi / 2, Real.pi / 2 + 1) := by
    unfold CC.angles
    simp only [harg, hsw]
    have : ⌊(0 + Real.pi / 2) / Real.pi / 2⌋ = 0 := by
      rw [show (0 + Real.pi / 2) / Real.pi / 2 = 1 / 4 by field_simp; norm_num]
      norm_num
    rw [this]
    norm_num
    ring
  unfold CC.velocityBound
  rw [if_neg (by simp [bend, CC.create])]
  simp only [hsw, hang]
  rw [if_pos (by simp [bend, CC.create]), if_neg (by linarith)]
  have hs : 0 < Real.sin 1 := Real.sin_pos_of_pos_of_le_one one_pos le_rfl
  simp only [absCosineMax, absSineMax]
  rw [if_pos (by linarith), if_neg (by linarith), if_pos le_rfl, Real.cos_pi_div_two, abs_zero, add_comm, Real.cos_add_pi_div_two, abs_neg, abs_of_pos hs, max_eq_right hs.le]
  simp [bend, CC.create]

theorem bend_t1 : (bend 0 1 1).t1 = 1 := by simp [bend, CC.create]

theorem bend_speeds (i : Fin 3) : speeds Sum.inl (bend 0 1 1) i = if i = 0 then Real.sin 1 else 1 := by
  have e : (bend 0 1 1).velocityBound (bend 0 1 1).t0 (bend 0 1 1).t1 = (Real.sin 1, 1, 1) := by rw [bend_t1]; exact bend_bound
  fin_cases i <;> simp [speeds, CC.fullBound, e]

/-- The trajectory made from the arc. -/
theorem bend_timed : ∃ w, timeParam Sum.inl limits (pathVector [bendPath 0 1 1 unit01 zero_le_one]) = .ok (some w) ∧ w.tr.2 = Real.sin 1 := by
  have hs : 0 < Real.sin 1 := Real.sin_pos_of_pos_of_le_one one_pos le_rfl
  have hB : TimeParam.speedB limits (arcPiece Sum.inl (bend 0 1 1)).v = some (Real.sin 1)⁻¹ := by
    simp [TimeParam.speedB, List.finRange, List.ofFn, Fin.foldr, Fin.foldr.loop, arcPiece, bend_speeds, limits, TimeParam.quot, TimeParam.minO, TimeParam.ubOf, TimeParam.lbOf, hs.ne']
  have hp : TimeParam.paramPiece limits (arcPiece Sum.inl (bend 0 1 1)) = .ok ⟨arcPiece Sum.inl (bend 0 1 1), ⟨[0, (Real.sin 1)⁻¹], (1 - 0) / (Real.sin 1)⁻¹⟩⟩ := by
    unfold TimeParam.paramPiece
    rw [hB]
    simp only
    rw [if_neg (by simpa using hs), if_pos (show limits.order = 0 from rfl), if_pos]
    · show Except.ok (⟨_, TimeParam.firstOrder (bend 0 1 1).t0 (bend 0 1 1).t1 _⟩ : TimeParam.OPiece 3) = _
      rw [bend_t1]
      rfl
    · refine ⟨⟨?_, ?_⟩, fun h => by simp [limits] at h, fun h => by simp [limits] at h⟩
      · norm_num [TimeParam.firstOrder, TimeParam.val, TimeParam.valLoop, arcPiece, bend, CC.create, limits]
      · norm_num [TimeParam.firstOrder, TimeParam.val, TimeParam.valLoop, arcPiece, bend, CC.create, limits, hs.ne']
  have hl : timeLoop Sum.inl limits [bend 0 1 1] = .ok [⟨bend 0 1 1, ⟨[0, (Real.sin 1)⁻¹], (1 - 0) / (Real.sin 1)⁻¹⟩⟩] := by
    rw [timeLoop, if_neg (by simp [bend, CC.create]), if_neg, hp]
    · rfl
    · push Not
      intro i
      rw [bend_speeds]
      split
      · exact hs.le
      · exact zero_le_one
  refine ⟨[(⟨bend 0 1 1, ⟨[0, (Real.sin 1)⁻¹], (1 - 0) / (Real.sin 1)⁻¹⟩⟩ : Timed (CC (Fin 0 → ℝ) Unit))].foldl (appendPath (timed ccOps)) (create none), ?_, ?_⟩
  · unfold timeParam
    rw [if_neg, if_neg (by simp [limits]), if_neg, nest_flatten]
    · simp only [paths_vec, List.flatMap_cons, List.flatMap_nil, List.append_nil]
      rw [show (bendPath 0 1 1 unit01 zero_le_one).1 = [bend 0 1 1] from rfl, hl]
    · rintro ⟨⟨i, x, hx, h1⟩, -⟩
      rw [TimeParam.ubOf_eq] at h1
      simp only [limits] at hx h1
      split at hx
      · obtain rfl := Option.some.inj hx; norm_num at h1
      · cases hx
    · intro h
      have e : (pathVector [bendPath 0 1 1 unit01 zero_le_one]).tr = (0, 1) := by
        rw [tr_flat]
        simp [bendPath, ccOps, Ops.len, bend, CC.create, total]
      rw [e] at h
      norm_num at h
  · rw [appendAll]
    simp [create, timed, Ops.len, total]

/-- C165: the limits are not met separately.  A car whose motion along its own axis is limited to 1 turns by 1 radian, from a heading along the second axis of the world; it goes from the one end to the
other in a time shorter than their distance. -/
theorem C165_limit_counterexample : ∃ (a b : Conf (Fin 0)) (v : Whole (Fin 0)) (w : _), SafeVec bench true a b v ∧ timeParam Sum.inl limits v = .ok (some w) ∧
    evalV (timed ccOps) w 0 = .ok a.1 ∧ evalV (timed ccOps) w w.tr.2 = .ok b.1 ∧ limits.limit 0 = some 1 ∧
    limits.safety * 1 * w.tr.2 < √((b.1.x - a.1.x) ^ 2 + (b.1.y - a.1.y) ^ 2) := by
  obtain ⟨w, hw, hT⟩ := bend_timed
  have hk := bend_kept 0 1 1 unit01 zero_le_one
  obtain ⟨-, hd, -⟩ := C165_trajectory_partial Sum.inl limits hk hw
  refine ⟨_, _, _, w, hk, hw, hd.ini, hd.fin, by simp [limits], ?_⟩
  have ea : (ini (low (bendPath 0 1 1 unit01 zero_le_one))).1 = (bend 0 1 1).init := rfl
  have eb : (fin (low (bendPath 0 1 1 unit01 zero_le_one))).1 = (bend 0 1 1).fin := rfl
  have e1 : (bend 0 1 1).fin.x = -(1 - Real.cos 1) := by simp [bend, CC.create, CC.eval, CC.ratio]
  have e2 : (bend 0 1 1).fin.y = Real.sin 1 := by simp [bend, CC.create, CC.eval, CC.ratio]
  rw [ea, eb, e1, e2, hT, show (bend 0 1 1).init.x = 0 from rfl, show (bend 0 1 1).init.y = 0 from rfl]
  have hs : 0 < Real.sin 1 := Real.sin_pos_of_pos_of_le_one one_pos le_rfl
  have hc : Real.cos 1 < 1 := by
    have := Real.sin_sq_add_cos_sq 1
    nlinarith [Real.cos_le_one 1]
  refine Real.lt_sqrt_of_sq_lt ?_
  have : limits.safety = 1 := rfl
  rw [this]
  nlinarith

/-- C165: on the path of a car that turns left by a quarter of a radian, from a heading in the third quadrant, the second component of the velocity bound is negative and the time parameterization throws,
whatever the limits. -/
theorem C165_throws_counterexample : ∃ (a b : Conf (Fin 0)) (v : Whole (Fin 0)), SafeVec bench true a b v ∧ ∀ c : TimeParam.Cfg 3, ¬(c.order ≤ 1 ∧ 0 < c.maxAcc) →
    (∀ i x, c.limit i = some x → 0 < c.safety * x) → timeParam Sum.inl c v = .error .runtime := by
  have hpi := Real.pi_pos
  have h3 := Real.pi_gt_three
  have hu : (-Real.cos 1) ^ 2 + (-Real.sin 1) ^ 2 = 1 := by
    have := Real.sin_sq_add_cos_sq 1
    linarith
  have hL : (0 : ℝ) ≤ 1 / 4 := by norm_num
  set K := bend (-Real.cos 1) (-Real.sin 1) (1 / 4) with hK
  have t1 : K.t1 = 1 / 4 := by rw [hK]; simp [bend, CC.create]
  have t0 : K.t0 = 0 := rfl
  have harg : Complex.arg ⟨K.init.c, K.init.s⟩ = 1 - Real.pi := by
    have : (⟨K.init.c, K.init.s⟩ : ℂ) = Complex.cos ((1 - Real.pi : ℝ) : ℂ) + Complex.sin ((1 - Real.pi : ℝ) : ℂ) * Complex.I := by
      rw [← Complex.ofReal_cos, ← Complex.ofReal_sin, Real.cos_sub_pi, Real.sin_sub_pi, Complex.ext_iff]
      rw [Complex.add_re, Complex.add_im, Complex.re_ofReal_mul, Complex.im_ofReal_mul, Complex.ofReal_re, Complex.ofReal_im, Complex.I_re, Complex.I_im, mul_zero, add_zero, mul_one, zero_add]
      exact ⟨rfl, rfl⟩
    rw [this, Complex.arg_cos_add_sin_mul_I ⟨by linarith, by linarith⟩]
  have hsw : K.sweep 0 (1 / 4) = (0, 1 / 4) := by
    rw [hK]; simp [CC.sweep, bend, CC.create]
  have hang : K.angles 0 (1 / 4) = (Real.pi + 1, Real.pi + 5 / 4) := by
    unfold CC.angles
    simp only [harg, hsw]
    have : ⌊(0 + (1 - Real.pi)) / Real.pi / 2⌋ = -1 := by
      rw [Int.floor_eq_iff, div_div]
      constructor
      · rw [le_div_iff₀ (by positivity)]; push_cast; linarith
      · rw [div_lt_iff₀ (by positivity)]; push_cast; linarith
    rw [this, Prod.ext_iff]
    constructor <;> push_cast <;> ring
  have hneg : speeds (Sum.inl : Fin 3 → Dof (Fin 0)) K 1 < 0 := by
    show (K.velocityBound K.t0 K.t1).2.1 < 0
    rw [t0, t1]
    unfold CC.velocityBound
    rw [if_neg (by rw [t0, t1]; norm_num)]
    simp only [hsw, hang]
    rw [if_pos (by rw [hK]; simp [bend, CC.create]), if_neg (by linarith)]
    simp only [absSineMax]
    rw [if_neg (by linarith), if_neg (by linarith), if_neg (by linarith), if_neg (by linarith), add_comm Real.pi, add_comm Real.pi, Real.sin_add_pi, Real.sin_add_pi]
    refine mul_neg_of_pos_of_neg ?_ (max_lt ?_ ?_)
    · rw [t0, t1, hK]; simp [bend, CC.create]
    · exact neg_neg_of_pos (Real.sin_pos_of_pos_of_lt_pi one_pos (by linarith))
    · exact neg_neg_of_pos (Real.sin_pos_of_pos_of_lt_pi (by norm_num) (by linarith))
  refine ⟨_, _, _, bend_kept _ _ _ hu hL, fun c hm hlim => ?_⟩
  unfold timeParam
  rw [if_neg, if_neg hm, if_neg, nest_flatten]
  · simp only [paths_vec, List.flatMap_cons, List.flatMap_nil, List.append_nil]
    rw [show (bendPath (-Real.cos 1) (-Real.sin 1) (1 / 4) hu hL).1 = [K] from rfl, timeLoop, if_neg (by rw [t0, t1]; norm_num), if_pos ⟨1, hneg⟩]
  · rintro ⟨⟨i, x, hx, h1⟩, -⟩
    rw [TimeParam.ubOf_eq] at h1
    exact absurd (hlim i x hx) (not_lt.2 h1)
  · intro h
    have e : (pathVector [bendPath (-Real.cos 1) (-Real.sin 1) (1 / 4) hu hL]).tr = (0, 1 / 4) := by
      rw [tr_flat]
      simp [bendPath, ccOps, Ops.len, bend, CC.create, total]
    rw [e] at h
    norm_num at h

/-- The hypotheses of `C165_trajectory_partial` and those of `C165_defined_partial` hold on a path that turns. -/
example : ∃ w, SafeVec bench true (ini (low (bendPath 0 1 1 unit01 zero_le_one))) (fin (low (bendPath 0 1 1 unit01 zero_le_one))) (pathVector [bendPath 0 1 1 unit01 zero_le_one]) ∧
    timeParam Sum.inl limits (pathVector [bendPath 0 1 1 unit01 zero_le_one]) = .ok (some w) ∧
    ((∀ i, 0 ≤ speeds (Sum.inl : Fin 3 → Dof (Fin 0)) (bend 0 1 1) i) ∧ ∃ i x, limits.limit i = some x ∧ 0 < speeds (Sum.inl : Fin 3 → Dof (Fin 0)) (bend 0 1 1) i) := by
  obtain ⟨w, hw, -⟩ := bend_timed
  have hs : 0 < Real.sin 1 := Real.sin_pos_of_pos_of_le_one one_pos le_rfl
  refine ⟨w, bend_kept 0 1 1 unit01 zero_le_one, hw, fun i => ?_, 0, 1, by simp [limits], by rw [bend_speeds]; simpa using hs⟩
  rw [bend_speeds]
  split
  · exact hs.le
  · exact zero_le_one

/-- The same with continuous validation: a path is accepted, and a trajectory is made of it. -/
example : ∃ w, Cars.SafeVec world (ini ⟨[arc1], arc1_chain⟩) (fin ⟨[arc1], arc1_chain⟩) (Cars.pathVector [⟨[arc1], arc1_chain⟩]) ∧
    timeParam Sum.inl limits (Cars.pathVector (X := world) [⟨[arc1], arc1_chain⟩]) = .ok (some w) := by
  have hpi := Real.pi_gt_three
  have hs : 0 < Real.sin 1 := Real.sin_pos_of_pos_of_le_one one_pos le_rfl
  have t1 : arc1.t1 = 1 := by simp [arc1, CC.create]
  have t0 : arc1.t0 = 0 := rfl
  have harg : Complex.arg ⟨arc1.init.c, arc1.init.s⟩ = 0 := by
    have : (⟨arc1.init.c, arc1.init.s⟩ : ℂ) = 1 := by rw [Complex.ext_iff]; simp [arc1, CC.create]
    rw [this, Complex.arg_one]
  have hsw : arc1.sweep 0 1 = (0, 1) := by simp [CC.sweep, arc1, CC.create]
  have hang : arc1.angles 0 1 = (0, 1) := by
    unfold CC.angles
    simp only [harg, hsw]
    norm_num
  have hb : arc1.velocityBound arc1.t0 arc1.t1 = (1, Real.sin 1, 1) := by
    rw [t0, t1]
    unfold CC.velocityBound
    rw [if_neg (by rw [t0, t1]; norm_num)]
    simp only [hsw, hang]
    rw [if_pos (by simp [arc1, CC.create]), if_neg (by linarith)]
    simp only [absCosineMax, absSineMax]
    rw [if_pos (by linarith), if_pos (by linarith), Real.cos_zero, abs_one, max_eq_left (Real.abs_cos_le_one _)]
    simp [arc1, CC.create]
  have hsp : ∀ i, 0 < speeds (Sum.inl : Fin 3 → Dof (Fin 0)) arc1 i := by
    intro i
    fin_cases i <;> simp [speeds, CC.fullBound, hb, hs]
  have hp := pathVector_eq (X := world) [⟨[arc1], arc1_chain⟩]
  obtain ⟨r, hr⟩ := defined_of (X := world) Sum.inl limits [⟨[arc1], arc1_chain⟩] (by simp [limits]) (by simp [limits]) (by norm_num [limits]) (by
    intro i x hx
    simp only [limits] at hx ⊢
    split at hx
    · obtain rfl := Option.some.inj hx; norm_num
    · cases hx) (by
    intro K hK _
    rw [hp] at hK
    simp only [List.map_cons, List.map_nil, List.flatMap_cons, List.flatMap_nil, paths_vec, List.append_nil, List.mem_singleton] at hK
    subst hK
    exact ⟨fun i => (hsp i).le, 0, 1, by simp [limits], hsp 0⟩)
  cases r with
  | some w => exact ⟨w, ⟨_, by simp, rfl, accepted.2⟩, hr⟩
  | none =>
    have := C165_still _ _ hr
    rw [hp, total_flat] at this
    simp [total, ccOps, Ops.len, t0, t1] at this

end Demo

end Verif.Planner.CarsSampled
