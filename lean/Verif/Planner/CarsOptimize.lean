import Verif.Planner.Cars
import Verif.Optim.RandomShortcut
import Verif.Optim.SimpleShortcut
set_option linter.unusedSectionVars false

/-!
# Path optimizers on the paths of cars (C161)

The path returned by a planner for cars is a vector of vectors of arcs (`Planner/Cars.lean`).  `RandomShortcut` and `SimpleShortcut` are run on it, any number of times and in any order, with the
steering method of the car and continuous validation: extraction inside of nested vectors (C21) cuts arcs, and shortcuts are vectors of arcs.

Simplifications: those of `Planner/Cars.lean`.
-/
namespace Verif.Planner.Cars
open Verif.Car Verif.CV Verif.PathV Verif.Planner Verif.Roadmap
open Classical

variable {ι : Type} [Fintype ι]

/-- Vectors of arcs, the pieces of the paths to optimize. -/
abbrev Piece (ι : Type) := Vec ℝ (Cfg (ι → ℝ) Unit) (CC (ι → ℝ) Unit)

/-- Vectors of vectors of arcs. -/
abbrev Whole (ι : Type) := Vec ℝ (Cfg (ι → ℝ) Unit) (Piece ι)

/-- The calls of the shortcut optimizers: path-optimizer.cc:48-57 (steer, no projector), `initial ()` and `end ()` of the pieces (path-vector.hh:128-132; any value on empty vectors), the distance
and the validation of the problem.  Steering and distance are only called with configurations, whose heading is a unit vector. -/
noncomputable def optEnv (X : World ι) : Optim.Env ℝ (Cfg (ι → ℝ) Unit) (Piece ι) where
  O := vecOps ccOps
  ini v := (v.paths.head?.map (·.init)).getD ⟨0, 0, 0, 0, 0, ()⟩
  fin v := (v.paths.getLast?.map (·.fin)).getD ⟨0, 0, 0, 0, 0, ()⟩
  dist a b := if h : a.Unit ∧ b.Unit then X.metric ⟨a, h.1⟩ ⟨b, h.2⟩ else 0
  steer a b := if h : a.Unit ∧ b.Unit then ((env X).steer ⟨a, h.1⟩ ⟨b, h.2⟩).map (fun p => vec p.1) else none
  valid v := match checkArcs X.prog X.pairs v with
    | .error _ => false
    | .ok r => r.1

/-- An optimizer of the list. -/
inductive Opt (X : World ι) where
  | random (eps : ℝ) (n : Nat) (shoot : Nat → ℝ → ℝ → Option (ℝ × ℝ)) (stop : Nat → Bool) (fuel : Nat)
  | simple (heur : Roadmap (Conf ι) (SP X) → Nat → ℝ)

/-- The pieces that are paths of the problem (all of them are: `pieces_eq`). -/
noncomputable def pieces (X : World ι) (ps : List (Piece ι)) : List (SP X) := ps.filterMap fun v => if h : Chain X v.paths then some ⟨v.paths, h⟩ else none

/-- `optimize` of the optimizer; `none`: exception, or not finished. -/
noncomputable def Opt.apply (X : World ι) (v : Whole ι) : Opt X → Option (Whole ι)
  | .random eps n shoot stop fuel => match Optim.randomShortcut (optEnv X) eps n shoot stop fuel v with
    | .path w => some w
    | _ => none
  | .simple heur => match pieces X v.paths with
    | [] => none
    | p :: ps => match Optim.Simple.simpleShortcut (env X) heur (ini p) (p :: ps) with
      | .ok l => some (pathVector l)
      | .error _ => none

/-- `optimizePath`: problem-solver.cc:351-358. -/
noncomputable def optimizeAll (X : World ι) : List (Opt X) → Whole ι → Option (Whole ι)
  | [], v => some v
  | o :: os, v => match o.apply X v with
    | none => none
    | some w => optimizeAll X os w

/-- The random parameters of the shortcuts are ordered and in the range of the path: random-shortcut.cc:181-190 (`shootTimes_ordered`). -/
def Opt.Ok {X : World ι} : Opt X → Prop
  | .random _ n shoot _ _ => n ≠ 0 ∧ ∀ it t0 t3 t1 t2, t0 ≤ t3 → shoot it t0 t3 = some (t1, t2) → t0 ≤ t1 ∧ t1 ≤ t2 ∧ t2 ≤ t3
  | .simple _ => True

/-! ## Lemmas -/

variable {X : World ι}

/-- The pieces that are paths of the problem. -/
def Fit (X : World ι) (v : Piece ι) : Prop := v = vec v.paths ∧ Chain X v.paths

theorem fit_vec (p : SP X) : Fit X (vec p.1) := ⟨by rw [paths_vec], by rw [paths_vec]; exact p.2⟩

theorem fit_of {v : Piece ι} (h : Fit X v) : ∃ p : SP X, v = vec p.1 := ⟨⟨v.paths, h.2⟩, h.1⟩

/-- The invariant: a vector of valid pieces between successive configurations. -/
def SafeVec (X : World ι) (a b : Conf ι) (v : Whole ι) : Prop := ∃ l : List (SP X), l ≠ [] ∧ v = pathVector l ∧ Connects (env X) (Valid X) a l b

theorem pieces_eq (l : List (SP X)) : pieces X (l.map fun p => vec p.1) = l := by
  induction l with
  | nil => rfl
  | cons p l ih =>
    have hc : Chain X (vec p.1).paths := by rw [paths_vec]; exact p.2
    unfold pieces at ih ⊢
    rw [List.map_cons, List.filterMap_cons_some (b := p), ih]
    rw [dif_pos hc]
    congr 1
    exact Subtype.ext (paths_vec p.1)

theorem vlo (p : SP X) : (vecOps (ccOps (E := ι → ℝ) (W := Unit))).lo (vec p.1) = 0 := by show (vec p.1).tr.1 = 0; rw [tr_vec]
theorem vhi (p : SP X) : (vecOps (ccOps (E := ι → ℝ) (W := Unit))).hi (vec p.1) = total ccOps p.1 := by show (vec p.1).tr.2 = _; rw [tr_vec]
theorem vlen (p : SP X) : (vecOps (ccOps (E := ι → ℝ) (W := Unit))).len (vec p.1) = total ccOps p.1 := by unfold Ops.len; rw [vlo, vhi, sub_zero]

/-- Values of a vector of arcs: those of its arcs. -/
theorem vec_value (p : SP X) {t : ℝ} (h0 : 0 ≤ t) (h1 : t ≤ total ccOps p.1) : ∃ K ∈ p.1, ∃ u, K.t0 ≤ u ∧ u ≤ K.t1 ∧ evalV ccOps (vec p.1) t = .ok (K.eval u) := by
  obtain ⟨j, K, u, -, m2, m3, m4, -, -, m5⟩ := C19_eval ccOps (vec p.1) (by rw [paths_vec]; exact p.2.ne) (by rw [paths_vec]; exact fun K hK => (p.2.arc K hK).1.le) t h0 (by rw [paths_vec]; exact h1)
  rw [paths_vec] at m2
  rw [cons_vec] at m5
  exact ⟨K, List.mem_of_getElem? m2, u, m3, m4, m5⟩

/-- Every value of every arc of a vector is one of the vector. -/
theorem arc_value (p : SP X) {K : CC (ι → ℝ) Unit} (hK : K ∈ p.1) {u : ℝ} (h0 : K.t0 ≤ u) (h1 : u ≤ K.t1) :
    ∃ t, 0 ≤ t ∧ t ≤ total ccOps p.1 ∧ evalV ccOps (vec p.1) t = .ok (K.eval u) := by
  obtain ⟨A, B, e⟩ := List.append_of_mem hK
  have hlen : ∀ K ∈ p.1, 0 ≤ ccOps.len K := fun K hK => sub_nonneg.2 (p.2.arc K hK).1.le
  have hA : ∀ K ∈ A, 0 ≤ ccOps.len K := fun k hk => hlen k (by rw [e]; simp [hk])
  have hB : ∀ K ∈ B, 0 ≤ ccOps.len K := fun k hk => hlen k (by rw [e]; simp [hk])
  have hch := chained_of (fun K hK => (p.2.arc K hK).1) p.2.link
  have := chained_at ccOps A B K (u - K.t0) hA (by rw [← e]; exact hch) (by linarith) (by show u - K.t0 ≤ K.t1 - K.t0; linarith)
  have tA := PathV.total_nonneg ccOps A hA
  have tB := PathV.total_nonneg ccOps B hB
  refine ⟨total ccOps A + (u - K.t0), by linarith, ?_, ?_⟩
  · rw [e, total_append, total_cons]
    have : ccOps.len K = K.t1 - K.t0 := rfl
    linarith
  · rw [evalV_none _ _ (cons_vec p.1), paths_vec, e, this]
    show (Except.ok (K.eval (K.t0 + (u - K.t0))) : Except PathV.Err _) = _
    rw [add_sub_cancel]

/-- The arcs considered. -/
def ArcG (X : World ι) (K : CC (ι → ℝ) Unit) : Prop := Arc K ∧ K.t0 = 0 ∧ (K.curvature = 0 ∨ |K.curvature| = 1 / X.rho)

theorem arc_lawful (X : World ι) : LawfulF ccOps (ArcG X) := by
  refine ⟨fun K hK => sub_nonneg.2 hK.1.le, ?_⟩
  intro K a b r hK h1 h2 h3 hr
  obtain rfl := Except.ok.inj hr
  obtain ⟨x1, x2, x3, x4⟩ := hK.1.extract h1 h2 h3
  refine ⟨⟨x1, x2, hK.2.2⟩, ?_, ?_⟩
  · show (K.extract a b).t1 - (K.extract a b).t0 = _
    rw [x2, x3, sub_zero]
  · intro x y0 y1
    show (Except.ok ((K.extract a b).eval ((K.extract a b).t0 + x)) : Except PathV.Err _) = .ok (K.eval (a + x))
    rw [x2, zero_add, x4 x y0 y1]

theorem link_of_chained {l : Arcs ι} (ha : ∀ K ∈ l, Arc K) (h : Chained ccOps l) : l.IsChain (fun K L => K.fin = L.init) := by
  induction l with
  | nil => exact List.IsChain.nil
  | cons K l ih =>
    unfold Chained at h
    rw [List.isChain_cons] at h ⊢
    refine ⟨fun L hL => ?_, ih (fun K hK => ha K (List.mem_cons_of_mem _ hK)) h.2⟩
    have h1 : (Except.ok (K.eval K.t1) : Except PathV.Err _) = .ok (L.eval L.t0) := h.1 L hL
    rw [fin_eq (ha K (by simp)), init_eq L]
    exact Except.ok.inj h1

/-- Extraction inside of a vector of arcs gives a vector of arcs. -/
theorem fit_lawful (X : World ι) : LawfulF (vecOps ccOps) (Fit X) := by
  refine ⟨?_, ?_⟩
  · intro v hv
    obtain ⟨p, rfl⟩ := fit_of hv
    rw [vlen]
    exact total_nonneg p.2
  · intro v a b r hv h1 h2 h3 hr
    obtain ⟨p, rfl⟩ := fit_of hv
    rw [vlo] at h1
    rw [vhi] at h3
    obtain ⟨k1, k2, k3, k4, k5⟩ := extract_fwd (arc_lawful X) (vec p.1) ⟨by rw [tr_vec, paths_vec], by rw [paths_vec]; exact p.2.arc⟩ (evalV_none _ _ (cons_vec p.1)) a b h1 h2
      (by rw [paths_vec]; exact h3) r hr
    have hch := k5 (by rw [paths_vec]; exact chained_of (fun K hK => (p.2.arc K hK).1) p.2.link)
    have hr0 : r.tr.1 = 0 := by rw [k2.1]
    have hne : r.paths ≠ [] := by
      intro hn
      have := k4 0 le_rfl (by linarith)
      obtain ⟨K, -, u, -, -, e⟩ := vec_value p (t := a + 0) (by linarith) (by linarith)
      have this : evalV ccOps r 0 = evalV ccOps (vec p.1) (a + 0) := this
      rw [e, evalV, rankAtParam, if_pos hn] at this
      simp at this
    refine ⟨⟨?_, hne, k2.2, link_of_chained (fun K hK => (k2.2 K hK).1) hch⟩, ?_, ?_⟩
    · obtain ⟨c, tr, ps⟩ := r
      obtain rfl : c = none := k1
      have e : tr = (0, total ccOps ps) := k2.1
      subst e
      exact (vec_eq _).symm
    · show r.tr.2 - r.tr.1 = _
      rw [hr0, sub_zero, k2.1]; exact k3
    · intro x x0 x1
      show evalV ccOps r (r.tr.1 + x) = evalV ccOps (vec p.1) (a + x)
      rw [hr0, zero_add]
      exact k4 x x0 x1

theorem opt_ini (p : SP X) : (optEnv X).ini (vec p.1) = (ini p).1 := by
  show ((vec p.1).paths.head?.map (·.init)).getD _ = _
  rw [paths_vec, List.head?_eq_some_head p.2.ne]
  rfl

theorem opt_fin (p : SP X) : (optEnv X).fin (vec p.1) = (fin p).1 := by
  show ((vec p.1).paths.getLast?.map (·.fin)).getD _ = _
  rw [paths_vec, List.getLast?_eq_some_getLast p.2.ne]
  rfl

theorem opt_steer (hX : X.Ok) {a b : Cfg (ι → ℝ) Unit} {v : Piece ι} (h : (optEnv X).steer a b = some v) :
    ∃ p : SP X, v = vec p.1 ∧ (ini p).1 = a ∧ (fin p).1 = b := by
  simp only [optEnv] at h
  split at h
  · next hu =>
    obtain ⟨p, hp, rfl⟩ := Option.map_eq_some_iff.1 h
    obtain ⟨e1, e2⟩ := steer_spec hX hp
    exact ⟨p, rfl, by rw [e1], by rw [e2]⟩
  · simp at h

theorem opt_valid (hX : X.Ok) {p : SP X} (h : (optEnv X).valid (vec p.1) = true) : Valid X p := by
  obtain ⟨r, hr, -, -, h1, -⟩ := check_part hX p
  simp only [optEnv, hr] at h
  exact (h1 h).2

theorem optContract (hX : X.Ok) : Optim.Contract (optEnv X) (Fit X) := by
  exact {
    lawful := fit_lawful X
    ini v hv := by
      obtain ⟨p, rfl⟩ := fit_of hv
      rw [opt_ini]
      show evalV ccOps (vec p.1) (vec p.1).tr.1 = _
      rw [tr_vec]; exact (vec_ends p).1
    fin v hv := by
      obtain ⟨p, rfl⟩ := fit_of hv
      rw [opt_fin]
      show evalV ccOps (vec p.1) (vec p.1).tr.2 = _
      rw [tr_vec]; exact (vec_ends p).2
    steer a b v _ _ hs _ := by
      obtain ⟨p, rfl, -, -⟩ := opt_steer hX hs
      exact fit_vec p
    steer_ends a b v hs := by
      obtain ⟨p, rfl, e1, e2⟩ := opt_steer hX hs
      rw [opt_ini, opt_fin]
      exact ⟨e1, e2⟩ }

theorem whole_parts (l : List (SP X)) {a b : Conf ι} (h : Connects (env X) (Valid X) a l b) :
    (pathVector l).cons = none ∧ (pathVector l).tr.1 = 0 ∧ WF (vecOps ccOps) (Fit X) (pathVector l) ∧ Chained (vecOps ccOps) (pathVector l).paths := by
  obtain ⟨-, h2, -, -⟩ := connects_all l a b h
  rw [pathVector_eq]
  refine ⟨rfl, rfl, ⟨rfl, ?_⟩, ?_⟩
  · intro v hv
    obtain ⟨p, -, rfl⟩ := List.mem_map.1 hv
    exact fit_vec p
  · unfold Chained
    rw [List.isChain_map]
    refine h2.imp fun p q e => ?_
    rw [vlo, vhi]
    show evalV ccOps (vec p.1) _ = evalV ccOps (vec q.1) 0
    rw [(vec_ends p).2, (vec_ends q).1, e]

/-- A continuous vector whose configurations are free is one of the vectors considered. -/
theorem safeVec_of {a b : Conf ι} {w : Whole ι} (hcons : w.cons = none) (hne : w.paths ≠ []) (hwf : WF (vecOps ccOps) (Fit X) w) (hch : Chained (vecOps ccOps) w.paths)
    (h0 : evalV (vecOps ccOps) w w.tr.1 = .ok a.1) (h1 : evalV (vecOps ccOps) w w.tr.2 = .ok b.1)
    (hf : ∀ s, w.tr.1 ≤ s → s ≤ w.tr.2 → ∀ q, evalV (vecOps ccOps) w s = .ok q → CarFree X.pairs q) : SafeVec X a b w := by
  obtain ⟨c, tr, ps⟩ := w
  obtain ⟨hw1, hw2⟩ := hwf
  simp only at hcons hne hch hw1 hw2
  subst hcons hw1
  obtain ⟨l, rfl⟩ : ∃ l : List (SP X), l.map (fun p => vec p.1) = ps := by
    refine ⟨ps.attach.map fun v => ⟨v.1.paths, (hw2 _ v.2).2⟩, ?_⟩
    rw [List.map_map]
    conv_rhs => rw [← List.attach_map_subtype_val ps]
    apply List.map_congr_left
    intro v _
    exact (hw2 _ v.2).1.symm
  have hl : l ≠ [] := fun h => hne (by rw [h]; rfl)
  have hlen : ∀ v ∈ l.map fun p => vec p.1, 0 ≤ (vecOps ccOps).len v := fun v hv => (fit_lawful X).nonneg v (hw2 v hv)
  have hev : ∀ s, evalV (vecOps ccOps) ⟨none, (0, total (vecOps ccOps) (l.map fun p => vec p.1)), l.map fun p => vec p.1⟩ s =
      evalU (vecOps ccOps) (l.map fun p => vec p.1) s := fun s => evalV_none _ _ rfl s
  simp only [hev] at h0 h1 hf
  have htotal : ∀ ps : List (SP X), 0 ≤ total (vecOps ccOps) (ps.map fun p => vec p.1) := by
    intro ps
    apply PathV.total_nonneg
    intro v hv
    obtain ⟨p, -, rfl⟩ := List.mem_map.1 hv
    rw [vlen]; exact total_nonneg p.2
  have hat : ∀ A Bs (p : SP X) u, l = A ++ p :: Bs → 0 ≤ u → u ≤ total ccOps p.1 →
      evalU (vecOps ccOps) (l.map fun p => vec p.1) (total (vecOps ccOps) (A.map fun p => vec p.1) + u) = evalV ccOps (vec p.1) u := by
    intro A Bs p u e u0 u1
    have e1 : l.map (fun p => vec p.1) = A.map (fun p => vec p.1) ++ vec p.1 :: Bs.map (fun p => vec p.1) := by rw [e, List.map_append, List.map_cons]
    have := chained_at (vecOps ccOps) (A.map fun p => vec p.1) (Bs.map fun p => vec p.1) (vec p.1) u (fun q hq => hlen q (by rw [e1]; exact List.mem_append_left _ hq))
      (by rw [← e1]; exact hch) u0 (by rw [vlen]; exact u1)
    rw [e1, this, vlo, zero_add]
    rfl
  have hvalid : ∀ p ∈ l, Valid X p := by
    intro p hp K hK t t0 t1
    obtain ⟨A, Bs, e⟩ := List.append_of_mem hp
    obtain ⟨u, u0, u1, eu⟩ := arc_value p hK t0 t1
    refine hf (total (vecOps ccOps) (A.map fun p => vec p.1) + u) (add_nonneg (htotal A) u0) ?_ _ ((hat A Bs p u e u0 u1).trans eu)
    have e2 : total (vecOps ccOps) (l.map fun p => vec p.1) = total (vecOps ccOps) (A.map fun p => vec p.1) + (total ccOps p.1 + total (vecOps ccOps) (Bs.map fun p => vec p.1)) := by
      rw [e, List.map_append, List.map_cons, total_append, total_cons, vlen]
    rw [e2]
    have := htotal Bs
    linarith
  refine ⟨l, hl, (pathVector_eq l).symm, ?_⟩
  have hini : ∀ p, l.head? = some p → ini p = a := by
    intro p hp
    obtain ⟨Bs, rfl⟩ : ∃ Bs, l = p :: Bs := by
      cases l with
      | nil => simp at hp
      | cons x l => simp only [List.head?_cons, Option.some.injEq] at hp; subst hp; exact ⟨l, rfl⟩
    have := hat [] Bs p 0 rfl le_rfl (total_nonneg p.2)
    simp only [List.map_nil, total_nil, add_zero] at this
    exact Subtype.ext (Except.ok.inj ((vec_ends p).1.symm.trans (this.symm.trans h0)))
  have hfin : ∀ p, l.getLast? = some p → fin p = b := by
    intro p hp
    obtain ⟨A, rfl⟩ : ∃ A, l = A ++ [p] := ⟨l.dropLast, by
      have := List.dropLast_append_getLast hl
      rw [List.getLast?_eq_some_getLast hl, Option.some.injEq] at hp
      rw [hp] at this
      exact this.symm⟩
    have := hat A [] p (total ccOps p.1) rfl (total_nonneg p.2) le_rfl
    have e2 : total (vecOps ccOps) ((A ++ [p]).map fun p => vec p.1) = total (vecOps ccOps) (A.map fun p => vec p.1) + total ccOps p.1 := by
      rw [List.map_append, total_append, List.map_cons, List.map_nil, total_cons, total_nil, vlen, add_zero]
    rw [← e2] at this
    exact Subtype.ext (Except.ok.inj ((vec_ends p).2.symm.trans (this.symm.trans h1)))
  clear hat hev h0 h1 hf hlen hw2 hne
  induction l generalizing a with
  | nil => exact absurd rfl hl
  | cons p l ih =>
    refine ⟨hvalid p (by simp), hini p rfl, ?_⟩
    cases l with
    | nil => exact hfin p rfl
    | cons y l =>
      unfold Chained at hch
      rw [List.map_cons, List.isChain_cons] at hch
      have hy : ini y = fin p := by
        have h2 := hch.1 (vec y.1) (by simp)
        rw [vlo, vhi] at h2
        have h2 : evalV ccOps (vec p.1) _ = evalV ccOps (vec y.1) 0 := h2
        rw [(vec_ends p).2, (vec_ends y).1] at h2
        exact (Subtype.ext (Except.ok.inj h2)).symm
      refine ih (a := fin p) hch.2 (by simp) (fun q hq => hvalid q (by simp [hq])) ?_ ?_
      · intro q hq
        simp only [List.head?_cons, Option.some.injEq] at hq
        subst hq
        exact hy
      · intro q hq
        exact hfin q (by rw [List.getLast?_cons_cons]; exact hq)

theorem connects_mono {V W : SP X → Prop} (hVW : ∀ p, V p → W p) {l : List (SP X)} {a b : Conf ι} (h : Connects (env X) V a l b) : Connects (env X) W a l b := by
  induction l generalizing a with
  | nil => exact h
  | cons p l ih => exact ⟨hVW p h.1, h.2.1, ih h.2.2⟩

/-! ## C161 -/

theorem optSteer_eq (a b : Conf ι) : Optim.Simple.optSteer (env X) a b = (env X).steer a b := by
  unfold Optim.Simple.optSteer
  cases h : (env X).steer a b with
  | none => rfl
  | some p => rfl

/-- One optimizer. -/
theorem apply_safe (hX : X.Ok) (hsep : Separates (env X).toEnv) (o : Opt X) (ho : o.Ok) {a b : Conf ι} (hab : a ≠ b) {v w : Whole ι}
    (h : SafeVec X a b v) (hw : o.apply X v = some w) : SafeVec X a b w := by
  obtain ⟨l, hne, rfl, hc⟩ := h
  have hs := safe_of_connects l a b hne hc
  obtain ⟨p1, p2, p4, p5⟩ := whole_parts l hc
  have hpaths : (pathVector l).paths = l.map fun p => vec p.1 := by rw [pathVector_eq]
  have p3 : (pathVector l).paths ≠ [] := by rw [hpaths]; exact fun e => hne (List.map_eq_nil_iff.1 e)
  cases o with
  | random eps n shoot stop fuel =>
    simp only [Opt.apply] at hw
    split at hw
    · next w' hr =>
      obtain rfl := Option.some.inj hw
      obtain ⟨k0, k1, k2, k3, k4, k5, -, -, k6⟩ := Optim.C42_random (optContract hX) ho.1 shoot ho.2 stop fuel (pathVector l) w' p1 p3 p4 p5 hr
      refine safeVec_of k0 k2 k1 k3 (k4.trans ?_) (k5.trans hs.fin) (k6 (CarFree X.pairs) ?_ ?_)
      · rw [p2]; exact hs.ini
      · intro x y v _ _ hst hv u u0 u1 q hq
        obtain ⟨p, rfl, -, -⟩ := opt_steer hX hst
        have hval := opt_valid hX hv
        have u1 : u ≤ (vecOps ccOps).len (vec p.1) := u1
        have hq : evalV ccOps (vec p.1) ((vec p.1).tr.1 + u) = .ok q := hq
        rw [vlen] at u1
        rw [tr_vec, zero_add] at hq
        obtain ⟨K, hK, t, t0, t1, e⟩ := vec_value p u0 u1
        rw [e] at hq
        obtain rfl := Except.ok.inj hq
        exact hval K hK t t0 t1
      · intro s s0 s1 q hq
        rw [p2] at s0
        obtain ⟨K, -, u, -, -, e, hf⟩ := hs.free s s0 s1
        obtain rfl := Except.ok.inj (e.symm.trans hq)
        exact hf
    · exact absurd hw (by simp)
  | simple heur =>
    simp only [Opt.apply, hpaths, pieces_eq] at hw
    obtain ⟨p, ps, rfl⟩ := List.exists_cons_of_ne_nil hne
    have ea : ini p = a := hc.2.1
    simp only [ea] at hw
    obtain ⟨l', e1, e2, e3⟩ := Optim.Simple.C42_simple (C := env X) hsep (fun x y p hp => steer_spec hX ((optSteer_eq x y).symm.trans hp)) heur (connects_mono (fun _ _ => trivial) hc) (Or.inl hab)
    rw [e1] at hw
    obtain rfl := Option.some.inj hw
    rcases e3 with e3 | ⟨e, -⟩
    · refine ⟨l', e2, rfl, connects_mono ?_ e3⟩
      rintro x (hx | ⟨y, z, hy, hv⟩)
      · exact (connects_all _ a b hc).1 x hx
      · exact ((contract hX).valid_true false x hv).1
    · exact absurd e hab

theorem optimize_safe (hX : X.Ok) (hsep : Separates (env X).toEnv) (os : List (Opt X)) (hos : ∀ o ∈ os, o.Ok) {a b : Conf ι} (hab : a ≠ b) {v w : Whole ι}
    (h : SafeVec X a b v) (hw : optimizeAll X os v = some w) : SafeVec X a b w := by
  induction os generalizing v with
  | nil => obtain rfl := Option.some.inj hw; exact h
  | cons o os ih =>
    unfold optimizeAll at hw
    split at hw
    · exact absurd hw (by simp)
    · next v' hv => exact ih (fun x hx => hos x (by simp [hx])) (apply_safe hX hsep o (hos o (by simp)) hab h hv) hw

/-- C161: any sequence of RandomShortcut and SimpleShortcut, with any number of shots and any interruption of each of them, on a sequence of valid paths of a car between two different
configurations: the path returned is a sequence of arcs, straight or of the minimal radius, each one starting where the previous one ends, between the same configurations, and nowhere along it do
two objects penetrate by more than twice the tolerance. -/
theorem C161_optimize_partial (hX : X.Ok) (hsep : Separates (env X).toEnv) (os : List (Opt X)) (hos : ∀ o ∈ os, o.Ok) {a b : Conf ι} (hab : a ≠ b) {l : List (SP X)} (hne : l ≠ [])
    (h : Connects (env X) (Valid X) a l b) {w : Whole ι} (hw : optimizeAll X os (pathVector l) = some w) :
    Safe X (evalV (vecOps ccOps) w) w.tr.2 (w.paths.flatMap fun v => v.paths) a b := by
  obtain ⟨l', hne', rfl, hc⟩ := optimize_safe hX hsep os hos hab ⟨l, hne, rfl, h⟩ hw
  have := safe_of_connects l' a b hne' hc
  have e : ((pathVector l').paths.flatMap fun v => v.paths) = l'.flatMap fun p => p.1 := by
    rw [pathVector_eq]
    simp only [List.flatMap_map, paths_vec]
  rw [e]
  exact this

/-- C161: SimpleShortcut always returns a path. -/
theorem C161_simple_ends (hX : X.Ok) (hsep : Separates (env X).toEnv) (heur : Roadmap (Conf ι) (SP X) → Nat → ℝ) {a b : Conf ι} (hab : a ≠ b) {l : List (SP X)} (hne : l ≠ [])
    (h : Connects (env X) (Valid X) a l b) : ∃ w, (Opt.simple heur).apply X (pathVector l) = some w := by
  have hpaths : (pathVector l).paths = l.map fun p => vec p.1 := by rw [pathVector_eq]
  simp only [Opt.apply, hpaths, pieces_eq]
  obtain ⟨p, ps, rfl⟩ := List.exists_cons_of_ne_nil hne
  have ea : ini p = a := h.2.1
  obtain ⟨l', e1, -, -⟩ := Optim.Simple.C42_simple (C := env X) hsep (fun x y p hp => steer_spec hX ((optSteer_eq x y).symm.trans hp)) heur (connects_mono (fun _ _ => trivial) h) (Or.inl hab)
  simp only [ea, e1]
  exact ⟨_, rfl⟩

theorem solves_safe (hX : X.Ok) (hsep : Separates (env X).toEnv) {q0 : Conf ι} {gs : List (Conf ι)} (hq : q0 ∉ gs) {l : List (SP X)} (h : Solves (env X) (Valid X) q0 gs l)
    (os : List (Opt X)) (hos : ∀ o ∈ os, o.Ok) {w : Whole ι} (hw : optimizeAll X os (pathVector l) = some w) :
    ∃ g ∈ gs, Safe X (evalV (vecOps ccOps) w) w.tr.2 (w.paths.flatMap fun v => v.paths) q0 g := by
  rcases h with ⟨g, hg, hne, hc⟩ | ⟨-, p, hp, -⟩
  · exact ⟨g, hg, C161_optimize_partial hX hsep os hos (fun e => hq (by rw [e]; exact hg)) hne hc hw⟩
  · rw [steer_self hX] at hp; simp at hp

/-- C161: planning for a car with the diffusing planner, then optimization. -/
theorem C161_diffusing_partial (hX : X.Ok) (hsep : Separates (env X).toEnv) (D : DiffParams ℝ) (heur : Roadmap (Conf ι) (SP X) → Nat → ℝ) (q0 : Conf ι) (gs : List (Conf ι)) (hq : q0 ∉ gs)
    (shoot : Nat → Conf ι) (st : Settings ℝ) (late intr : Nat → Bool) (fuel n : Nat) (l : List (SP X))
    (hl : solve (diffusing (env X) D heur q0 gs shoot) st late intr fuel (n, Roadmap.empty) = .path l) (os : List (Opt X)) (hos : ∀ o ∈ os, o.Ok) {w : Whole ι}
    (hw : optimizeAll X os (pathVector l) = some w) :
    ∃ g ∈ gs, Safe X (evalV (vecOps ccOps) w) w.tr.2 (w.paths.flatMap fun v => v.paths) q0 g :=
  solves_safe hX hsep hq (C67_diffusing (contract hX) D heur q0 gs shoot ⟨Inv.empty, by simp [Roadmap.empty]⟩ st late intr fuel n l hl) os hos hw

/-- C161: Visibility-PRM, then optimization. -/
theorem C161_visibility_partial (hX : X.Ok) (hsep : Separates (env X).toEnv) (heur : Roadmap (Conf ι) (SP X) → Nat → ℝ) (q0 : Conf ι) (gs : List (Conf ι)) (hq : q0 ∉ gs) (sample : Nat → Conf ι)
    (st : Settings ℝ) (late intr : Nat → Bool) (fuel : Nat) (x : Nat × (Nat → Bool)) (l : List (SP X))
    (hl : solve (visibility (env X) heur q0 gs sample) st late intr fuel (x, Roadmap.empty) = .path l) (os : List (Opt X)) (hos : ∀ o ∈ os, o.Ok) {w : Whole ι}
    (hw : optimizeAll X os (pathVector l) = some w) :
    ∃ g ∈ gs, Safe X (evalV (vecOps ccOps) w) w.tr.2 (w.paths.flatMap fun v => v.paths) q0 g :=
  solves_safe hX hsep hq (C67_visibility (contract hX) heur q0 gs sample (s := (x, Roadmap.empty)) ⟨Inv.empty, by simp [Roadmap.empty]⟩ st late intr fuel l hl) os hos hw

/-- C161: k-PRM*, then optimization. -/
theorem C161_kprm_partial {H : Type} (hX : X.Ok) (hsep : Separates (env X).toEnv) (C : KEnv (Conf ι) (SP X) ℝ H) (hC : C.toPEnv = env X) (hk : 0 < C.k) (hN : 0 < C.nodes)
    (heur : Roadmap (Conf ι) (SP X) → Nat → ℝ) (q0 : Conf ι) (gs : List (Conf ι)) (hq : q0 ∉ gs) (st : Settings ℝ) (late intr : Nat → Bool) (fuel : Nat) (x : KState)
    (l : List (SP X)) (hl : solve (kprm C heur q0 gs) st late intr fuel (x, Roadmap.empty) = .path l) (os : List (Opt X)) (hos : ∀ o ∈ os, o.Ok) {w : Whole ι}
    (hw : optimizeAll X os (pathVector l) = some w) :
    ∃ g ∈ gs, Safe X (evalV (vecOps ccOps) w) w.tr.2 (w.paths.flatMap fun v => v.paths) q0 g := by
  refine solves_safe hX hsep hq ?_ os hos hw
  rw [← hC]
  exact C67_kprm (by rw [hC]; exact contract hX) hk hN heur q0 gs (s := (x, Roadmap.empty)) ⟨Inv.empty, by simp [Roadmap.empty]⟩ st late intr fuel l hl

/-! ## Direction -/

/-- The arc is driven in the direction of the steering method. -/
def Sgn (X : World ι) (K : CC (ι → ℝ) Unit) : Prop := if X.back then K.curveLength ≤ 0 else 0 ≤ K.curveLength

/-- All arcs are driven in the direction of the steering method. -/
def Driven (X : World ι) (v : Whole ι) : Prop := ∀ u ∈ v.paths, ∀ K ∈ u.paths, Sgn X K

theorem sgn_extract {K : CC (ι → ℝ) Unit} (hK : K.t0 ≤ K.t1) (h : Sgn X K) {a b : ℝ} (hab : a ≤ b) : Sgn X (K.extract a b) := by
  have hc : 0 ≤ (b - a) / (K.t1 - K.t0) := div_nonneg (by linarith) (by linarith)
  have key : ∀ bk : Bool, (if bk then K.curveLength ≤ 0 else 0 ≤ K.curveLength) → (if bk then (K.extract a b).curveLength ≤ 0 else 0 ≤ (K.extract a b).curveLength) := by
    intro bk hk
    by_cases hL : K.t1 - K.t0 = 0
    · have e : (K.extract a b).curveLength = 0 := by simp [CC.extract, hL]
      rw [e]; simp
    · have e : (K.extract a b).curveLength = (b - a) / (K.t1 - K.t0) * K.curveLength := by simp [CC.extract, hL]
      rw [e]
      cases bk with
      | true => simp only [if_true] at hk ⊢; exact mul_nonpos_of_nonneg_of_nonpos hc hk
      | false => simp only [Bool.false_eq_true, if_false] at hk ⊢; exact mul_nonneg hc hk
  exact key X.back h

theorem steer_driven (hX : X.Ok) {a b : Conf ι} {p : SP X} (h : (env X).steer a b = some p) : ∀ K ∈ p.1, Sgn X K := by
  have hne : a.1.pose ≠ b.1.pose := by
    intro hne
    have e : path X a b = .error .nan := by
      unfold path
      split
      · exact C110_still_counterexample hX.radius X.extra a.2 b.2 hne _ _
      · exact (C87_steer hX.radius hX.extra a.2 b.2 hX.between _).2.2 hne
    simp [env, e] at h
  have key : ∀ l, path X a b = .ok l → (∀ K ∈ l, Sgn X K) → ∀ K ∈ p.1, Sgn X K := by
    intro l e hl
    simp only [env, e] at h
    split at h
    · have h := Option.some.inj h
      subst h
      exact hl
    · simp at h
  by_cases hb : X.back = true
  · obtain ⟨K1, K2, K3, e, -, -, -, -, hall, -⟩ := C110_snibud_partial hX.radius hX.extra a.2 b.2 hne hX.between (fun _ => ())
    exact key _ (by unfold path; rw [if_pos hb]; exact e) fun K hK => by unfold Sgn; rw [if_pos hb]; exact (hall K hK).2.2.1
  · obtain ⟨K1, K2, K3, e, -, -, -, -, hall, -⟩ := C87_dubins_partial hX.radius (hX.extra a.1 (extraEnd a.1 b.1)) a.2 b.2 hne hX.between (fun _ => ())
    exact key _ (by unfold path; rw [if_neg hb]; exact e) fun K hK => by unfold Sgn; rw [if_neg hb]; exact (hall K hK).2.2.1

/-- Pieces driven in the direction of the steering method. -/
def FitD (X : World ι) (v : Piece ι) : Prop := Fit X v ∧ ∀ K ∈ v.paths, Sgn X K

theorem fitD_lawful (X : World ι) : LawfulF (vecOps ccOps) (FitD X) := by
  refine ⟨fun v hv => (fit_lawful X).nonneg v hv.1, ?_⟩
  intro v a b r hv h1 h2 h3 hr
  obtain ⟨k1, k2, k3⟩ := (fit_lawful X).fwd v a b r hv.1 h1 h2 h3 hr
  refine ⟨⟨k1, ?_⟩, k2, k3⟩
  have hL : LawfulF ccOps fun K => ArcG X K ∧ Sgn X K := by
    refine ⟨fun K hK => (arc_lawful X).nonneg K hK.1, ?_⟩
    intro K a b r hK h1 h2 h3 hr
    obtain ⟨m1, m2, m3⟩ := (arc_lawful X).fwd K a b r hK.1 h1 h2 h3 hr
    refine ⟨⟨m1, ?_⟩, m2, m3⟩
    obtain rfl := Except.ok.inj hr
    exact sgn_extract hK.1.1.le hK.2 h2
  obtain ⟨hv, hd⟩ := hv
  obtain ⟨p, rfl⟩ := fit_of hv
  rw [vlo] at h1
  rw [vhi] at h3
  rw [paths_vec] at hd
  exact fun K hK => ((extract_fwd hL (vec p.1) ⟨by rw [tr_vec, paths_vec], by rw [paths_vec]; exact fun K hK => ⟨p.2.arc K hK, hd K hK⟩⟩ (evalV_none _ _ (cons_vec p.1)) a b h1 h2
    (by rw [paths_vec]; exact h3) r hr).2.1.2 K hK).2

theorem optContractD (hX : X.Ok) : Optim.Contract (optEnv X) (FitD X) := by
  exact {
    lawful := fitD_lawful X
    ini v hv := (optContract hX).ini v hv.1
    fin v hv := (optContract hX).fin v hv.1
    steer a b v _ _ hs _ := by
      have hs' := hs
      obtain ⟨p, rfl, -, -⟩ := opt_steer hX hs
      refine ⟨fit_vec p, ?_⟩
      simp only [optEnv] at hs'
      split at hs'
      · obtain ⟨p', hp, e⟩ := Option.map_eq_some_iff.1 hs'
        have e : p'.1 = p.1 := by rw [← paths_vec p'.1, ← paths_vec p.1]; exact congrArg (·.paths) e
        rw [paths_vec, ← e]
        exact steer_driven hX hp
      · simp at hs'
    steer_ends := (optContract hX).steer_ends }

theorem apply_driven (hX : X.Ok) (hsep : Separates (env X).toEnv) (o : Opt X) (ho : o.Ok) {a b : Conf ι} (hab : a ≠ b) {v w : Whole ι}
    (h : SafeVec X a b v) (hd : Driven X v) (hw : o.apply X v = some w) : Driven X w := by
  obtain ⟨l, hne, rfl, hc⟩ := h
  obtain ⟨p1, p2, p4, p5⟩ := whole_parts l hc
  have hpaths : (pathVector l).paths = l.map fun p => vec p.1 := by rw [pathVector_eq]
  have p3 : (pathVector l).paths ≠ [] := by rw [hpaths]; exact fun e => hne (List.map_eq_nil_iff.1 e)
  cases o with
  | random eps n shoot stop fuel =>
    simp only [Opt.apply] at hw
    split at hw
    · next w' hr =>
      obtain rfl := Option.some.inj hw
      obtain ⟨-, k1, -⟩ := Optim.C42_random (optContractD hX) ho.1 shoot ho.2 stop fuel (pathVector l) w' p1 p3 ⟨p4.1, fun u hu => ⟨p4.2 u hu, hd u hu⟩⟩ p5 hr
      exact fun u hu => (k1.2 u hu).2
    · exact absurd hw (by simp)
  | simple heur =>
    simp only [Opt.apply, hpaths, pieces_eq] at hw
    obtain ⟨p, ps, rfl⟩ := List.exists_cons_of_ne_nil hne
    have ea : ini p = a := hc.2.1
    simp only [ea] at hw
    obtain ⟨l', e1, e2, e3⟩ := Optim.Simple.C42_simple (C := env X) hsep (fun x y p hp => steer_spec hX ((optSteer_eq x y).symm.trans hp)) heur (connects_mono (fun _ _ => trivial) hc) (Or.inl hab)
    rw [e1] at hw
    obtain rfl := Option.some.inj hw
    rcases e3 with e3 | ⟨e, -⟩
    · have hall : ∀ (l : List (SP X)) (a : Conf ι) (V : SP X → Prop), Connects (env X) V a l b → ∀ p ∈ l, V p := by
        intro l
        induction l with
        | nil => simp
        | cons p l ih =>
          intro a V h x hx
          rcases List.mem_cons.1 hx with rfl | hx
          · exact h.1
          · exact ih _ V h.2.2 x hx
      intro u hu K hK
      rw [pathVector_eq] at hu
      obtain ⟨x, hx, rfl⟩ := List.mem_map.1 hu
      rcases hall l' a _ e3 x hx with hx | ⟨y, z, hy, -⟩
      · exact hd (vec x.1) (by rw [hpaths]; exact List.mem_map.2 ⟨x, hx, rfl⟩) K hK
      · rw [paths_vec] at hK
        exact steer_driven hX ((optSteer_eq y z).symm.trans hy) K hK
    · exact absurd e hab

/-- C161: optimizers never turn a path around: if the car drives all arcs of the initial path in the direction of the steering method (forward for Dubins, backward for Snibud), it does so along the
path that is returned. -/
theorem C161_direction (hX : X.Ok) (hsep : Separates (env X).toEnv) (os : List (Opt X)) (hos : ∀ o ∈ os, o.Ok) {a b : Conf ι} (hab : a ≠ b) {l : List (SP X)} (hne : l ≠ [])
    (h : Connects (env X) (Valid X) a l b) (hd : ∀ p ∈ l, ∀ K ∈ p.1, Sgn X K) {w : Whole ι} (hw : optimizeAll X os (pathVector l) = some w) :
    ∀ K ∈ w.paths.flatMap fun v => v.paths, if X.back then K.curveLength ≤ 0 else 0 ≤ K.curveLength := by
  have key : ∀ v : Whole ι, SafeVec X a b v → Driven X v → optimizeAll X os v = some w → Driven X w := by
    clear hw h hd hne
    induction os with
    | nil => intro v _ hd hw; obtain rfl := Option.some.inj hw; exact hd
    | cons o os ih =>
      intro v hv hd hw
      unfold optimizeAll at hw
      split at hw
      · exact absurd hw (by simp)
      · next v' hv' => exact ih (fun x hx => hos x (by simp [hx])) v' (apply_safe hX hsep o (hos o (by simp)) hab hv hv') (apply_driven hX hsep o (hos o (by simp)) hab hv hd hv') hw
  intro K hK
  obtain ⟨u, hu, hK⟩ := List.mem_flatMap.1 hK
  refine key _ ⟨l, hne, rfl, h⟩ ?_ hw u hu K hK
  intro u hu K hK
  rw [pathVector_eq] at hu
  obtain ⟨p, hp, rfl⟩ := List.mem_map.1 hu
  rw [paths_vec] at hK
  exact hd p hp K hK

/-! ## The car in front of a wall -/
namespace Demo
open Verif.Car.Demo

/-- The distance of the world of `Planner/Cars.lean` separates configurations. -/
theorem separates : Separates (env world).toEnv := by
  intro p q h
  have h : |p.1.x - q.1.x| + |p.1.y - q.1.y| + |p.1.c - q.1.c| + |p.1.s - q.1.s| ≤ |q.1.x - q.1.x| + |q.1.y - q.1.y| + |q.1.c - q.1.c| + |q.1.s - q.1.s| := h
  simp only [sub_self, abs_zero, add_zero] at h
  have h1 := abs_nonneg (p.1.x - q.1.x)
  have h2 := abs_nonneg (p.1.y - q.1.y)
  have h3 := abs_nonneg (p.1.c - q.1.c)
  have h4 := abs_nonneg (p.1.s - q.1.s)
  have e1 : p.1.x - q.1.x = 0 := abs_eq_zero.1 (by linarith)
  have e2 : p.1.y - q.1.y = 0 := abs_eq_zero.1 (by linarith)
  have e3 : p.1.c - q.1.c = 0 := abs_eq_zero.1 (by linarith)
  have e4 : p.1.s - q.1.s = 0 := abs_eq_zero.1 (by linarith)
  obtain ⟨⟨px, py, pc, ps, po, pw⟩, hp⟩ := p
  obtain ⟨⟨qx, qy, qc, qs, qo, qw⟩, hq⟩ := q
  simp only at e1 e2 e3 e4
  apply Subtype.ext
  obtain rfl : px = qx := by linarith
  obtain rfl : py = qy := by linarith
  obtain rfl : pc = qc := by linarith
  obtain rfl : ps = qs := by linarith
  have : po = qo := funext fun i => i.elim0
  subst this
  rfl

/-- On the path of this world, SimpleShortcut returns a path, to which `C161_optimize_partial` applies. -/
example : ∃ w, optimizeAll world [.simple fun _ _ => 0] (pathVector [⟨[arc1], arc1_chain⟩]) = some w ∧
    Safe world (evalV (vecOps ccOps) w) w.tr.2 (w.paths.flatMap fun v => v.paths) (ini ⟨[arc1], arc1_chain⟩) (fin ⟨[arc1], arc1_chain⟩) := by
  have hab : ini (X := world) ⟨[arc1], arc1_chain⟩ ≠ fin ⟨[arc1], arc1_chain⟩ := by
    intro h
    have h : arc1.init = arc1.fin := congrArg Subtype.val h
    have := congrArg Cfg.s h
    have e : arc1.fin.s = Real.sin 1 := by simp [arc1, CC.create, CC.eval, CC.ratio]
    rw [e] at this
    have h0 : arc1.init.s = 0 := rfl
    rw [h0] at this
    have := Real.sin_pos_of_pos_of_le_one one_pos le_rfl
    linarith
  obtain ⟨w, hw⟩ := C161_simple_ends world_ok separates (fun _ _ => 0) hab (by simp) accepted.2
  have e : optimizeAll world [.simple fun _ _ => 0] (pathVector [⟨[arc1], arc1_chain⟩]) = some w := by
    simp only [optimizeAll, hw]
  exact ⟨w, e, C161_optimize_partial world_ok separates _ (by simp [Opt.Ok]) hab (by simp) accepted.2 e⟩

/-- This path is driven forward. -/
example : ∀ p ∈ ([⟨[arc1], arc1_chain⟩] : List (SP world)), ∀ K ∈ p.1, Sgn world K := by
  intro p hp K hK
  rw [List.mem_singleton.1 hp, List.mem_singleton] at hK
  subst hK
  show (0 : ℝ) ≤ 1
  norm_num

end Demo

end Verif.Planner.Cars
