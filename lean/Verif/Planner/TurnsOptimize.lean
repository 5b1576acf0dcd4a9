import Verif.Planner.Turns
import Verif.Optim.RandomShortcut
import Verif.Optim.SimpleShortcut
set_option linter.unusedSectionVars false

/-!
# Planning followed by optimization, for robots with joints of any kind (C139)

As `Optimize`, without the assumption that the configuration space is a vector space: shortcuts never reverse a path, so that half turns do no harm here.
-/
namespace Verif.Turns
open Verif.PathV Verif.CV Verif.Planner
open Verif.EndToEnd (Mode)

variable {K C ι : Type} [Field K] [LinearOrder K] [IsStrictOrderedRing K] [FloorSemiring K] [Fintype ι]

/-- The calls of the shortcut optimizers: path-optimizer.cc:48-57 (steer), `initial()`, `end()`, `problem()->distance()` and path validation. -/
def optEnv (W : World K C ι) (hW : W.Ok) : Optim.Env K C (Line K C) where
  O := straightOps W.space
  ini p := conf W p p.pr.1
  fin p := conf W p p.pr.2
  dist := W.metric
  steer a b := some (line W hW a b).1.1
  valid p := match check W false p with
    | .error _ => false
    | .ok (v, _) => v

/-- An optimizer of the list. -/
inductive Opt (W : World K C ι) where
  | random (eps : K) (n : Nat) (shoot : Nat → K → K → Option (K × K)) (stop : Nat → Bool) (fuel : Nat)
  | simple (heur : Roadmap.Roadmap C (SP W) → Nat → K)

/-- The paths of the problem, as a predicate. -/
def Fit (W : World K C ι) (p : Line K C) : Prop := Built p ∧ W.Slow p

/-- A path without the ghost bit. -/
def fresh {W : World K C ι} (p : Line K C) (h : Fit W p) : SP W := ⟨(p, false), h.1, fun _ => h.2, fun h => by cases h⟩

open Classical in
/-- Pieces with the proof that they are built by the library (all of them are: `pieces_eq`). -/
noncomputable def pieces {W : World K C ι} (ps : List (Line K C)) : List (SP W) := ps.filterMap fun p => if h : Fit W p then some (fresh p h) else none

variable [DecidableEq C]

/-- `optimize` of the optimizer; `none`: exception, or not finished. -/
noncomputable def Opt.apply (W : World K C ι) (hW : W.Ok) (v : Vec K C (Line K C)) : Opt W → Option (Vec K C (Line K C))
  | .random eps n shoot stop fuel => match Optim.randomShortcut (optEnv W hW) eps n shoot stop fuel v with
    | .path w => some w
    | _ => none
  | .simple heur => match v.paths.head? with
    | none => none
    | some p => match Optim.Simple.simpleShortcut (env W hW) heur (conf W p p.pr.1) (pieces v.paths) with
      | .ok l => some (pathVector l)
      | .error _ => none

/-- `optimizePath`: problem-solver.cc:351-358. -/
noncomputable def optimizeAll (W : World K C ι) (hW : W.Ok) : List (Opt W) → Vec K C (Line K C) → Option (Vec K C (Line K C))
  | [], v => some v
  | o :: os, v => match o.apply W hW v with
    | none => none
    | some w => optimizeAll W hW os w

/-- The random parameters of the shortcuts are ordered and in the range of the path: random-shortcut.cc:181-190 (`shootTimes_ordered`). -/
def Opt.Ok {W : World K C ι} : Opt W → Prop
  | .random _ n shoot _ _ => n ≠ 0 ∧ ∀ it t0 t3 t1 t2, t0 ≤ t3 → shoot it t0 t3 = some (t1, t2) → t0 ≤ t1 ∧ t1 ≤ t2 ∧ t2 ≤ t3
  | .simple _ => True

/-! ## Lemmas -/

variable {W : World K C ι}

/-- Valid, and without the ghost bit. -/
def Clean (W : World K C ι) (p : SP W) : Prop := Valid W p.1.1 ∧ p.1.2 = false

/-- The invariant: a path vector of valid pieces between successive configurations. -/
def SafeVec (W : World K C ι) (hW : W.Ok) (a b : C) (v : Vec K C (Line K C)) : Prop :=
  ∃ l : List (SP W), l ≠ [] ∧ v = pathVector l ∧ Connects (env W hW) (Clean W) a l b

omit [DecidableEq C] in
theorem fit_of (p : SP W) (h : p.1.2 = false) : Fit W (bare p) := ⟨p.2.1, p.2.2.1 h⟩

omit [DecidableEq C] in
theorem fresh_eq (p : SP W) (h : p.1.2 = false) : fresh (bare p) (fit_of p h) = p := Subtype.ext (Prod.ext rfl h.symm)

omit [DecidableEq C] in
theorem pieces_eq (l : List (SP W)) (h : ∀ p ∈ l, p.1.2 = false) : pieces (l.map bare) = l := by
  induction l with
  | nil => rfl
  | cons p l ih =>
    unfold pieces at ih ⊢
    rw [List.map_cons, List.filterMap_cons, dif_pos (fit_of p (h p (by simp)))]
    simp only [ih fun q hq => h q (by simp [hq]), fresh_eq p (h p (by simp))]

omit [DecidableEq C] in
theorem connects_all (hW : W.Ok) {V : SP W → Prop} {l : List (SP W)} {a b : C} (h : Connects (env W hW) V a l b) : ∀ p ∈ l, V p := by
  induction l generalizing a with
  | nil => simp
  | cons p l ih =>
    intro x hx
    rcases List.mem_cons.1 hx with rfl | hx
    · exact h.1
    · exact ih h.2.2 x hx

omit [DecidableEq C] in
theorem connects_start (hW : W.Ok) {l : List (SP W)} {a b : C} (hne : l ≠ []) (h : Connects (env W hW) (Clean W) a l b) : W.Free a := by
  obtain ⟨p, ps, rfl⟩ := List.exists_cons_of_ne_nil hne
  obtain ⟨h1, h2, -⟩ := h
  have h2' : conf W p.1.1 p.1.1.pr.1 = a := h2
  rw [← h2']
  exact h1.1 _ (by rw [p.2.1.1]) (good p)

omit [DecidableEq C] in
theorem safeVec_safe (hW : W.Ok) {a b : C} {v : Vec K C (Line K C)} (h : SafeVec W hW a b v) : Safe W (evalV (straightOps W.space) v) v.tr.2 a b := by
  obtain ⟨l, hne, rfl, hc⟩ := h
  exact (good_of_connects W hW l a b hne (connects_start hW hne hc) (connects_mono _ _ _ (fun _ hp => Or.inl (Or.inl hp.1)) l a b hc)).2.1 fun p hp => (connects_all hW hc p hp).2

omit [DecidableEq C] in
theorem eval_built {p : Line K C} (h : Built p) (t : K) : (straightOps W.space).eval p t = .ok (conf W p t) := by
  show constrained p.cons t (.ok (p.impl W.space t)) = _
  rw [h.2.2.1]; rfl

omit [DecidableEq C] in
/-- Parts in the same direction. -/
theorem built_forward (W : World K C ι) (hW : W.Ok) : LawfulF (straightOps W.space) (Fit W) := by
  refine ⟨fun p h => ?_, fun p a b r h h1 h2 h3 hr => ?_⟩
  · show 0 ≤ p.pr.2 - p.pr.1
    rw [h.1.1, sub_zero]; exact h.1.2.1
  · have h1' : p.pr.1 ≤ a := h1
    rw [h.1.1] at h1'
    have h3' : b ≤ p.pr.2 := h3
    obtain rfl := Except.ok.inj ((rawExt_eq W p h.1 a b).symm.trans hr)
    have hl : |b - a| = b - a := abs_of_nonneg (sub_nonneg.2 h2)
    refine ⟨⟨rawExt_built W p a b, slow_ext W hW h.1 h.2 h1' h2 h3'⟩, ?_, fun x x0 x1 => ?_⟩
    · show |b - a| - 0 = _
      rw [sub_zero, hl]
    · show (straightOps W.space).eval (rawExt W p a b) (0 + x) = _
      rw [zero_add, eval_built (rawExt_built W p a b), eval_built h.1, conf_ext W hW h.1 h1' h2 h3' x0 x1]

omit [DecidableEq C] in
theorem optContract (W : World K C ι) (hW : W.Ok) : Optim.Contract (optEnv W hW) (Fit W) where
  lawful := built_forward W hW
  ini p h := eval_built h.1 _
  fin p h := eval_built h.1 _
  steer a b p _ _ h _ := by
    obtain rfl := Option.some.inj h
    exact fit_of (line W hW a b) rfl
  steer_ends a b p h := by
    obtain rfl := Option.some.inj h
    exact ⟨ini_eq (hW := hW) (line W hW a b), fin_eq (hW := hW) (line W hW a b)⟩

omit [DecidableEq C] in
theorem safeVec_parts (hW : W.Ok) {a b : C} {v : Vec K C (Line K C)} (h : SafeVec W hW a b v) :
    v.cons = none ∧ v.tr.1 = 0 ∧ v.paths ≠ [] ∧ WF (straightOps W.space) (Fit W) v ∧ Chained (straightOps W.space) v.paths := by
  obtain ⟨l, hne, rfl, hc⟩ := h
  rw [pathVector_eq]
  refine ⟨rfl, rfl, fun h => hne (List.map_eq_nil_iff.1 h), ⟨rfl, ?_⟩, ?_⟩
  · intro p hp
    obtain ⟨x, hx, rfl⟩ := List.mem_map.1 hp
    exact fit_of x (connects_all hW hc x hx).2
  · clear hne
    show Chained _ (l.map bare)
    induction l generalizing a with
    | nil => exact List.IsChain.nil
    | cons p l ih =>
      obtain ⟨h1, h2, h3⟩ := hc
      unfold Chained
      rw [List.map_cons, List.isChain_cons]
      refine ⟨?_, ih h3⟩
      intro q hq
      cases l with
      | nil => simp at hq
      | cons y l =>
        rw [List.map_cons, List.head?_cons, Option.mem_some_iff] at hq
        subst hq
        show (straightOps W.space).eval (bare p) (bare p).pr.2 = (straightOps W.space).eval (bare y) (bare y).pr.1
        rw [eval_built (p := bare p) p.2.1, eval_built (p := bare y) y.2.1]
        exact congrArg _ h3.2.1.symm

omit [DecidableEq C] in
/-- Conversely. -/
theorem safeVec_of (hW : W.Ok) {a b : C} {w : Vec K C (Line K C)} (hcons : w.cons = none) (hne : w.paths ≠ [])
    (hwf : WF (straightOps W.space) (Fit W) w) (hch : Chained (straightOps W.space) w.paths)
    (h0 : evalV (straightOps W.space) w w.tr.1 = .ok a) (h1 : evalV (straightOps W.space) w w.tr.2 = .ok b)
    (hf : ∀ s, w.tr.1 ≤ s → s ≤ w.tr.2 → ∀ q, evalV (straightOps W.space) w s = .ok q → W.Free q) : SafeVec W hW a b w := by
  obtain ⟨c, tr, ps⟩ := w
  obtain ⟨hw1, hw2⟩ := hwf
  simp only at hcons hne hch hw1 hw2
  subst hcons hw1
  obtain ⟨l, rfl, hbit⟩ : ∃ l : List (SP W), l.map bare = ps ∧ ∀ p ∈ l, p.1.2 = false := by
    refine ⟨ps.attach.map fun p => fresh p.1 (hw2 _ p.2), ?_, ?_⟩
    · rw [List.map_map]
      exact List.attach_map_subtype_val ps
    · intro p hp
      obtain ⟨x, -, rfl⟩ := List.mem_map.1 hp
      rfl
  have hl : l ≠ [] := fun h => hne (by rw [h]; rfl)
  have hlen : ∀ p ∈ l.map bare, 0 ≤ (straightOps W.space).len p := fun p hp => (built_forward W hW).nonneg p (hw2 p hp)
  have hev : ∀ s, evalV (straightOps W.space) ⟨none, (0, total (straightOps W.space) (l.map bare)), l.map bare⟩ s =
      evalU (straightOps W.space) (l.map bare) s := fun s => evalV_none _ _ rfl s
  simp only [hev] at h0 h1 hf
  have hat : ∀ A Bs (p : SP W) u, l = A ++ p :: Bs → 0 ≤ u → u ≤ p.1.1.pr.2 →
      evalU (straightOps W.space) (l.map bare) (total (straightOps W.space) (A.map bare) + u) = .ok (conf W p.1.1 u) := by
    intro A Bs p u e u0 u1
    have e1 : l.map bare = A.map bare ++ bare p :: Bs.map bare := by rw [e, List.map_append, List.map_cons]
    have hp0 : (bare p).pr.1 = 0 := p.2.1.1
    have k : u ≤ (straightOps W.space).len (bare p) := by
      show u ≤ (bare p).pr.2 - (bare p).pr.1
      rw [hp0, sub_zero]; exact u1
    have := chained_at (straightOps W.space) (A.map bare) (Bs.map bare) (bare p) u (fun q hq => hlen q (by rw [e1]; exact List.mem_append_left _ hq))
      (by rw [← e1]; exact hch) u0 k
    rw [e1, this]
    show (straightOps W.space).eval (bare p) ((bare p).pr.1 + u) = _
    rw [hp0, zero_add]
    exact eval_built p.2.1 u
  have htotal : ∀ ps : List (SP W), 0 ≤ total (straightOps W.space) (ps.map bare) := by
    intro ps
    unfold total
    apply List.sum_nonneg
    intro x hx
    obtain ⟨p, hp, rfl⟩ := List.mem_map.1 hx
    obtain ⟨y, -, rfl⟩ := List.mem_map.1 hp
    exact sub_nonneg.2 (good y)
  have hvalid : ∀ p ∈ l, Valid W p.1.1 := by
    intro p hp t t0 t1
    obtain ⟨A, Bs, e⟩ := List.append_of_mem hp
    have hp0 : (bare p).pr.1 = 0 := p.2.1.1
    refine hf (total (straightOps W.space) (A.map bare) + t) (add_nonneg (htotal A) t0) ?_ _ (hat A Bs p t e t0 t1)
    have e1 : l.map bare = A.map bare ++ bare p :: Bs.map bare := by rw [e, List.map_append, List.map_cons]
    have e2 : total (straightOps W.space) (l.map bare) =
        total (straightOps W.space) (A.map bare) + (((bare p).pr.2 - (bare p).pr.1) + total (straightOps W.space) (Bs.map bare)) := by
      rw [e1]; unfold total; rw [List.map_append, List.sum_append, List.map_cons, List.sum_cons]; rfl
    show _ ≤ total (straightOps W.space) (l.map bare)
    rw [e2, hp0]
    have := htotal Bs
    have t1' : t ≤ (bare p).pr.2 := t1
    linarith
  refine ⟨l, hl, (pathVector_eq l).symm, ?_⟩
  -- the ends
  have hini : ∀ p, l.head? = some p → conf W p.1.1 p.1.1.pr.1 = a := by
    intro p hp
    obtain ⟨Bs, rfl⟩ : ∃ Bs, l = p :: Bs := by
      cases l with
      | nil => simp at hp
      | cons x l => simp only [List.head?_cons, Option.some.injEq] at hp; subst hp; exact ⟨l, rfl⟩
    have := hat [] Bs p 0 rfl le_rfl p.2.1.2.1
    simp only [List.map_nil, total, List.sum_nil, add_zero] at this
    rw [p.2.1.1]
    exact Except.ok.inj (this.symm.trans h0)
  have hfin : ∀ p, l.getLast? = some p → conf W p.1.1 p.1.1.pr.2 = b := by
    intro p hp
    obtain ⟨A, rfl⟩ : ∃ A, l = A ++ [p] := ⟨l.dropLast, by
      have := List.dropLast_append_getLast hl
      rw [List.getLast?_eq_getLast_of_ne_nil hl, Option.some.injEq] at hp
      rw [hp] at this
      exact this.symm⟩
    have := hat A [] p p.1.1.pr.2 rfl p.2.1.2.1 le_rfl
    have hp0 : (bare p).pr.1 = 0 := p.2.1.1
    have e2 : total (straightOps W.space) ((A ++ [p]).map bare) = total (straightOps W.space) (A.map bare) + p.1.1.pr.2 := by
      rw [List.map_append]; unfold total
      rw [List.map_append, List.sum_append]
      simp only [List.map_cons, List.map_nil, List.sum_cons, List.sum_nil, add_zero]
      show _ + ((bare p).pr.2 - (bare p).pr.1) = _
      rw [hp0, sub_zero]; rfl
    rw [← e2] at this
    exact Except.ok.inj (this.symm.trans h1)
  clear hat hev h0 h1 hf hlen hw2 hne
  induction l generalizing a with
  | nil => exact absurd rfl hl
  | cons p l ih =>
    refine ⟨⟨hvalid p (by simp), hbit p (by simp)⟩, hini p rfl, ?_⟩
    cases l with
    | nil => exact hfin p rfl
    | cons y l =>
      unfold Chained at hch
      rw [List.map_cons, List.isChain_cons] at hch
      have hy : conf W y.1.1 y.1.1.pr.1 = conf W p.1.1 p.1.1.pr.2 := by
        have h2 : (straightOps W.space).eval (bare p) (bare p).pr.2 = (straightOps W.space).eval (bare y) (bare y).pr.1 := hch.1 (bare y) (by simp)
        rw [eval_built (p := bare p) p.2.1, eval_built (p := bare y) y.2.1] at h2
        exact (Except.ok.inj h2).symm
      refine ih (a := conf W p.1.1 p.1.1.pr.2) (fun q hq => hbit q (by simp [hq])) hch.2 (by simp) (fun q hq => hvalid q (by simp [hq])) ?_ ?_
      · intro q hq
        simp only [List.head?_cons, Option.some.injEq] at hq
        subst hq
        exact hy
      · intro q hq
        exact hfin q (by rw [List.getLast?_cons_cons]; exact hq)

/-! ## C139 -/

/-- One optimizer. -/
theorem apply_safe (hW : W.Ok) (hself : ∀ q, W.metric q q = 0) (o : Opt W) (ho : o.Ok) {a b : C} {v w : Vec K C (Line K C)}
    (h : SafeVec W hW a b v) (hw : o.apply W hW v = some w) : SafeVec W hW a b w := by
  have hs := safeVec_safe hW h
  obtain ⟨p1, p2, p3, p4, p5⟩ := safeVec_parts hW h
  cases o with
  | random eps n shoot stop fuel =>
    simp only [Opt.apply] at hw
    split at hw
    · next w' hr =>
      obtain rfl := Option.some.inj hw
      obtain ⟨k0, k1, k2, k3, k4, k5, -, -, k6⟩ := Optim.C42_random (optContract W hW) ho.1 shoot ho.2 stop fuel v w' p1 p3 p4 p5 hr
      refine safeVec_of hW k0 k2 k1 k3 (k4.trans ?_) (k5.trans hs.fin) (k6 W.Free ?_ ?_)
      · rw [p2]; exact hs.ini
      · intro x y p _ _ hp hv u u0 u1 q hq
        obtain rfl := Option.some.inj hp
        obtain ⟨vv, vp, rep, m, hr', h1, -⟩ := check_ok W hW false (line W hW x y).2.1
        have hv' : vv = true := by
          have : (match check W false (line W hW x y).1.1 with | .error _ => false | .ok (v, _) => v) = true := hv
          rw [hr'] at this
          exact this
        have e : (straightOps W.space).eval (line W hW x y).1.1 (0 + u) = .ok q := hq
        rw [zero_add, eval_built (line W hW x y).2.1] at e
        obtain rfl := Except.ok.inj e
        refine (h1 hv').2 ((line W hW x y).2.2.1 rfl) u u0 ?_
        have : u ≤ (line W hW x y).1.1.pr.2 - 0 := u1
        rw [sub_zero] at this; exact this
      · intro s s0 s1 q hq
        rw [p2] at s0
        exact hs.free s q s0 s1 hq
    · exact absurd hw (by simp)
  | simple heur =>
    obtain ⟨l, hne, rfl, hc⟩ := h
    have hbit : ∀ p ∈ l, p.1.2 = false := fun p hp => (connects_all hW hc p hp).2
    obtain ⟨p, ps, rfl⟩ := List.exists_cons_of_ne_nil hne
    have ea : conf W p.1.1 p.1.1.pr.1 = a := hc.2.1
    have hpaths : (pathVector (p :: ps)).paths = (p :: ps).map bare := by rw [pathVector_eq]
    simp only [Opt.apply, hpaths, pieces_eq _ hbit] at hw
    rw [List.map_cons, List.head?_cons] at hw
    have ea' : conf W (bare p) (bare p).pr.1 = a := ea
    simp only [ea'] at hw
    obtain ⟨l', e1, e2, e3⟩ := Optim.Simple.C42_simple (C := env W hW) (fun x q hx => hW.zero x q (le_antisymm (by
        have : W.metric x q ≤ W.metric q q := hx
        rw [hself q] at this; exact this) (hW.nonneg x q)))
      (fun x y p hp => by obtain rfl := Option.some.inj hp; exact ⟨ini_eq _, fin_eq _⟩) heur (connects_mono _ _ _ (fun _ _ => trivial) _ _ _ hc)
      (Or.inr (Option.some_ne_none _))
    rw [e1] at hw
    obtain rfl := Option.some.inj hw
    have hfa := connects_start hW hne hc
    rcases e3 with e3 | ⟨rfl, q, hq, rfl⟩
    · refine ⟨l', e2, rfl, connects_mono _ _ _ ?_ _ _ _ e3⟩
      rintro x (hx | ⟨y, z, hy, hv⟩)
      · exact connects_all hW hc x hx
      · obtain rfl := Option.some.inj hy
        rcases validate_spec W hW false (line W hW y z) with ⟨-, -, k⟩ | ⟨k, -⟩
        · exact ⟨k.resolve_right (by intro h; cases h), rfl⟩
        · rw [k] at hv; exact absurd hv (by simp)
    · obtain rfl := Option.some.inj hq
      obtain ⟨k1, k2, k3⟩ := connects_refl W hW a hfa
      refine ⟨[line W hW a a], by simp, rfl, ⟨?_, rfl⟩, k2, k3⟩
      rcases k1 with (k1 | k1) | ⟨-, k1⟩
      · exact k1
      · cases k1
      · intro t t0 t1
        have e : (line W hW a a).1.1.pr.2 = 0 := hself a
        rw [conf_point W (line W hW a a).2.1 e]
        exact hfa

theorem optimize_safe (hW : W.Ok) (hself : ∀ q, W.metric q q = 0) (os : List (Opt W)) (hos : ∀ o ∈ os, o.Ok) {a b : C}
    {v w : Vec K C (Line K C)} (h : SafeVec W hW a b v) (hw : optimizeAll W hW os v = some w) : SafeVec W hW a b w := by
  induction os generalizing v with
  | nil => obtain rfl := Option.some.inj hw; exact h
  | cons o os ih =>
    unfold optimizeAll at hw
    split at hw
    · exact absurd hw (by simp)
    · next v' hv => exact ih (fun x hx => hos x (by simp [hx])) (apply_safe hW hself o (hos o (by simp)) h hv) hw

/-- C139: any sequence of optimizers, any number of shots and interruptions of each of them: a path without collision from `a` to `b` becomes
a path without collision from `a` to `b`. -/
theorem C139_optimize (hW : W.Ok) (hself : ∀ q, W.metric q q = 0) (os : List (Opt W)) (hos : ∀ o ∈ os, o.Ok) {a b : C}
    {v w : Vec K C (Line K C)} (h : SafeVec W hW a b v) (hw : optimizeAll W hW os v = some w) :
    Safe W (evalV (straightOps W.space) w) w.tr.2 a b := safeVec_safe hW (optimize_safe hW hself os hos h hw)

/-- The path returned by one of the planners on a new roadmap. -/
inductive Returned (W : World K C ι) (hW : W.Ok) (q0 : C) (l : List (SP W)) : List C → Prop
  | diffusing (gs : List C) (D : DiffParams K) (heur : Roadmap.Roadmap C (SP W) → Nat → K) (shoot : Nat → C) (st : Settings K) (late intr : Nat → Bool)
      (fuel n : Nat) (h : solve (diffusing (env W hW) D heur q0 gs shoot) st late intr fuel (n, Roadmap.empty) = .path l) : Returned W hW q0 l gs
  | visibility (gs : List C) (heur : Roadmap.Roadmap C (SP W) → Nat → K) (shoot : Nat → C) (st : Settings K) (late intr : Nat → Bool) (fuel : Nat)
      (x : Nat × (Nat → Bool)) (h : solve (visibility (env W hW) heur q0 gs shoot) st late intr fuel (x, Roadmap.empty) = .path l) : Returned W hW q0 l gs
  | birrt (gs : List C) (heur : Roadmap.Roadmap C (SP W) → Nat → K) (shoot : Nat → C) (st : Settings K) (late intr : Nat → Bool) (fuel : Nat) (x : BState)
      (h : solve (birrt (env W hW) heur q0 gs shoot) st late intr fuel (x, Roadmap.empty) = .path l) : Returned W hW q0 l gs
  | kprm (gs : List C) {H : Type} (E : KEnv C (SP W) K H) (hE : E.toPEnv = env W hW) (hk : 0 < E.k) (hN : 0 < E.nodes)
      (heur : Roadmap.Roadmap C (SP W) → Nat → K) (st : Settings K) (late intr : Nat → Bool) (fuel : Nat) (x : KState)
      (h : solve (kprm E heur q0 gs) st late intr fuel (x, Roadmap.empty) = .path l) : Returned W hW q0 l gs
  | birrtstar (g : C) (E : Star.SEnv C (SP W) K) (hE : E.toPEnv = env W hW) (hm : 0 < E.minLen)
      (pop : List (Star.WNode (SP W) K) → Option (Star.WNode (SP W) K × List (Star.WNode (SP W) K))) (hp : Star.PopOk pop)
      (heur : Roadmap.Roadmap C (SP W) → Nat → K) (fc fp : Nat) (draws : Nat → Star.Draw C) (x : Star.Trees (SP W) × Nat)
      (st : Settings K) (late intr : Nat → Bool) (fuel : Nat)
      (h : solve (Star.birrtstar E heur pop fc fp q0 [g] draws) st late intr fuel (x, Roadmap.empty) = .path l) : Returned W hW q0 l [g]

theorem returned_solves (hW : W.Ok) (q0 : C) (gs : List C) (l : List (SP W)) (h : Returned W hW q0 l gs) :
    Solves (env W hW) (ValidOrPoint (env W hW) (ValidOrTurned W)) q0 gs l := by
  have hG : ∀ V : SP W → Prop, Planner.Good (env W hW) V [] Roadmap.empty := fun V => ⟨Roadmap.Inv.empty, by simp [Roadmap.empty]⟩
  cases h with
  | diffusing _ D heur shoot st late intr fuel n h =>
    exact solves_mono W hW q0 gs l (C67_diffusing (contract W hW) D heur q0 gs shoot (hG _) st late intr fuel n l h)
  | visibility _ heur shoot st late intr fuel x h =>
    exact solves_mono W hW q0 gs l (C67_visibility (contract W hW) heur q0 gs shoot (s := (x, Roadmap.empty)) (hG _) st late intr fuel l h)
  | birrt _ heur shoot st late intr fuel x h =>
    exact C67_birrt_partial (contract W hW) (pointContract W hW) (fun _ _ => rfl) heur q0 gs shoot (s := (x, Roadmap.empty)) (hG _) st late intr fuel l h
  | kprm _ E hE hk hN heur st late intr fuel x h =>
    refine solves_mono W hW q0 gs l ?_
    rw [← hE]
    exact C67_kprm (by rw [hE]; exact contract W hW) hk hN heur q0 gs (s := (x, Roadmap.empty)) (by rw [hE]; exact hG _) st late intr fuel l h
  | birrtstar g E hE hm pop hp heur fc fp draws x st late intr fuel h =>
    have h' := Star.C67_birrtstar (starContract W hW E hE hm) hp heur fc fp q0 g draws x st late intr fuel l h
    rw [hE] at h'
    exact solves_mono W hW q0 [g] l h'

omit [DecidableEq C] in
/-- Without the ghost bit, what the planners return can be given to the optimizers. -/
theorem safeVec_of_connects (hW : W.Ok) {l : List (SP W)} (hne : l ≠ []) {a b : C} (ha : W.Free a) (hb : ∀ p ∈ l, p.1.2 = false)
    (h : Connects (env W hW) (ValidOrPoint (env W hW) (ValidOrTurned W)) a l b) : SafeVec W hW a b (pathVector l) := by
  refine ⟨l, hne, rfl, ?_⟩
  have h1 := connects_free W hW l a b ha hb h
  clear ha hne
  induction l generalizing a with
  | nil => exact h
  | cons p l ih => exact ⟨⟨h1 p (by simp), hb p (by simp)⟩, h.2.1, ih (fun q hq => hb q (by simp [hq])) h.2.2 fun q hq => h1 q (by simp [hq])⟩

/-- C139 (partial): the planner, then the optimizers.  Partial: no piece of the path given by the planner comes from the reversal of half a turn. -/
theorem C139_solve_partial (hW : W.Ok) (hself : ∀ q, W.metric q q = 0) (q0 : C) (gs : List C) (l : List (SP W)) (h0 : W.Free q0)
    (h : Returned W hW q0 l gs) (hb : ∀ p ∈ l, p.1.2 = false) (os : List (Opt W)) (hos : ∀ o ∈ os, o.Ok) (w : Vec K C (Line K C)) (hw : optimizeAll W hW os (pathVector l) = some w) :
    ∃ g ∈ gs, Safe W (evalV (straightOps W.space) w) w.tr.2 q0 g := by
  rcases returned_solves hW q0 gs l h with ⟨g, hg, hne, hc⟩ | ⟨hq, p, hp, rfl⟩
  · exact ⟨g, hg, C139_optimize hW hself os hos (safeVec_of_connects hW hne h0 hb hc) hw⟩
  · obtain rfl := Option.some.inj hp
    exact ⟨q0, hq, C139_optimize hW hself os hos (safeVec_of_connects hW (by simp) h0 hb (connects_refl W hW q0 h0)) hw⟩

end Verif.Turns
