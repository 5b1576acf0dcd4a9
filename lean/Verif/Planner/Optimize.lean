import Verif.Planner.EndToEnd
import Verif.Optim.RandomShortcut
import Verif.Optim.SimpleShortcut
set_option linter.unusedSectionVars false

/-!
# Planning followed by optimization (C127)

`ProblemSolver::solve` runs the planner and then the optimizers on the path that it returned (problem-solver.cc:717-750, 351-358).  With the planners and the
problems of C126, any sequence of calls of `RandomShortcut` and of `SimpleShortcut` keeps the initial and final configurations, the continuity and the
absence of collision all along the path.
-/
namespace Verif.EndToEnd
open Verif.PathV Verif.CV Verif.Planner

variable {K ι : Type} [Field K] [LinearOrder K] [IsStrictOrderedRing K] [FloorSemiring K] [Fintype ι]

/-- The calls of the shortcut optimizers: path-optimizer.cc:48-57 (steer), `initial()`, `end()`, `problem()->distance()` and path validation. -/
def optEnv (B : Bench K ι) (hB : B.Ok) : Optim.Env K (ι → K) (Line K ι) where
  O := straightOps (vecSpace K ι)
  ini p := conf p p.pr.1
  fin p := conf p p.pr.2
  dist := B.metric
  steer a b := some (line B hB a b).1
  valid p := match check B false p with
    | .error _ => false
    | .ok (v, _) => v

/-- An optimizer of the list. -/
inductive Opt (B : Bench K ι) where
  | random (eps : K) (n : Nat) (shoot : Nat → K → K → Option (K × K)) (stop : Nat → Bool) (fuel : Nat)
  | simple (heur : Roadmap.Roadmap (ι → K) (SP B) → Nat → K)

/-- Pieces with the proof that they are built by the library (all of them are: `pieces_eq`). -/
def pieces {B : Bench K ι} (ps : List (Line K ι)) : List (SP B) := ps.filterMap fun p => if h : Built p ∧ B.Slow p then some ⟨p, h⟩ else none

/-- `optimize` of the optimizer; `none`: exception, or not finished. -/
def Opt.apply (B : Bench K ι) (hB : B.Ok) (v : Vec K (ι → K) (Line K ι)) : Opt B → Option (Vec K (ι → K) (Line K ι))
  | .random eps n shoot stop fuel => match Optim.randomShortcut (optEnv B hB) eps n shoot stop fuel v with
    | .path w => some w
    | _ => none
  | .simple heur => match v.paths.head? with
    | none => none
    | some p => match Optim.Simple.simpleShortcut (env B hB) heur (conf p p.pr.1) (pieces v.paths) with
      | .ok l => some (pathVector l)
      | .error _ => none

/-- `optimizePath`: problem-solver.cc:351-358. -/
def optimizeAll (B : Bench K ι) (hB : B.Ok) : List (Opt B) → Vec K (ι → K) (Line K ι) → Option (Vec K (ι → K) (Line K ι))
  | [], v => some v
  | o :: os, v => match o.apply B hB v with
    | none => none
    | some w => optimizeAll B hB os w

/-- The random parameters of the shortcuts are ordered and in the range of the path: random-shortcut.cc:181-190 (`shootTimes_ordered`). -/
def Opt.Ok {B : Bench K ι} : Opt B → Prop
  | .random _ n shoot _ _ => n ≠ 0 ∧ ∀ it t0 t3 t1 t2, t0 ≤ t3 → shoot it t0 t3 = some (t1, t2) → t0 ≤ t1 ∧ t1 ≤ t2 ∧ t2 ≤ t3
  | .simple _ => True

/-! ## Lemmas -/

variable {B : Bench K ι}

/-- The paths of the problem, as a predicate. -/
def Fit (B : Bench K ι) (p : Line K ι) : Prop := Built p ∧ B.Slow p

/-- The invariant: a path vector of valid pieces between successive configurations. -/
def SafeVec (B : Bench K ι) (hB : B.Ok) (a b : ι → K) (v : Vec K (ι → K) (Line K ι)) : Prop :=
  ∃ l : List (SP B), l ≠ [] ∧ v = pathVector l ∧ Connects (env B hB) (Valid B) a l b

theorem pieces_eq (l : List (SP B)) : pieces (l.map Subtype.val) = l := by
  induction l with
  | nil => rfl
  | cons p l ih =>
    unfold pieces at ih ⊢
    rw [List.map_cons, List.filterMap_cons, dif_pos p.2]
    simp only [ih]

theorem connects_valid (B : Bench K ι) (hB : B.Ok) (l : List (SP B)) (a b : ι → K) (ha : B.Free a)
    (h : Connects (env B hB) (ValidOrPoint (env B hB) (Valid B)) a l b) : Connects (env B hB) (Valid B) a l b := by
  have h1 := (connects_all B hB l a b ha h).1
  clear ha
  induction l generalizing a with
  | nil => exact h
  | cons p l ih => exact ⟨h1 p (by simp), h.2.1, ih _ h.2.2 fun q hq => h1 q (by simp [hq])⟩

theorem connects_free (B : Bench K ι) (hB : B.Ok) {l : List (SP B)} {a b : ι → K} (hne : l ≠ []) (h : Connects (env B hB) (Valid B) a l b) : B.Free a := by
  obtain ⟨p, ps, rfl⟩ := List.exists_cons_of_ne_nil hne
  obtain ⟨h1, h2, -⟩ := h
  have h2' : conf p.1 p.1.pr.1 = a := h2
  rw [← h2']
  exact h1 _ (by rw [p.2.1.1]) (good p).1

theorem safeVec_safe (B : Bench K ι) (hB : B.Ok) {a b : ι → K} {v : Vec K (ι → K) (Line K ι)} (h : SafeVec B hB a b v) :
    Safe B (evalV (straightOps (vecSpace K ι)) v) v.tr.2 a b := by
  obtain ⟨l, hne, rfl, hc⟩ := h
  exact safe_of_connects B hB l a b hne (connects_free B hB hne hc) (connects_mono _ _ _ (fun _ => Or.inl) l a b hc)

/-- Straight paths built by the library are lawful. -/
theorem built_lawful (B : Bench K ι) (hB : B.Ok) : Lawful (straightOps (vecSpace K ι)) (Fit B) := by
  have L := straight_lawful (vecSpace K ι)
  have hg : ∀ p : Line K ι, Fit B p → GoodStraight (vecSpace K ι) p := fun p h => goodOf h.1
  have he : ∀ (p : Line K ι) a b r, Fit B p → (straightOps (vecSpace K ι)).extract p a b = .ok r → Fit B r := by
    intro p a b r h hr
    have := (ext_eq (hB := hB) ⟨p, h⟩ a b).symm.trans hr
    rw [← Except.ok.inj this]
    exact (ext hB ⟨p, h⟩ a b).2
  refine ⟨fun p h => L.nonneg p (hg p h), ?_, ?_, ?_⟩
  · intro p a b r h h1 h2 h3 hr
    exact ⟨he p a b r h hr, (L.fwd p a b r (hg p h) h1 h2 h3 hr).2⟩
  · intro p a b r h h1 h2 h3 hr
    exact ⟨he p a b r h hr, (L.bwd p a b r (hg p h) h1 h2 h3 hr).2⟩
  · intro p r h hr
    exact ⟨he p p.pr.2 p.pr.1 r h hr, (L.rev p r (hg p h) hr).2⟩

theorem optContract (B : Bench K ι) (hB : B.Ok) : Optim.Contract (optEnv B hB) (Fit B) where
  lawful := (built_lawful B hB).forward
  ini p h := eval_conf (B := B) ⟨p, h⟩ _
  fin p h := eval_conf (B := B) ⟨p, h⟩ _
  steer a b p _ _ h _ := by
    obtain rfl := Option.some.inj h
    exact (line B hB a b).2
  steer_ends a b p h := by
    obtain rfl := Option.some.inj h
    exact ⟨conf_ini _, conf_fin _⟩

theorem safeVec_parts (B : Bench K ι) (hB : B.Ok) {a b : ι → K} {v : Vec K (ι → K) (Line K ι)} (h : SafeVec B hB a b v) :
    v.cons = none ∧ v.tr.1 = 0 ∧ v.paths ≠ [] ∧ WF (straightOps (vecSpace K ι)) (Fit B) v ∧ Chained (straightOps (vecSpace K ι)) v.paths := by
  obtain ⟨l, hne, rfl, hc⟩ := h
  rw [pathVector_eq]
  refine ⟨rfl, rfl, fun h => hne (List.map_eq_nil_iff.1 h), ⟨rfl, ?_⟩, ?_⟩
  · intro p hp
    obtain ⟨x, -, rfl⟩ := List.mem_map.1 hp
    exact x.2
  · clear hne
    show Chained _ (l.map Subtype.val)
    induction l generalizing a with
    | nil => exact List.IsChain.nil
    | cons p l ih =>
      obtain ⟨h1, h2, h3⟩ := hc
      unfold Chained
      rw [List.map_cons, List.isChain_cons]
      refine ⟨?_, ih h3⟩
      intro q hq
      cases l with
      | nil => simp at hq
      | cons y l =>
        rw [List.map_cons, List.head?_cons, Option.mem_some_iff] at hq
        subst hq
        show (straightOps (vecSpace K ι)).eval p.1 p.1.pr.2 = (straightOps (vecSpace K ι)).eval y.1 y.1.pr.1
        rw [eval_conf p, eval_conf y]
        exact congrArg _ h3.2.1.symm

/-- Conversely. -/
theorem safeVec_of (B : Bench K ι) (hB : B.Ok) {a b : ι → K} {w : Vec K (ι → K) (Line K ι)} (hcons : w.cons = none) (hne : w.paths ≠ [])
    (hwf : WF (straightOps (vecSpace K ι)) (Fit B) w) (hch : Chained (straightOps (vecSpace K ι)) w.paths)
    (h0 : evalV (straightOps (vecSpace K ι)) w w.tr.1 = .ok a) (h1 : evalV (straightOps (vecSpace K ι)) w w.tr.2 = .ok b)
    (hf : ∀ s, w.tr.1 ≤ s → s ≤ w.tr.2 → ∀ q, evalV (straightOps (vecSpace K ι)) w s = .ok q → B.Free q) : SafeVec B hB a b w := by
  obtain ⟨c, tr, ps⟩ := w
  obtain ⟨hw1, hw2⟩ := hwf
  simp only at hcons hne hch hw1 hw2
  subst hcons hw1
  obtain ⟨l, rfl⟩ : ∃ l : List (SP B), l.map Subtype.val = ps := ⟨ps.attach.map fun p => ⟨p.1, hw2 _ p.2⟩, by simp⟩
  have hl : l ≠ [] := fun h => hne (by rw [h]; rfl)
  have hlen : ∀ p ∈ l.map Subtype.val, 0 ≤ (straightOps (vecSpace K ι)).len p := fun p hp => (built_lawful B hB).nonneg p (hw2 p hp)
  have hev : ∀ s, evalV (straightOps (vecSpace K ι)) ⟨none, (0, total (straightOps (vecSpace K ι)) (l.map Subtype.val)), l.map Subtype.val⟩ s =
      evalU (straightOps (vecSpace K ι)) (l.map Subtype.val) s := fun s => evalV_none _ _ rfl s
  simp only [hev] at h0 h1 hf
  have hat : ∀ A Bs (p : SP B) u, l = A ++ p :: Bs → 0 ≤ u → u ≤ p.1.pr.2 →
      evalU (straightOps (vecSpace K ι)) (l.map Subtype.val) (total (straightOps (vecSpace K ι)) (A.map Subtype.val) + u) = .ok (conf p.1 u) := by
    intro A Bs p u e u0 u1
    have e1 : l.map Subtype.val = A.map Subtype.val ++ p.1 :: Bs.map Subtype.val := by rw [e, List.map_append, List.map_cons]
    have k : u ≤ (straightOps (vecSpace K ι)).len p.1 := by
      show u ≤ p.1.pr.2 - p.1.pr.1
      rw [p.2.1.1, sub_zero]; exact u1
    have := chained_at (straightOps (vecSpace K ι)) (A.map Subtype.val) (Bs.map Subtype.val) p.1 u (fun q hq => hlen q (by rw [e1]; exact List.mem_append_left _ hq))
      (by rw [← e1]; exact hch) u0 k
    rw [e1, this]
    show (straightOps (vecSpace K ι)).eval p.1 (p.1.pr.1 + u) = _
    rw [p.2.1.1, zero_add]
    exact eval_conf p u
  have htotal : ∀ ps : List (SP B), 0 ≤ total (straightOps (vecSpace K ι)) (ps.map Subtype.val) := by
    intro ps
    unfold total
    apply List.sum_nonneg
    intro x hx
    obtain ⟨p, hp, rfl⟩ := List.mem_map.1 hx
    obtain ⟨y, -, rfl⟩ := List.mem_map.1 hp
    exact (built_lawful B hB).nonneg y.1 y.2
  have hvalid : ∀ p ∈ l, Valid B p := by
    intro p hp t t0 t1
    obtain ⟨A, Bs, e⟩ := List.append_of_mem hp
    refine hf (total (straightOps (vecSpace K ι)) (A.map Subtype.val) + t) (add_nonneg (htotal A) t0) ?_ _ (hat A Bs p t e t0 t1)
    have e1 : l.map Subtype.val = A.map Subtype.val ++ p.1 :: Bs.map Subtype.val := by rw [e, List.map_append, List.map_cons]
    have e2 : total (straightOps (vecSpace K ι)) (l.map Subtype.val) =
        total (straightOps (vecSpace K ι)) (A.map Subtype.val) + ((p.1.pr.2 - p.1.pr.1) + total (straightOps (vecSpace K ι)) (Bs.map Subtype.val)) := by
      rw [e1]; unfold total; rw [List.map_append, List.sum_append, List.map_cons, List.sum_cons]; rfl
    show _ ≤ total (straightOps (vecSpace K ι)) (l.map Subtype.val)
    rw [e2, p.2.1.1]
    have := htotal Bs
    linarith
  refine ⟨l, hl, (pathVector_eq l).symm, ?_⟩
  -- the ends
  have hini : ∀ p, l.head? = some p → conf p.1 p.1.pr.1 = a := by
    intro p hp
    obtain ⟨Bs, rfl⟩ : ∃ Bs, l = p :: Bs := by
      cases l with
      | nil => simp at hp
      | cons x l => simp only [List.head?_cons, Option.some.injEq] at hp; subst hp; exact ⟨l, rfl⟩
    have := hat [] Bs p 0 rfl le_rfl p.2.1.2.1
    simp only [List.map_nil, total, List.sum_nil, add_zero] at this
    rw [p.2.1.1]
    exact Except.ok.inj (this.symm.trans h0)
  have hfin : ∀ p, l.getLast? = some p → conf p.1 p.1.pr.2 = b := by
    intro p hp
    obtain ⟨A, rfl⟩ : ∃ A, l = A ++ [p] := ⟨l.dropLast, by
      have := List.dropLast_append_getLast hl
      rw [List.getLast?_eq_getLast_of_ne_nil hl, Option.some.injEq] at hp
      rw [hp] at this
      exact this.symm⟩
    have := hat A [] p p.1.pr.2 rfl p.2.1.2.1 le_rfl
    have e2 : total (straightOps (vecSpace K ι)) ((A ++ [p]).map Subtype.val) = total (straightOps (vecSpace K ι)) (A.map Subtype.val) + p.1.pr.2 := by
      rw [List.map_append]; unfold total
      rw [List.map_append, List.sum_append]
      simp only [List.map_cons, List.map_nil, List.sum_cons, List.sum_nil, add_zero]
      show _ + (p.1.pr.2 - p.1.pr.1) = _
      rw [p.2.1.1, sub_zero]
    rw [← e2] at this
    exact Except.ok.inj (this.symm.trans h1)
  clear hat hev h0 h1 hf hlen hw2 hne
  induction l generalizing a with
  | nil => exact absurd rfl hl
  | cons p l ih =>
    refine ⟨hvalid p (by simp), hini p rfl, ?_⟩
    cases l with
    | nil => exact hfin p rfl
    | cons y l =>
      unfold Chained at hch
      rw [List.map_cons, List.isChain_cons] at hch
      have hy : conf y.1 y.1.pr.1 = conf p.1 p.1.pr.2 := by
        have := hch.1 y.1 (by simp)
        have h2 : (straightOps (vecSpace K ι)).eval p.1 p.1.pr.2 = (straightOps (vecSpace K ι)).eval y.1 y.1.pr.1 := this
        rw [eval_conf p, eval_conf y] at h2
        exact (Except.ok.inj h2).symm
      refine ih (a := conf p.1 p.1.pr.2) hch.2 (by simp) (fun q hq => hvalid q (by simp [hq])) ?_ ?_
      · intro q hq
        simp only [List.head?_cons, Option.some.injEq] at hq
        subst hq
        exact hy
      · intro q hq
        exact hfin q (by rw [List.getLast?_cons_cons]; exact hq)

/-! ## C127 -/

/-- One optimizer. -/
theorem apply_safe (B : Bench K ι) (hB : B.Ok) (hself : ∀ q, B.metric q q = 0) (o : Opt B) (ho : o.Ok) {a b : ι → K} {v w : Vec K (ι → K) (Line K ι)}
    (h : SafeVec B hB a b v) (hw : o.apply B hB v = some w) : SafeVec B hB a b w := by
  have hs := safeVec_safe B hB h
  obtain ⟨p1, p2, p3, p4, p5⟩ := safeVec_parts B hB h
  cases o with
  | random eps n shoot stop fuel =>
    simp only [Opt.apply] at hw
    split at hw
    · next w' hr =>
      obtain rfl := Option.some.inj hw
      obtain ⟨k0, k1, k2, k3, k4, k5, -, -, k6⟩ := Optim.C42_random (optContract B hB) ho.1 shoot ho.2 stop fuel v w' p1 p3 p4 p5 hr
      refine safeVec_of B hB k0 k2 k1 k3 (k4.trans ?_) (k5.trans hs.fin) (k6 B.Free ?_ ?_)
      · rw [p2]; exact hs.ini
      · intro x y p _ _ hp hv u u0 u1 q hq
        obtain rfl := Option.some.inj hp
        obtain ⟨vv, vp, rep, m, hr', h1, -⟩ := check_ok B hB false (line B hB x y)
        have hv' : vv = true := by
          have : (match check B false (line B hB x y).1 with | .error _ => false | .ok (v, _) => v) = true := hv
          rw [hr'] at this
          exact this
        have e : (straightOps (vecSpace K ι)).eval (line B hB x y).1 (0 + u) = .ok q := hq
        rw [zero_add, eval_conf] at e
        obtain rfl := Except.ok.inj e
        refine (h1 hv').2 u u0 ?_
        have : u ≤ (line B hB x y).1.pr.2 - 0 := u1
        rw [sub_zero] at this; exact this
      · intro s s0 s1 q hq
        rw [p2] at s0
        obtain ⟨q', e, hf⟩ := hs.free s s0 s1
        obtain rfl := Except.ok.inj (e.symm.trans hq)
        exact hf
    · exact absurd hw (by simp)
  | simple heur =>
    obtain ⟨l, hne, rfl, hc⟩ := h
    obtain ⟨p, ps, rfl⟩ := List.exists_cons_of_ne_nil hne
    have ea : conf p.1 p.1.pr.1 = a := hc.2.1
    have hpaths : (pathVector (p :: ps)).paths = (p :: ps).map Subtype.val := by rw [pathVector_eq]
    simp only [Opt.apply, hpaths, pieces_eq] at hw
    rw [List.map_cons, List.head?_cons] at hw
    simp only [ea] at hw
    obtain ⟨l', e1, e2, e3⟩ := Optim.Simple.C42_simple (C := env B hB) (fun x q hx => hB.zero x q (le_antisymm (by
        have : B.metric x q ≤ B.metric q q := hx
        rw [hself q] at this; exact this) (hB.nonneg x q)))
      (fun x y p hp => by obtain rfl := Option.some.inj hp; exact ⟨conf_ini _, conf_fin _⟩) heur (connects_mono _ _ _ (fun _ _ => trivial) _ _ _ hc)
      (Or.inr (Option.some_ne_none _))
    rw [e1] at hw
    obtain rfl := Option.some.inj hw
    have hfa := connects_free B hB hne hc
    rcases e3 with e3 | ⟨rfl, q, hq, rfl⟩
    · refine ⟨l', e2, rfl, connects_mono _ _ _ ?_ _ _ _ e3⟩
      rintro x (hx | ⟨y, z, hy, hv⟩)
      · have hall := (connects_all B hB (p :: ps) a b hfa (connects_mono _ _ _ (fun _ => Or.inl) _ _ _ hc)).1
        exact hall x hx
      · rcases validate_spec B hB false x with ⟨-, -, k⟩ | ⟨k, -⟩
        · exact k
        · rw [k] at hv; exact absurd hv (by simp)
    · obtain rfl := Option.some.inj hq
      refine ⟨[line B hB a a], by simp, rfl, connects_valid B hB _ a a hfa ?_⟩
      exact connects_refl B hB a hfa

/-- C127: any sequence of optimizers, any number of shots and interruptions of each of them: a path without collision from `a` to `b` becomes
a path without collision from `a` to `b`. -/
theorem C127_optimize (B : Bench K ι) (hB : B.Ok) (hself : ∀ q, B.metric q q = 0) (os : List (Opt B)) (hos : ∀ o ∈ os, o.Ok) {a b : ι → K}
    {v w : Vec K (ι → K) (Line K ι)} (h : SafeVec B hB a b v) (hw : optimizeAll B hB os v = some w) :
    Safe B (evalV (straightOps (vecSpace K ι)) w) w.tr.2 a b := by
  refine safeVec_safe B hB ?_
  induction os generalizing v with
  | nil => obtain rfl := Option.some.inj hw; exact h
  | cons o os ih =>
    unfold optimizeAll at hw
    split at hw
    · exact absurd hw (by simp)
    · next v' hv => exact ih (fun x hx => hos x (by simp [hx])) (apply_safe B hB hself o (hos o (by simp)) h hv) hw

/-- The path returned by one of the planners on a new roadmap. -/
inductive Returned (B : Bench K ι) (hB : B.Ok) (q0 : ι → K) (l : List (SP B)) : List (ι → K) → Prop
  | diffusing (gs : List (ι → K)) (D : DiffParams K) (heur : Roadmap.Roadmap (ι → K) (SP B) → Nat → K) (shoot : Nat → ι → K) (st : Settings K) (late intr : Nat → Bool)
      (fuel n : Nat) (h : solve (diffusing (env B hB) D heur q0 gs shoot) st late intr fuel (n, Roadmap.empty) = .path l) : Returned B hB q0 l gs
  | visibility (gs : List (ι → K)) (heur : Roadmap.Roadmap (ι → K) (SP B) → Nat → K) (shoot : Nat → ι → K) (st : Settings K) (late intr : Nat → Bool) (fuel : Nat)
      (x : Nat × (Nat → Bool)) (h : solve (visibility (env B hB) heur q0 gs shoot) st late intr fuel (x, Roadmap.empty) = .path l) : Returned B hB q0 l gs
  | birrt (gs : List (ι → K)) (heur : Roadmap.Roadmap (ι → K) (SP B) → Nat → K) (shoot : Nat → ι → K) (st : Settings K) (late intr : Nat → Bool) (fuel : Nat) (x : BState)
      (h : solve (birrt (env B hB) heur q0 gs shoot) st late intr fuel (x, Roadmap.empty) = .path l) : Returned B hB q0 l gs
  | kprm (gs : List (ι → K)) {H : Type} (C : KEnv (ι → K) (SP B) K H) (hC : C.toPEnv = env B hB) (hk : 0 < C.k) (hN : 0 < C.nodes)
      (heur : Roadmap.Roadmap (ι → K) (SP B) → Nat → K) (st : Settings K) (late intr : Nat → Bool) (fuel : Nat) (x : KState)
      (h : solve (kprm C heur q0 gs) st late intr fuel (x, Roadmap.empty) = .path l) : Returned B hB q0 l gs
  | birrtstar (g : ι → K) (C : Star.SEnv (ι → K) (SP B) K) (hC : C.toPEnv = env B hB) (hm : 0 < C.minLen)
      (pop : List (Star.WNode (SP B) K) → Option (Star.WNode (SP B) K × List (Star.WNode (SP B) K))) (hp : Star.PopOk pop)
      (heur : Roadmap.Roadmap (ι → K) (SP B) → Nat → K) (fc fp : Nat) (draws : Nat → Star.Draw (ι → K)) (x : Star.Trees (SP B) × Nat)
      (st : Settings K) (late intr : Nat → Bool) (fuel : Nat)
      (h : solve (Star.birrtstar C heur pop fc fp q0 [g] draws) st late intr fuel (x, Roadmap.empty) = .path l) : Returned B hB q0 l [g]

theorem safeVec_of_solves (B : Bench K ι) (hB : B.Ok) (q0 : ι → K) (gs : List (ι → K)) (l : List (SP B)) (h0 : B.Free q0)
    (h : Solves (env B hB) (ValidOrPoint (env B hB) (Valid B)) q0 gs l) : ∃ g ∈ gs, SafeVec B hB q0 g (pathVector l) := by
  rcases h with ⟨g, hg, hne, hc⟩ | ⟨hq, p, hp, rfl⟩
  · exact ⟨g, hg, l, hne, rfl, connects_valid B hB l q0 g h0 hc⟩
  · obtain rfl := Option.some.inj hp
    exact ⟨q0, hq, _, by simp, rfl, connects_valid B hB _ q0 q0 h0 (connects_refl B hB q0 h0)⟩

theorem returned_solves (B : Bench K ι) (hB : B.Ok) (q0 : ι → K) (gs : List (ι → K)) (l : List (SP B)) (h : Returned B hB q0 l gs) :
    Solves (env B hB) (ValidOrPoint (env B hB) (Valid B)) q0 gs l := by
  have hG : ∀ V : SP B → Prop, Good (env B hB) V [] Roadmap.empty := fun V => ⟨Roadmap.Inv.empty, by simp [Roadmap.empty]⟩
  cases h with
  | diffusing _ D heur shoot st late intr fuel n h =>
    exact solves_mono B hB q0 gs l (C67_diffusing (contract B hB) D heur q0 gs shoot (hG _) st late intr fuel n l h)
  | visibility _ heur shoot st late intr fuel x h =>
    exact solves_mono B hB q0 gs l (C67_visibility (contract B hB) heur q0 gs shoot (s := (x, Roadmap.empty)) (hG _) st late intr fuel l h)
  | birrt _ heur shoot st late intr fuel x h =>
    exact C67_birrt_partial (contract B hB) (pointContract B hB) (fun _ _ => rfl) heur q0 gs shoot (s := (x, Roadmap.empty)) (hG _) st late intr fuel l h
  | kprm _ C hC hk hN heur st late intr fuel x h =>
    refine solves_mono B hB q0 gs l ?_
    rw [← hC]
    exact C67_kprm (by rw [hC]; exact contract B hB) hk hN heur q0 gs (s := (x, Roadmap.empty)) (by rw [hC]; exact hG _) st late intr fuel l h
  | birrtstar g C hC hm pop hp heur fc fp draws x st late intr fuel h =>
    have h' := Star.C67_birrtstar (starContract B hB C hC hm) hp heur fc fp q0 g draws x st late intr fuel l h
    rw [hC] at h'
    exact solves_mono B hB q0 [g] l h'

/-- C127: the planner, then the optimizers. -/
theorem C127_solve (B : Bench K ι) (hB : B.Ok) (hself : ∀ q, B.metric q q = 0) (q0 : ι → K) (gs : List (ι → K)) (l : List (SP B)) (h0 : B.Free q0)
    (h : Returned B hB q0 l gs) (os : List (Opt B)) (hos : ∀ o ∈ os, o.Ok) (w : Vec K (ι → K) (Line K ι)) (hw : optimizeAll B hB os (pathVector l) = some w) :
    ∃ g ∈ gs, Safe B (evalV (straightOps (vecSpace K ι)) w) w.tr.2 q0 g := by
  obtain ⟨g, hg, hs⟩ := safeVec_of_solves B hB q0 gs l h0 (returned_solves B hB q0 gs l h)
  exact ⟨g, hg, C127_optimize B hB hself os hos hs hw⟩

/-! ## The plane of C126 -/

namespace Plane

/-- A path that goes around the square with a detour. -/
def detour (m : Mode) : List (SP (bench m)) := [line _ (ok m) ![0, 0] ![3, 4], line _ (ok m) ![3, 4] ![7, 4], line _ (ok m) ![7, 4] ![10, 0]]

def shots : Nat → ℚ → ℚ → Option (ℚ × ℚ) := fun _ t0 t3 => some (t0 + (t3 - t0) / 4, t3 - (t3 - t0) / 4)

def corners (o : Option (Vec ℚ (Fin 2 → ℚ) (Line ℚ (Fin 2)))) : Option (List (List ℚ × List ℚ)) := o.map fun v => v.paths.map fun p => ([p.q0 0, p.q0 1], [p.q1 0, p.q1 1])

/-- the metric vanishes on the diagonal and the optimizer is as assumed -/
example : (∀ q, (bench .dichotomy).metric q q = 0) ∧ (Opt.random (B := bench .dichotomy) (1/1000) 2 shots (fun _ => false) 10).Ok := by
  refine ⟨fun q => by simp [bench], by decide, ?_⟩
  intro it t0 t3 t1 t2 h e
  obtain ⟨rfl, rfl⟩ := Prod.mk.inj (Option.some.inj e)
  exact ⟨by linarith, by linarith, by linarith⟩

/-- each optimizer shortens the path, and the sequence of both -/
example : corners (optimizeAll (bench .dichotomy) (ok .dichotomy) [.simple (fun _ _ => 0)] (pathVector (detour .dichotomy))) =
    some [([0, 0], [3, 4]), ([3, 4], [10, 0])] := by decide +kernel
example : corners (optimizeAll (bench .dichotomy) (ok .dichotomy) [.random (1/1000) 2 shots (fun n => decide (1 ≤ n)) 10] (pathVector (detour .dichotomy))) =
    some [([0, 0], [27 / 14, 18 / 7]), ([27 / 14, 18 / 7], [113 / 14, 18 / 7]), ([113 / 14, 18 / 7], [10, 0])] := by decide +kernel
example : corners (optimizeAll (bench .dichotomy) (ok .dichotomy) [.random (1/1000) 2 shots (fun n => decide (1 ≤ n)) 10, .simple (fun _ _ => 0)] (pathVector (detour .dichotomy))) =
    some [([0, 0], [27 / 14, 18 / 7]), ([27 / 14, 18 / 7], [10, 0])] := by decide +kernel

example : corners (optimizeAll (bench .discretized) (ok .discretized) [.simple (fun _ _ => 0)] (pathVector (detour .discretized))) =
    some [([0, 0], [3, 4]), ([3, 4], [10, 0])] := by decide +kernel

end Plane

end Verif.EndToEnd
