import Verif.Planner.CarsSampled
set_option linter.unusedSectionVars false

/-!
# Path optimizers on the paths of cars, with discretized validation (C164)

As in `Planner/CarsOptimize.lean`, with the discretized validation of `Planner/CarsSampled.lean`.  Since BiRRT keeps the direction of the paths, so does the whole resolution.

Simplifications: those of `Planner/CarsSampled.lean`.
-/
namespace Verif.Planner.CarsSampled
open Verif.Car Verif.PathV Verif.Planner Verif.Roadmap Verif.Planner.Cars
open Classical

variable {ι : Type} [Fintype ι]

/-- The calls of the shortcut optimizers: path-optimizer.cc:48-57 (steer, no projector), `initial ()` and `end ()` of the pieces (path-vector.hh:128-132; any value on empty vectors), the distance
and the validation of the problem (path-validation/discretized.cc:55-107).  Steering and distance are only called with configurations, whose heading is a unit vector. -/
noncomputable def optEnv (B : Bench ι) : Optim.Env ℝ (Cfg (ι → ℝ) Unit) (Piece ι) where
  O := vecOps ccOps
  ini v := (v.paths.head?.map (·.init)).getD ⟨0, 0, 0, 0, 0, ()⟩
  fin v := (v.paths.getLast?.map (·.fin)).getD ⟨0, 0, 0, 0, 0, ()⟩
  dist a b := if h : a.Unit ∧ b.Unit then B.X.metric ⟨a, h.1⟩ ⟨b, h.2⟩ else 0
  steer a b := if h : a.Unit ∧ b.Unit then ((env B).steer ⟨a, h.1⟩ ⟨b, h.2⟩).map (fun p => vec p.1) else none
  valid v := match check B false v with
    | .error _ => false
    | .ok r => r.1

/-- An optimizer of the list. -/
inductive Opt (B : Bench ι) where
  | random (eps : ℝ) (n : Nat) (shoot : Nat → ℝ → ℝ → Option (ℝ × ℝ)) (stop : Nat → Bool) (fuel : Nat)
  | simple (heur : Roadmap (Conf ι) (SP B) → Nat → ℝ)

/-- The pieces that are paths of the problem (all of them are: `pieces_eq`). -/
noncomputable def pieces (B : Bench ι) (ps : List (Piece ι)) : List (SP B) :=
  ps.filterMap fun v => if h : Chain B.X v.paths ∧ ∀ K ∈ v.paths, Slow B K then some ⟨v.paths, h⟩ else none

/-- `optimize` of the optimizer; `none`: exception, or not finished. -/
noncomputable def Opt.apply (B : Bench ι) (v : Whole ι) : Opt B → Option (Whole ι)
  | .random eps n shoot stop fuel => match Optim.randomShortcut (optEnv B) eps n shoot stop fuel v with
    | .path w => some w
    | _ => none
  | .simple heur => match pieces B v.paths with
    | [] => none
    | p :: ps => match Optim.Simple.simpleShortcut (env B) heur (ini (low p)) (p :: ps) with
      | .ok l => some (pathVector l)
      | .error _ => none

/-- `optimizePath`: problem-solver.cc:351-358. -/
noncomputable def optimizeAll (B : Bench ι) : List (Opt B) → Whole ι → Option (Whole ι)
  | [], v => some v
  | o :: os, v => match o.apply B v with
    | none => none
    | some w => optimizeAll B os w

/-- The random parameters of the shortcuts are ordered and in the range of the path: random-shortcut.cc:181-190 (`shootTimes_ordered`). -/
def Opt.Ok {B : Bench ι} : Opt B → Prop
  | .random _ n shoot _ _ => n ≠ 0 ∧ ∀ it t0 t3 t1 t2, t0 ≤ t3 → shoot it t0 t3 = some (t1, t2) → t0 ≤ t1 ∧ t1 ≤ t2 ∧ t2 ≤ t3
  | .simple _ => True

/-! ## Lemmas -/

variable {B : Bench ι}

/-- The world in which the penetration allowed is the one of the discretized validation. -/
noncomputable def relax (B : Bench ι) : World ι := { B.X with pairs := B.X.pairs.map fun c => { c with tol := B.vel c * (B.step / 2) / 2 } }

theorem relax_free (q : Cfg (ι → ℝ) Unit) : CarFree (relax B).pairs q ↔ B.Free q := by
  unfold CarFree Bench.Free relax
  simp only [List.mem_map, forall_exists_index, and_imp, forall_apply_eq_imp_iff₂]
  constructor
  · intro h c hc o ho
    have := h c hc o ho
    linarith
  · intro h c hc o ho
    have := h c hc o ho
    linarith

theorem chain_relax {l : Arcs ι} (h : Chain B.X l) : Chain (relax B) l := ⟨h.ne, h.arc, h.link⟩

theorem chain_back {l : Arcs ι} (h : Chain (relax B) l) : Chain B.X l := ⟨h.ne, h.arc, h.link⟩

def hi (p : SP B) : Cars.SP (relax B) := ⟨p.1, chain_relax p.2.1⟩

/-- What is kept: validity, and the direction if `d`. -/
def Keep (B : Bench ι) (d : Bool) (p : SP B) : Prop := Valid B p ∧ (d = true → Along B p)

theorem valid_hi {p : SP B} (h : Valid B p) : Cars.Valid (relax B) (hi p) := fun K hK t t0 t1 => (relax_free _).2 (h K hK t t0 t1)

theorem connects_hi {d : Bool} (l : List (SP B)) {a b : Conf ι} (h : Connects (env B) (Keep B d) a l b) : Connects (Cars.env (relax B)) (Cars.Valid (relax B)) a (l.map hi) b := by
  induction l generalizing a with
  | nil => exact h
  | cons p l ih =>
    obtain ⟨h1, h2, h3⟩ := h
    exact ⟨valid_hi h1.1, h2, ih h3⟩

theorem pathVector_hi (l : List (SP B)) : Cars.pathVector (l.map hi) = pathVector l := by unfold Cars.pathVector pathVector; rw [List.map_map]; rfl

/-- The pieces that are paths of the problem, driven in its direction if `d`. -/
def Fits (B : Bench ι) (d : Bool) (v : Piece ι) : Prop := Fit (relax B) v ∧ ∀ K ∈ v.paths, Slow B K ∧ (d = true → Sgn B.X K)

theorem fits_vec {d : Bool} (p : SP B) (h : d = true → Along B p) : Fits B d (vec p.1) :=
  ⟨fit_vec (hi p), by rw [paths_vec]; exact fun K hK => ⟨p.2.2 K hK, fun hd => h hd K hK⟩⟩

theorem fits_of {d : Bool} {v : Piece ι} (h : Fits B d v) : ∃ p : SP B, v = vec p.1 ∧ (d = true → Along B p) :=
  ⟨⟨v.paths, chain_back h.1.2, fun K hK => (h.2 K hK).1⟩, h.1.1, fun hd K hK => (h.2 K hK).2 hd⟩

theorem fits_lawful (B : Bench ι) (d : Bool) : LawfulF (vecOps ccOps) (Fits B d) := by
  refine ⟨fun v hv => (fit_lawful (relax B)).nonneg v hv.1, ?_⟩
  intro v a b r hv h1 h2 h3 hr
  obtain ⟨k1, k2, k3⟩ := (fit_lawful (relax B)).fwd v a b r hv.1 h1 h2 h3 hr
  obtain ⟨p, rfl, hd⟩ := fits_of hv
  have h1 := (vlo (low p)).symm.le.trans h1
  have h3 := h3.trans (vhi (low p)).le
  obtain ⟨p', e, -, -, e3⟩ := part p h1 h2 h3
  obtain rfl := Except.ok.inj (e.symm.trans hr)
  exact ⟨(fits_vec p' fun h => e3 (hd h)), k2, k3⟩

theorem opt_ini (p : SP B) : (optEnv B).ini (vec p.1) = (ini (low p)).1 := Cars.opt_ini (low p)

theorem opt_fin (p : SP B) : (optEnv B).fin (vec p.1) = (fin (low p)).1 := Cars.opt_fin (low p)

theorem opt_steer (hB : B.Ok) {a b : Cfg (ι → ℝ) Unit} {v : Piece ι} (h : (optEnv B).steer a b = some v) :
    ∃ p : SP B, v = vec p.1 ∧ (ini (low p)).1 = a ∧ (fin (low p)).1 = b ∧ Along B p := by
  simp only [optEnv] at h
  split at h
  · next hu =>
    obtain ⟨p, hp, rfl⟩ := Option.map_eq_some_iff.1 h
    obtain ⟨e1, e2⟩ := steer_spec hB.world (steer_low hp)
    exact ⟨p, rfl, by rw [e1], by rw [e2], (follows hB).steer _ _ p hp⟩
  · simp at h

theorem opt_valid (hB : B.Ok) {p : SP B} (h : (optEnv B).valid (vec p.1) = true) : Valid B p := by
  refine ((contract hB).valid_true false p ?_).1
  simp only [optEnv] at h
  simp only [env]
  split at h
  · simp at h
  · next r hr => rw [hr]; exact h

theorem optContract (hB : B.Ok) (d : Bool) : Optim.Contract (optEnv B) (Fits B d) := by
  exact {
    lawful := fits_lawful B d
    ini v hv := by
      obtain ⟨p, rfl, -⟩ := fits_of hv
      rw [opt_ini]
      show evalV ccOps (vec p.1) (vec p.1).tr.1 = _
      rw [tr_vec]; exact (vec_ends (low p)).1
    fin v hv := by
      obtain ⟨p, rfl, -⟩ := fits_of hv
      rw [opt_fin]
      show evalV ccOps (vec p.1) (vec p.1).tr.2 = _
      rw [tr_vec]; exact (vec_ends (low p)).2
    steer a b v _ _ hs _ := by
      obtain ⟨p, rfl, -, -, h⟩ := opt_steer hB hs
      exact fits_vec p fun _ => h
    steer_ends a b v hs := by
      obtain ⟨p, rfl, e1, e2, -⟩ := opt_steer hB hs
      rw [opt_ini, opt_fin]
      exact ⟨e1, e2⟩ }

theorem pieces_eq (l : List (SP B)) : pieces B (l.map fun p => vec p.1) = l := by
  induction l with
  | nil => rfl
  | cons p l ih =>
    have hc : Chain B.X (vec p.1).paths ∧ ∀ K ∈ (vec p.1).paths, Slow B K := by rw [paths_vec]; exact p.2
    unfold pieces at ih ⊢
    rw [List.map_cons, List.filterMap_cons_some (b := p), ih]
    rw [dif_pos hc]
    congr 1
    exact Subtype.ext (paths_vec p.1)

theorem pathVector_paths (l : List (SP B)) : (pathVector l).paths = l.map fun p => vec p.1 := by
  rw [← pathVector_hi, Cars.pathVector_eq, List.map_map]; rfl

/-- The invariant: a vector of valid pieces between successive configurations. -/
def SafeVec (B : Bench ι) (d : Bool) (a b : Conf ι) (v : Whole ι) : Prop := ∃ l : List (SP B), l ≠ [] ∧ v = pathVector l ∧ Connects (env B) (Keep B d) a l b

theorem safeVec_of {d : Bool} {a b : Conf ι} {w : Whole ι} (hcons : w.cons = none) (hne : w.paths ≠ []) (hwf : WF (vecOps ccOps) (Fits B d) w) (hch : Chained (vecOps ccOps) w.paths)
    (h0 : evalV (vecOps ccOps) w w.tr.1 = .ok a.1) (h1 : evalV (vecOps ccOps) w w.tr.2 = .ok b.1)
    (hf : ∀ s, w.tr.1 ≤ s → s ≤ w.tr.2 → ∀ q, evalV (vecOps ccOps) w s = .ok q → B.Free q) : SafeVec B d a b w := by
  obtain ⟨l, k1, rfl, k3⟩ := Cars.safeVec_of (X := relax B) hcons hne ⟨hwf.1, fun v hv => (hwf.2 v hv).1⟩ hch h0 h1 (fun s s0 s1 q hq => (relax_free q).2 (hf s s0 s1 q hq))
  have hfit : ∀ p ∈ l, Fits B d (vec p.1) := by
    intro p hp
    refine hwf.2 _ ?_
    rw [Cars.pathVector_eq]
    exact List.mem_map.2 ⟨p, hp, rfl⟩
  clear hcons hne hwf hch h0 h1 hf
  have key : ∀ (l : List (Cars.SP (relax B))) (a : Conf ι), (∀ p ∈ l, Fits B d (vec p.1)) → Connects (Cars.env (relax B)) (Cars.Valid (relax B)) a l b →
      ∃ l' : List (SP B), l'.map hi = l ∧ Connects (env B) (Keep B d) a l' b := by
    intro l
    induction l with
    | nil => exact fun a _ h => ⟨[], rfl, h⟩
    | cons p l ih =>
      intro a hp h
      obtain ⟨c1, c2, c3⟩ := h
      obtain ⟨l', e1, e2⟩ := ih _ (fun x hx => hp x (List.mem_cons_of_mem _ hx)) c3
      have hpf := (hp p (List.mem_cons_self ..)).2
      rw [paths_vec] at hpf
      refine ⟨⟨p.1, chain_back p.2, fun K hK => (hpf K hK).1⟩ :: l', by rw [List.map_cons, e1]; rfl, ⟨?_, ?_⟩, c2, e2⟩
      · exact fun K hK t t0 t1 => (relax_free _).1 (c1 K hK t t0 t1)
      · exact fun hd K hK => (hpf K hK).2 hd
  obtain ⟨l', e1, e2⟩ := key l a hfit k3
  subst e1
  exact ⟨l', fun e => k1 (by rw [e]; rfl), pathVector_hi l', e2⟩

theorem connects_mono {V W : SP B → Prop} (hVW : ∀ p, V p → W p) {l : List (SP B)} {a b : Conf ι} (h : Connects (env B) V a l b) : Connects (env B) W a l b := by
  induction l generalizing a with
  | nil => exact h
  | cons p l ih => exact ⟨hVW p h.1, h.2.1, ih h.2.2⟩

theorem connects_each {V : SP B → Prop} {l : List (SP B)} {a b : Conf ι} (h : Connects (env B) V a l b) : ∀ p ∈ l, V p := by
  induction l generalizing a with
  | nil => simp
  | cons p l ih =>
    intro x hx
    rcases List.mem_cons.1 hx with rfl | hx
    · exact h.1
    · exact ih h.2.2 x hx

/-! ## C164 -/

theorem optSteer_eq (a b : Conf ι) : Optim.Simple.optSteer (env B) a b = (env B).steer a b := by
  unfold Optim.Simple.optSteer
  cases h : (env B).steer a b with
  | none => rfl
  | some p => rfl

/-- One optimizer. -/
theorem apply_safe (hB : B.Ok) (hsep : Separates (env B).toEnv) (o : Opt B) (ho : o.Ok) {d : Bool} {a b : Conf ι} (hab : a ≠ b) {v w : Whole ι}
    (h : SafeVec B d a b v) (hw : o.apply B v = some w) : SafeVec B d a b w := by
  obtain ⟨l, hne, rfl, hc⟩ := h
  have hne' : l.map hi ≠ [] := fun e => hne (List.map_eq_nil_iff.1 e)
  have hs := Cars.safe_of_connects (l.map hi) a b hne' (connects_hi l hc)
  obtain ⟨p1, p2, p4, p5⟩ := Cars.whole_parts (l.map hi) (connects_hi l hc)
  rw [pathVector_hi] at hs p1 p2 p4 p5
  have hpaths := pathVector_paths l
  have p3 : (pathVector l).paths ≠ [] := by rw [hpaths]; exact fun e => hne (List.map_eq_nil_iff.1 e)
  cases o with
  | random eps n shoot stop fuel =>
    simp only [Opt.apply] at hw
    split at hw
    · next w' hr =>
      obtain rfl := Option.some.inj hw
      have hwf : WF (vecOps ccOps) (Fits B d) (pathVector l) := ⟨p4.1, fun v hv => by
        rw [hpaths] at hv
        obtain ⟨p, hp, rfl⟩ := List.mem_map.1 hv
        exact fits_vec p (connects_each hc p hp).2⟩
      obtain ⟨k0, k1, k2, k3, k4, k5, -, -, k6⟩ := Optim.C42_random (optContract hB d) ho.1 shoot ho.2 stop fuel (pathVector l) w' p1 p3 hwf p5 hr
      refine safeVec_of k0 k2 k1 k3 (k4.trans ?_) (k5.trans hs.fin) (k6 B.Free ?_ ?_)
      · rw [p2]; exact hs.ini
      · intro x y v _ _ hst hv u u0 u1 q hq
        obtain ⟨p, rfl, -, -⟩ := opt_steer hB hst
        have hval := opt_valid hB hv
        have u1 : u ≤ (vecOps ccOps).len (vec p.1) := u1
        have hq : evalV ccOps (vec p.1) ((vec p.1).tr.1 + u) = .ok q := hq
        have u1 := u1.trans (vlen (low p)).le
        rw [tr_vec, zero_add] at hq
        exact (valid_iff p).1 hval u u0 u1 q hq
      · intro s s0 s1 q hq
        rw [p2] at s0
        obtain ⟨K, -, u, -, -, e, hf⟩ := hs.free s s0 s1
        obtain rfl := Except.ok.inj (e.symm.trans hq)
        exact (relax_free _).1 hf
    · exact absurd hw (by simp)
  | simple heur =>
    simp only [Opt.apply, hpaths, pieces_eq] at hw
    obtain ⟨p, ps, rfl⟩ := List.exists_cons_of_ne_nil hne
    have ea : ini (low p) = a := hc.2.1
    simp only [ea] at hw
    obtain ⟨l', e1, e2, e3⟩ := Optim.Simple.C42_simple (C := env B) hsep (fun x y p hp => steer_spec hB.world (steer_low ((optSteer_eq x y).symm.trans hp))) heur
      (connects_mono (fun _ _ => trivial) hc) (Or.inl hab)
    rw [e1] at hw
    obtain rfl := Option.some.inj hw
    rcases e3 with e3 | ⟨e, -⟩
    · refine ⟨l', e2, rfl, connects_mono ?_ e3⟩
      rintro x (hx | ⟨y, z, hy, hv⟩)
      · exact connects_each hc x hx
      · exact ⟨((contract hB).valid_true false x hv).1, fun _ => (follows hB).steer y z x ((optSteer_eq y z).symm.trans hy)⟩
    · exact absurd e hab

theorem optimize_safe (hB : B.Ok) (hsep : Separates (env B).toEnv) (os : List (Opt B)) (hos : ∀ o ∈ os, o.Ok) {d : Bool} {a b : Conf ι} (hab : a ≠ b) {v w : Whole ι}
    (h : SafeVec B d a b v) (hw : optimizeAll B os v = some w) : SafeVec B d a b w := by
  induction os generalizing v with
  | nil => obtain rfl := Option.some.inj hw; exact h
  | cons o os ih =>
    unfold optimizeAll at hw
    split at hw
    · exact absurd hw (by simp)
    · next v' hv => exact ih (fun x hx => hos x (by simp [hx])) (apply_safe hB hsep o (hos o (by simp)) hab h hv) hw

/-- C164: any sequence of RandomShortcut and SimpleShortcut, with any number of shots and any interruption of each of them, on a sequence of valid paths of a car between two different configurations:
the path returned is a sequence of arcs, straight or of the minimal radius, each one starting where the previous one ends, between the same configurations; nowhere along it do two objects penetrate by
more than they can move in half a step; if the initial path is driven in the direction of the steering method, it is too. -/
theorem C164_optimize_partial (hB : B.Ok) (hsep : Separates (env B).toEnv) (os : List (Opt B)) (hos : ∀ o ∈ os, o.Ok) (d : Bool) {a b : Conf ι} (hab : a ≠ b) {l : List (SP B)} (hne : l ≠ [])
    (h : Connects (env B) (Keep B d) a l b) {w : Whole ι} (hw : optimizeAll B os (pathVector l) = some w) :
    Safe B (evalV (vecOps ccOps) w) w.tr.2 (w.paths.flatMap fun v => v.paths) a b ∧
      (d = true → ∀ K ∈ w.paths.flatMap fun v => v.paths, if B.X.back then K.curveLength ≤ 0 else 0 ≤ K.curveLength) := by
  obtain ⟨l', hne', rfl, hc⟩ := optimize_safe hB hsep os hos hab ⟨l, hne, rfl, h⟩ hw
  have e : ((pathVector l').paths.flatMap fun v => v.paths) = l'.flatMap fun p => p.1 := by
    rw [pathVector_paths]
    simp only [List.flatMap_map, paths_vec]
  rw [e]
  obtain ⟨p, ps, rfl⟩ := List.exists_cons_of_ne_nil hne'
  have ha : B.Free a.1 := by
    have hv := hc.1.1
    have := (valid_iff p).1 hv 0 le_rfl (tnn p) _ (vec_ends (low p)).1
    change B.Free (ini (low p)).1 at this
    rw [show ini (low p) = a from hc.2.1] at this
    exact this
  refine ⟨safe_of_connects _ (V := Keep B d) (fun p h => Or.inl h.1) hne' ha hc, fun hd K hK => ?_⟩
  obtain ⟨x, hx, hK⟩ := List.mem_flatMap.1 hK
  exact (connects_each hc x hx).2 hd K hK

/-- C164: SimpleShortcut always returns a path. -/
theorem C164_simple_ends (hB : B.Ok) (hsep : Separates (env B).toEnv) (heur : Roadmap (Conf ι) (SP B) → Nat → ℝ) (d : Bool) {a b : Conf ι} (hab : a ≠ b) {l : List (SP B)} (hne : l ≠ [])
    (h : Connects (env B) (Keep B d) a l b) : ∃ w, (Opt.simple heur).apply B (pathVector l) = some w := by
  simp only [Opt.apply, pathVector_paths, pieces_eq]
  obtain ⟨p, ps, rfl⟩ := List.exists_cons_of_ne_nil hne
  have ea : ini (low p) = a := h.2.1
  obtain ⟨l', e1, -, -⟩ := Optim.Simple.C42_simple (C := env B) hsep (fun x y p hp => steer_spec hB.world (steer_low ((optSteer_eq x y).symm.trans hp))) heur
    (connects_mono (fun _ _ => trivial) h) (Or.inl hab)
  simp only [ea, e1]
  exact ⟨_, rfl⟩

/-- The paths of a solution are kept by the optimizers. -/
theorem solves_keep (hB : B.Ok) {V : SP B → Prop} {d : Bool} (hV : ∀ p, V p → ValidOrPoint (env B) (Valid B) p ∧ (d = true → Along B p)) {q0 : Conf ι} {gs : List (Conf ι)} (h0 : B.Free q0.1)
    {l : List (SP B)} (h : Solves (env B) V q0 gs l) : ∃ g ∈ gs, l ≠ [] ∧ Connects (env B) (Keep B d) q0 l g := by
  rcases h with ⟨g, hg, hne, hc⟩ | ⟨-, p, hp, -⟩
  · refine ⟨g, hg, hne, ?_⟩
    have hv := connects_valid l (fun p hp => (hV p hp).1) h0 hc
    have ha := connects_each hc
    clear h0 hne hg
    induction l generalizing q0 with
    | nil => exact hc
    | cons p l ih =>
      exact ⟨⟨hv p (by simp), (hV p (ha p (by simp))).2⟩, hc.2.1, ih hc.2.2 (fun x hx => hv x (by simp [hx])) (fun x hx => ha x (by simp [hx]))⟩
  · rw [steer_self hB] at hp; simp at hp

/-- C164, BiRRT and then any optimizers: the path is safe and driven in one direction. -/
theorem C164_birrt_partial (hB : B.Ok) (hsep : Separates (env B).toEnv) (heur : Roadmap (Conf ι) (SP B) → Nat → ℝ) (q0 : Conf ι) (gs : List (Conf ι)) (hq : q0 ∉ gs) (shoot : Nat → Conf ι)
    (st : Settings ℝ) (late intr : Nat → Bool) (fuel : Nat) (x : BState) (l : List (SP B)) (h0 : B.Free q0.1)
    (hl : solve (birrt (env B) heur q0 gs shoot) st late intr fuel (x, Roadmap.empty) = .path l) (os : List (Opt B)) (hos : ∀ o ∈ os, o.Ok) {w : Whole ι}
    (hw : optimizeAll B os (pathVector l) = some w) :
    (∃ g ∈ gs, Safe B (evalV (vecOps ccOps) w) w.tr.2 (w.paths.flatMap fun v => v.paths) q0 g) ∧
      ∀ K ∈ w.paths.flatMap fun v => v.paths, if B.X.back then K.curveLength ≤ 0 else 0 ≤ K.curveLength := by
  obtain ⟨h1, -⟩ := OneWay.C158_birrt_partial (follows hB) (contract hB) (pointContract hB) (fun _ _ => rfl) heur q0 gs shoot (s := (x, Roadmap.empty))
    ⟨Inv.empty, by simp [Roadmap.empty]⟩ (by simp [OneWay.Edges, Roadmap.empty]) st late intr fuel l hl
  obtain ⟨g, hg, hne, hc⟩ := solves_keep (d := true) hB (fun p hp => ⟨hp.1, fun _ => hp.2⟩) h0 h1
  obtain ⟨k1, k2⟩ := C164_optimize_partial hB hsep os hos true (fun e => hq (by rw [e]; exact hg)) hne hc hw
  exact ⟨⟨g, hg, k1⟩, k2 rfl⟩

theorem solves_optimized (hB : B.Ok) (hsep : Separates (env B).toEnv) {q0 : Conf ι} {gs : List (Conf ι)} (hq : q0 ∉ gs) {l : List (SP B)} (h0 : B.Free q0.1) (h : Solves (env B) (Valid B) q0 gs l)
    (os : List (Opt B)) (hos : ∀ o ∈ os, o.Ok) {w : Whole ι} (hw : optimizeAll B os (pathVector l) = some w) :
    ∃ g ∈ gs, Safe B (evalV (vecOps ccOps) w) w.tr.2 (w.paths.flatMap fun v => v.paths) q0 g := by
  obtain ⟨g, hg, hne, hc⟩ := solves_keep (d := false) hB (fun p hp => ⟨Or.inl hp, fun h => by simp at h⟩) h0 h
  exact ⟨g, hg, (C164_optimize_partial hB hsep os hos false (fun e => hq (by rw [e]; exact hg)) hne hc hw).1⟩

/-- C164, diffusing planner. -/
theorem C164_diffusing_partial (hB : B.Ok) (hsep : Separates (env B).toEnv) (D : DiffParams ℝ) (heur : Roadmap (Conf ι) (SP B) → Nat → ℝ) (q0 : Conf ι) (gs : List (Conf ι)) (hq : q0 ∉ gs)
    (shoot : Nat → Conf ι) (st : Settings ℝ) (late intr : Nat → Bool) (fuel n : Nat) (l : List (SP B)) (h0 : B.Free q0.1)
    (hl : solve (diffusing (env B) D heur q0 gs shoot) st late intr fuel (n, Roadmap.empty) = .path l) (os : List (Opt B)) (hos : ∀ o ∈ os, o.Ok) {w : Whole ι}
    (hw : optimizeAll B os (pathVector l) = some w) : ∃ g ∈ gs, Safe B (evalV (vecOps ccOps) w) w.tr.2 (w.paths.flatMap fun v => v.paths) q0 g :=
  solves_optimized hB hsep hq h0 (C67_diffusing (contract hB) D heur q0 gs shoot ⟨Inv.empty, by simp [Roadmap.empty]⟩ st late intr fuel n l hl) os hos hw

/-- C164, Visibility-PRM. -/
theorem C164_visibility_partial (hB : B.Ok) (hsep : Separates (env B).toEnv) (heur : Roadmap (Conf ι) (SP B) → Nat → ℝ) (q0 : Conf ι) (gs : List (Conf ι)) (hq : q0 ∉ gs) (sample : Nat → Conf ι)
    (st : Settings ℝ) (late intr : Nat → Bool) (fuel : Nat) (x : Nat × (Nat → Bool)) (l : List (SP B)) (h0 : B.Free q0.1)
    (hl : solve (visibility (env B) heur q0 gs sample) st late intr fuel (x, Roadmap.empty) = .path l) (os : List (Opt B)) (hos : ∀ o ∈ os, o.Ok) {w : Whole ι}
    (hw : optimizeAll B os (pathVector l) = some w) : ∃ g ∈ gs, Safe B (evalV (vecOps ccOps) w) w.tr.2 (w.paths.flatMap fun v => v.paths) q0 g :=
  solves_optimized hB hsep hq h0 (C67_visibility (contract hB) heur q0 gs sample (s := (x, Roadmap.empty)) ⟨Inv.empty, by simp [Roadmap.empty]⟩ st late intr fuel l hl) os hos hw

/-- C164, k-PRM*. -/
theorem C164_kprm_partial {H : Type} (hB : B.Ok) (hsep : Separates (env B).toEnv) (C : KEnv (Conf ι) (SP B) ℝ H) (hC : C.toPEnv = env B) (hk : 0 < C.k) (hN : 0 < C.nodes)
    (heur : Roadmap (Conf ι) (SP B) → Nat → ℝ) (q0 : Conf ι) (gs : List (Conf ι)) (hq : q0 ∉ gs) (st : Settings ℝ) (late intr : Nat → Bool) (fuel : Nat) (x : KState)
    (l : List (SP B)) (h0 : B.Free q0.1) (hl : solve (kprm C heur q0 gs) st late intr fuel (x, Roadmap.empty) = .path l) (os : List (Opt B)) (hos : ∀ o ∈ os, o.Ok) {w : Whole ι}
    (hw : optimizeAll B os (pathVector l) = some w) : ∃ g ∈ gs, Safe B (evalV (vecOps ccOps) w) w.tr.2 (w.paths.flatMap fun v => v.paths) q0 g := by
  refine solves_optimized hB hsep hq h0 ?_ os hos hw
  rw [← hC]
  exact C67_kprm (by rw [hC]; exact contract hB) hk hN heur q0 gs (s := (x, Roadmap.empty)) ⟨Inv.empty, by simp [Roadmap.empty]⟩ st late intr fuel l hl

/-! ## The car below a wall -/
namespace Demo
open Verif.Car.Demo Cars.Demo

theorem separates : Separates (env bench).toEnv := Cars.Demo.separates

theorem turn_kept : Connects (env bench) (Keep bench true) (ini (low turn)) [turn] (fin (low turn)) := by
  have acc : ((env bench).validate false turn).1 = true := by
    refine C162_accepts bench_ok false turn ?_
    intro K hK t t0 t1 c hc o ho
    rw [List.mem_singleton.1 hK]
    obtain rfl : c = wall := by simpa [bench, world] using hc
    obtain rfl : o = ⟨fun q => 4 - q.y, fun q => if 0 < 4 - q.y then some (4 - q.y) else none⟩ := by simpa [wall] using ho
    have := below t
    simp only
    rw [if_pos (by linarith)]
    simp
  refine ⟨⟨((contract bench_ok).valid_true false turn acc).1, fun _ K hK => ?_⟩, rfl, rfl⟩
  rw [List.mem_singleton.1 hK]
  show (0 : ℝ) ≤ 1
  norm_num

/-- SimpleShortcut returns a path, to which `C164_optimize_partial` applies. -/
example : ∃ w, optimizeAll bench [.simple fun _ _ => 0] (pathVector [turn]) = some w ∧
    Safe bench (evalV (vecOps ccOps) w) w.tr.2 (w.paths.flatMap fun v => v.paths) (ini (low turn)) (fin (low turn)) ∧ ∀ K ∈ w.paths.flatMap fun v => v.paths, 0 ≤ K.curveLength := by
  have hab : ini (low turn) ≠ fin (low turn) := by
    intro h
    have h : arc1.init = arc1.fin := congrArg Subtype.val h
    have := congrArg Cfg.s h
    have e : arc1.fin.s = Real.sin 1 := by simp [arc1, CC.create, CC.eval, CC.ratio]
    rw [e] at this
    have h0 : arc1.init.s = 0 := rfl
    rw [h0] at this
    have := Real.sin_pos_of_pos_of_le_one one_pos le_rfl
    linarith
  obtain ⟨w, hw⟩ := C164_simple_ends bench_ok separates (fun _ _ => 0) true hab (by simp) turn_kept
  have e : optimizeAll bench [.simple fun _ _ => 0] (pathVector [turn]) = some w := by
    simp only [optimizeAll, hw]
  obtain ⟨k1, k2⟩ := C164_optimize_partial bench_ok separates _ (by simp [Opt.Ok]) true hab (by simp) turn_kept e
  exact ⟨w, e, k1, k2 rfl⟩

end Demo

end Verif.Planner.CarsSampled
