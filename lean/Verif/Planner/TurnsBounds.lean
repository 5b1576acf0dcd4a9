import Verif.Planner.Closed
import Verif.Planner.RobotsTime
set_option linter.unusedSectionVars false

/-!
# Joint bounds along paths of robots with joints of any kind (C141)

As `Bounds`, without the assumption that the configuration space is a vector space, and through the shortcut optimizers and the time parameterization: planners and shortcuts combine
configurations only by interpolation.  The reversal of half a turn, which breaks the absence of collision, does no harm here.
-/
namespace Verif.Optim.Simple
open Verif.Roadmap Verif.Planner
variable {Q P K : Type} [DecidableEq Q] [AddCommGroup K] [LinearOrder K] [IsOrderedAddMonoid K] {C : PEnv Q P K} {J I : Q → Prop} {IP : P → Prop} {r r' : Roadmap Q P}

theorem optSteer_in (hC : Closed C J I IP) {a b : Q} {p : P} (ha : I a) (hb : I b) (k : optSteer C a b = some p) : IP p := by
  unfold optSteer at k
  split at k
  · simp at k
  · next dp hdp =>
    have h := hC.steer a b dp ha hb hdp
    split at k
    · cases k; exact h
    · next f hf =>
      split at k
      · next pp hpp => subst k; exact hC.proj f dp true p hf h hpp
      · simp at k

theorem insertPieces_in (hC : Closed C J I IP) (ps : List P) (hp : ∀ p ∈ ps, IP p) {n : Nat} (h : Within I IP r) {ns : List Nat} (k : insertPieces C ps n r = .ok (r', ns)) :
    Within I IP r' := by
  induction ps generalizing n r r' ns with
  | nil => simp only [insertPieces, Except.ok.injEq, Prod.mk.injEq] at k; rw [← k.1]; exact h
  | cons p ps ih =>
    simp only [insertPieces] at k
    split at k
    · simp at k
    · next r1 m h1 =>
      split at k
      · simp at k
      · next r2 ms h2 =>
        simp only [Except.ok.injEq, Prod.mk.injEq] at k
        rw [← k.1]
        exact ih (fun q hq => hp q (by simp [hq])) (h.addNodeAndEdgeTo (hC.fin p (hp p (by simp))) (hp p (by simp)) h1) h2

theorem tryPair_in (hC : Closed C J I IP) {a b : Nat} (h : Within I IP r) (k : tryPair C r a b = .ok r') : Within I IP r' := by
  unfold tryPair at k
  split at k
  · next x y hx hy =>
    split at k
    · cases k; exact h
    · next p hp =>
      split at k
      · exact h.addEdge (optSteer_in hC (h.get hx) (h.get hy) hp) k
      · cases k; exact h
  · simp at k

theorem innerLoop_in (hC : Closed C J I IP) {a : Nat} (l : List Nat) (h : Within I IP r) (k : innerLoop C a l r = .ok r') : Within I IP r' := by
  induction l generalizing r with
  | nil => cases k; exact h
  | cons b l ih =>
    simp only [innerLoop] at k
    split at k
    · simp at k
    · next r1 h1 => exact ih (tryPair_in hC h h1) k

theorem outerLoop_in (hC : Closed C J I IP) (l : List Nat) (h : Within I IP r) (k : outerLoop C l r = .ok r') : Within I IP r' := by
  induction l generalizing r with
  | nil => cases k; exact h
  | cons b l ih =>
    simp only [outerLoop] at k
    split at k
    · simp at k
    · next r1 h1 => exact ih (innerLoop_in hC _ h h1) k

/-- `SimpleShortcut` keeps any property of configurations and paths that the calls keep. -/
theorem simpleShortcut_in (hC : Closed C J I IP) (heur : Roadmap Q P → Nat → K) {q0 : Q} (h0 : I q0) {ps : List P} (hp : ∀ p ∈ ps, IP p) {l : List P}
    (k : simpleShortcut C heur q0 ps = .ok l) : l ≠ [] ∧ ∀ p ∈ l, IP p := by
  unfold simpleShortcut at k
  split at k
  · simp at k
  · next r0 i k0 =>
    have w0 : Within I IP r0 := by
      simp only [setInit, bind, Except.bind, pure, Except.pure] at k0
      split at k0
      · simp at k0
      · next y k1 =>
        obtain ⟨r1, n⟩ := y
        cases k0
        exact Within.same (Within.addNode Within.empty h0 k1) ⟨rfl, rfl, rfl, rfl⟩
    split at k
    · simp at k
    · next r1 ns k1 =>
      have w1 := insertPieces_in hC ps hp w0 k1
      split at k
      · simp at k
      · next q hq =>
        split at k
        · simp at k
        · next r2 g k2 =>
          have w2 : Within I IP r2 := Within.addGoals (C := C) [q] w1 (by simpa using w1.get hq) (by
            unfold Planner.addGoals
            rw [k2]; rfl)
          split at k
          · simp at k
          · next r3 k3 => exact computePath_in hC (outerLoop_in hC _ w2 k3) heur k

end Verif.Optim.Simple

namespace Verif.Turns
open Verif.PathV Verif.CV Verif.Planner
open Verif.EndToEnd (Mode)

section planners
variable {K C ι : Type} [Field K] [LinearOrder K] [IsStrictOrderedRing K] [FloorSemiring K] [Fintype ι] {W : World K C ι} {hW : W.Ok}

/-! ## Specification -/

/-- The set contains the segments between its configurations: joint bounds of the joints that have some, the other joints being free. -/
def Segments (W : World K C ι) (S : Set C) : Prop := ∀ a ∈ S, ∀ b ∈ S, ∀ u, 0 ≤ u → u ≤ 1 → W.space.interp a b u ∈ S

/-- Every configuration of the path is defined and in the set. -/
def InSet (f : K → Except PathV.Err C) (T : K) (S : Set C) : Prop := ∀ t, 0 ≤ t → t ≤ T → ∃ q, f t = .ok q ∧ q ∈ S

/-! ## Planners -/

/-- The straight path stays in the set. -/
def Stays (S : Set C) (p : SP W) : Prop := ∀ t, 0 ≤ t → t ≤ p.1.1.pr.2 → conf W p.1.1 t ∈ S

theorem stays_of {S : Set C} (hS : Segments W S) (p : SP W) (h0 : p.1.1.q0 ∈ S) (h1 : p.1.1.q1 ∈ S) : Stays S p := by
  intro t t0 t1
  rcases p.2.1.2.1.eq_or_lt with e | e
  · rw [conf_point W p.2.1 e.symm]; exact h0
  · rw [conf_interp W p.2.1 e]
    exact hS _ h0 _ h1 _ (div_nonneg t0 e.le) ((div_le_one e).2 t1)

theorem ext_stays {S : Set C} (hS : Segments W S) {p : SP W} (h : Stays S p) {a b : K} (h0 : 0 ≤ a) (hab : a ≤ b) (hb : b ≤ p.1.1.pr.2) : Stays S (ext hW p a b h0 hab hb) :=
  stays_of hS _ (h a h0 (hab.trans hb)) (h b (h0.trans hab) hb)

/-- The calls of the planners keep configurations and paths in the set. -/
theorem closed (W : World K C ι) (hW : W.Ok) {S : Set C} (hS : Segments W S) : Closed (env W hW) (· ∈ S) (· ∈ S) (Stays S) where
  steer a b p ha hb h := by
    obtain rfl := Option.some.inj h
    exact stays_of hS _ ha hb
  extract p t h := by
    show Stays S (dite _ _ _)
    split
    · exact ext_stays hS h _ _ _
    · exact h
  proj f p b p' h := by simp [env] at h
  valid b p h := by
    rcases validate_spec W hW b p with ⟨-, k, -⟩ | ⟨-, tl, k1, k2, k3⟩
    · rw [k]; exact h
    · cases b with
      | true =>
        simp only [if_true] at k3
        rw [k3.1]; exact ext_stays hS h _ _ _
      | false =>
        simp only [Bool.false_eq_true, if_false] at k3
        rw [k3.1]; exact ext_stays hS h _ _ _
  rev p h := by
    have h0 : p.1.1.pr.1 = 0 := p.2.1.1
    exact stays_of hS (rev hW p) (h _ p.2.1.2.1 le_rfl) (h _ h0.ge (good p))
  kernel x q q' _ hq h := by
    obtain rfl := Option.some.inj h
    exact hq
  ini p h := h _ (le_of_eq p.2.1.1.symm) (good p)
  fin p h := h _ p.2.1.2.1 le_rfl

/-- From the list of paths to the path vector. -/
theorem vector_stays {S : Set C} (l : List (SP W)) (h : l ≠ [] ∧ ∀ p ∈ l, Stays S p) : InSet (evalV (straightOps W.space) (pathVector l)) (pathVector l).tr.2 S := by
  intro t t0 t1
  have hpaths : (pathVector l).paths = l.map bare := by rw [pathVector_eq]
  have hT : (pathVector l).tr.2 = total (straightOps W.space) (l.map bare) := by rw [pathVector_eq]
  obtain ⟨i, p, x, -, k2, k3, k4, -, -, k5⟩ := C19_eval (straightOps W.space) (pathVector l) (by rw [hpaths]; exact fun e => h.1 (List.map_eq_nil_iff.1 e)) (by
    intro p hp
    rw [hpaths] at hp
    obtain ⟨x, -, rfl⟩ := List.mem_map.1 hp
    exact good x) t t0 (by rw [hpaths]; rw [hT] at t1; exact t1)
  rw [hpaths] at k2
  obtain ⟨y, hy, rfl⟩ := List.mem_map.1 (List.mem_of_getElem? k2)
  have hc : (pathVector l).cons = none := by rw [pathVector_eq]
  rw [k5, hc, eval_line W (p := bare y) y.2.1]
  have h0 : (bare y).pr.1 = 0 := y.2.1.1
  exact ⟨_, rfl, h.2 y hy x (by rw [← h0]; exact k3) k4⟩

variable [DecidableEq C]

/-- The path returned by one of the planners on a new roadmap, when the configurations that are drawn are in the set; for BiRRT*, also those that are drawn near the best path. -/
inductive ReturnedFrom (W : World K C ι) (hW : W.Ok) (S : Set C) (q0 : C) (l : List (SP W)) : List C → Prop
  | diffusing (gs : List C) (D : DiffParams K) (heur : Roadmap.Roadmap C (SP W) → Nat → K) (shoot : Nat → C) (hs : ∀ n, shoot n ∈ S) (st : Settings K) (late intr : Nat → Bool)
      (fuel n : Nat) (h : solve (diffusing (env W hW) D heur q0 gs shoot) st late intr fuel (n, Roadmap.empty) = .path l) : ReturnedFrom W hW S q0 l gs
  | visibility (gs : List C) (heur : Roadmap.Roadmap C (SP W) → Nat → K) (shoot : Nat → C) (hs : ∀ n, shoot n ∈ S) (st : Settings K) (late intr : Nat → Bool) (fuel : Nat)
      (x : Nat × (Nat → Bool)) (h : solve (visibility (env W hW) heur q0 gs shoot) st late intr fuel (x, Roadmap.empty) = .path l) : ReturnedFrom W hW S q0 l gs
  | birrt (gs : List C) (heur : Roadmap.Roadmap C (SP W) → Nat → K) (shoot : Nat → C) (hs : ∀ n, shoot n ∈ S) (st : Settings K) (late intr : Nat → Bool) (fuel : Nat) (x : BState)
      (h : solve (birrt (env W hW) heur q0 gs shoot) st late intr fuel (x, Roadmap.empty) = .path l) : ReturnedFrom W hW S q0 l gs
  | kprm (gs : List C) {H : Type} (E : KEnv C (SP W) K H) (hE : E.toPEnv = env W hW) (hs : ∀ n, E.shoot n ∈ S) (hc : ∀ q q', q ∈ S → E.check q = some q' → q' ∈ S)
      (heur : Roadmap.Roadmap C (SP W) → Nat → K) (st : Settings K) (late intr : Nat → Bool) (fuel : Nat) (x : KState)
      (h : solve (kprm E heur q0 gs) st late intr fuel (x, Roadmap.empty) = .path l) : ReturnedFrom W hW S q0 l gs
  | birrtstar (gs : List C) (E : Star.SEnv C (SP W) K) (hE : E.toPEnv = env W hW) (ha : ∀ x q, x ∈ S → q ∈ S → E.adjust x q ∈ S)
      (hb : ∀ n x y z, x ∈ S → y ∈ S → z ∈ S → E.between n x y z ∈ S)
      (pop : List (Star.WNode (SP W) K) → Option (Star.WNode (SP W) K × List (Star.WNode (SP W) K)))
      (heur : Roadmap.Roadmap C (SP W) → Nat → K) (fc fp : Nat) (draws : Nat → Star.Draw C) (hs : ∀ n, (draws n).shot ∈ S) (x : Star.Trees (SP W) × Nat)
      (st : Settings K) (late intr : Nat → Bool) (fuel : Nat)
      (h : solve (Star.birrtstar E heur pop fc fp q0 gs draws) st late intr fuel (x, Roadmap.empty) = .path l) : ReturnedFrom W hW S q0 l gs

theorem planned_stays {S : Set C} (hS : Segments W S) {q0 : C} {gs : List C} (h0 : q0 ∈ S) (hg : ∀ g ∈ gs, g ∈ S) {l : List (SP W)} (h : ReturnedFrom W hW S q0 l gs) :
    l ≠ [] ∧ ∀ p ∈ l, Stays S p := by
  cases h with
  | diffusing D heur shoot hs st late intr fuel n h =>
    exact (C130_diffusing (closed W hW hS) D heur q0 gs shoot h0 hg hs (n, Roadmap.empty) Within.empty).2 st late intr fuel l h
  | visibility heur shoot hs st late intr fuel x h =>
    exact (C130_visibility (closed W hW hS) heur q0 gs shoot h0 hg hs (x, Roadmap.empty) Within.empty).2 st late intr fuel l h
  | birrt heur shoot hs st late intr fuel x h =>
    exact (C130_birrt (closed W hW hS) heur q0 gs shoot h0 hg hs (x, Roadmap.empty) Within.empty).2 st late intr fuel l h
  | kprm E hE hs hc heur st late intr fuel x h =>
    exact (C130_kprm (J := (· ∈ S)) (I := (· ∈ S)) (IP := Stays S) (by rw [hE]; exact closed W hW hS) heur q0 gs h0 hg hs hc (x, Roadmap.empty) Within.empty).2 st late intr fuel l h
  | birrtstar E hE ha hb pop heur fc fp draws hs x st late intr fuel h =>
    have hcl : Closed E.toPEnv (· ∈ S) (· ∈ S) (Stays S) := by rw [hE]; exact closed W hW hS
    exact (Star.C130_birrtstar (J := (· ∈ S)) (I := (· ∈ S)) (IP := Stays S) ⟨hcl, fun _ h => h, ha, hb, hcl.steer⟩ heur pop fc fp q0 gs draws h0 hg hs (x, Roadmap.empty) Within.empty).2
      st late intr fuel l h

/-- C141: planners.  When the initial configuration, the goals and the configurations that are drawn are in a set closed by interpolation, so is every configuration of the path, half turns
included. -/
theorem C141_planners (hW : W.Ok) {S : Set C} (hS : Segments W S) {q0 : C} {gs : List C} (h0 : q0 ∈ S) (hg : ∀ g ∈ gs, g ∈ S) {l : List (SP W)} (h : ReturnedFrom W hW S q0 l gs) :
    InSet (evalV (straightOps W.space) (pathVector l)) (pathVector l).tr.2 S := vector_stays l (planned_stays hS h0 hg h)

/-! ## Optimizers -/

omit [DecidableEq C] in
/-- Conversely. -/
theorem stays_vector {S : Set C} (hW : W.Ok) {a b : C} {l : List (SP W)} (hc : Connects (env W hW) (Clean W) a l b)
    (h : InSet (evalV (straightOps W.space) (pathVector l)) (pathVector l).tr.2 S) : ∀ p ∈ l, Stays S p := by
  intro p hp t t0 t1
  obtain ⟨A, B, e⟩ := List.append_of_mem hp
  have hch : Chained (straightOps W.space) (pathVector l).paths := (safeVec_parts hW ⟨l, by rw [e]; simp, rfl, hc⟩).2.2.2.2
  rw [pathVector_eq] at h hch
  have e1 : l.map bare = A.map bare ++ bare p :: B.map bare := by rw [e, List.map_append, List.map_cons]
  have hp0 : (bare p).pr.1 = 0 := p.2.1.1
  have hlen : ∀ q ∈ l.map bare, 0 ≤ (straightOps W.space).len q := by
    intro q hq
    obtain ⟨x, -, rfl⟩ := List.mem_map.1 hq
    exact sub_nonneg.2 (good x)
  have hsum : ∀ L : List (Line K C), (∀ q ∈ L, 0 ≤ (straightOps W.space).len q) → 0 ≤ total (straightOps W.space) L := by
    intro L hL
    unfold total
    apply List.sum_nonneg
    intro x hx
    obtain ⟨q, hq, rfl⟩ := List.mem_map.1 hx
    exact hL q hq
  have k : t ≤ (straightOps W.space).len (bare p) := by
    show t ≤ (bare p).pr.2 - (bare p).pr.1
    rw [hp0, sub_zero]; exact t1
  have hA : ∀ q ∈ A.map bare, 0 ≤ (straightOps W.space).len q := fun q hq => hlen q (by rw [e1]; exact List.mem_append_left _ hq)
  have hB : ∀ q ∈ B.map bare, 0 ≤ (straightOps W.space).len q := fun q hq => hlen q (by rw [e1]; exact List.mem_append_right _ (List.mem_cons_of_mem _ hq))
  obtain ⟨q, hq, hqS⟩ := h (total (straightOps W.space) (A.map bare) + t) (add_nonneg (hsum _ hA) t0) (by
    show _ ≤ total (straightOps W.space) (l.map bare)
    have : total (straightOps W.space) (l.map bare) = total (straightOps W.space) (A.map bare) + ((straightOps W.space).len (bare p) + total (straightOps W.space) (B.map bare)) := by
      rw [e1]; unfold total; rw [List.map_append, List.sum_append, List.map_cons, List.sum_cons]
    rw [this]
    have := hsum _ hB
    linarith)
  rw [evalV_none _ _ rfl] at hq
  simp only at hq hch
  rw [e1, chained_at (straightOps W.space) (A.map bare) (B.map bare) (bare p) t hA (by rw [← e1]; exact hch) t0 k] at hq
  have e2 : (straightOps W.space).lo (bare p) + t = t := by show (bare p).pr.1 + t = t; rw [hp0, zero_add]
  rw [e2, eval_line W (p := bare p) p.2.1] at hq
  have := Except.ok.inj hq
  rw [← this] at hqS
  exact hqS

/-- One optimizer. -/
theorem apply_stays (hW : W.Ok) {S : Set C} (hS : Segments W S) (hself : ∀ q, W.metric q q = 0) (o : Opt W) (ho : o.Ok) {a b : C} {v w : Vec K C (Line K C)}
    (h : SafeVec W hW a b v) (hin : InSet (evalV (straightOps W.space) v) v.tr.2 S) (hw : o.apply W hW v = some w) : InSet (evalV (straightOps W.space) w) w.tr.2 S := by
  have h' := safeVec_safe hW (apply_safe hW hself o ho h hw)
  obtain ⟨p1, p2, p3, p4, p5⟩ := safeVec_parts hW h
  obtain ⟨-, r2, -⟩ := safeVec_parts hW (apply_safe hW hself o ho h hw)
  cases o with
  | random eps n shoot stop fuel =>
    simp only [Opt.apply] at hw
    split at hw
    · next w' hr =>
      obtain rfl := Option.some.inj hw
      obtain ⟨-, -, -, -, -, -, -, -, k6⟩ := Optim.C42_random (optContract W hW) ho.1 shoot ho.2 stop fuel v w' p1 p3 p4 p5 hr
      have k := k6 (· ∈ S) (by
        intro x y p hx hy hp _ u u0 u1 q hq
        obtain rfl := Option.some.inj hp
        have e : (straightOps W.space).eval (line W hW x y).1.1 (0 + u) = .ok q := hq
        rw [zero_add, eval_built (line W hW x y).2.1] at e
        obtain rfl := Except.ok.inj e
        refine stays_of hS (line W hW x y) hx hy u u0 ?_
        have : u ≤ (line W hW x y).1.1.pr.2 - 0 := u1
        rw [sub_zero] at this; exact this) (by
        intro s s0 s1 q hq
        rw [p2] at s0
        obtain ⟨q', e, hq'⟩ := hin s s0 s1
        have e' := Except.ok.inj (hq.symm.trans e)
        rw [e']; exact hq')
      intro t t0 t1
      obtain ⟨q, hq⟩ := h'.total t t0 t1
      exact ⟨q, hq, k t (by rw [r2]; exact t0) t1 q hq⟩
    · exact absurd hw (by simp)
  | simple heur =>
    obtain ⟨l, hne, rfl, hc⟩ := h
    have hbit : ∀ p ∈ l, p.1.2 = false := fun p hp => (connects_all hW hc p hp).2
    have hst := stays_vector hW hc hin
    obtain ⟨p, ps, rfl⟩ := List.exists_cons_of_ne_nil hne
    have hpaths : (pathVector (p :: ps)).paths = (p :: ps).map bare := by rw [pathVector_eq]
    simp only [Opt.apply, hpaths, pieces_eq _ hbit] at hw
    rw [List.map_cons, List.head?_cons] at hw
    simp only at hw
    split at hw
    · next l' hl' =>
      obtain rfl := Option.some.inj hw
      exact vector_stays l' (Optim.Simple.simpleShortcut_in (closed W hW hS) heur ((closed W hW hS).ini p (hst p (by simp))) hst hl')
    · exact absurd hw (by simp)

/-- C141: optimizers.  Any sequence of shortcut optimizers keeps a path without collision whose configurations are in the set within the set. -/
theorem C141_optimize (hW : W.Ok) {S : Set C} (hS : Segments W S) (hself : ∀ q, W.metric q q = 0) (os : List (Opt W)) (hos : ∀ o ∈ os, o.Ok) {a b : C}
    {v w : Vec K C (Line K C)} (h : SafeVec W hW a b v) (hin : InSet (evalV (straightOps W.space) v) v.tr.2 S) (hw : optimizeAll W hW os v = some w) :
    InSet (evalV (straightOps W.space) w) w.tr.2 S := by
  induction os generalizing v with
  | nil => obtain rfl := Option.some.inj hw; exact hin
  | cons o os ih =>
    unfold optimizeAll at hw
    split at hw
    · exact absurd hw (by simp)
    · next v' hv =>
      have ho := hos o (by simp)
      exact ih (fun x hx => hos x (by simp [hx])) (apply_safe hW hself o ho h hv) (apply_stays hW hS hself o ho h hin hv) hw

end planners

/-! ## Trajectories -/

open Verif.Joints Verif.TimeParam

/-- C141: trajectories.  The time parameterization of a path without collision whose configurations are in the set stays in the set. -/
theorem C141_trajectory {C ι : Type} [Fintype ι] {n : Nat} (W : World ℝ C ι) (hW : W.Ok) {dof : C → C → Fin n → ℝ} (hd : DofOk W dof) (c : Cfg n) {S : Set C} {a b : C} {v : Vec ℝ C (Line ℝ C)}
    (h : SafeVec W hW a b v) (hin : InSet (evalV (straightOps W.space) v) v.tr.2 S) {w : Vec ℝ C (Timed C)} (hw : timeParam W dof c v = .ok (some w)) :
    InSet (evalV (timedOps W) w) w.tr.2 S := by
  obtain ⟨hs, ⟨σ, M, s1, -, s3, s4, s5⟩, -⟩ := C140_trajectory W hW hd c h hw
  intro t t0 t1
  have m0 : (0 : ℝ) ∈ Set.Icc 0 w.tr.2 := ⟨le_rfl, hs.len⟩
  have m1 : w.tr.2 ∈ Set.Icc 0 w.tr.2 := ⟨hs.len, le_rfl⟩
  have mt : t ∈ Set.Icc 0 w.tr.2 := ⟨t0, t1⟩
  rw [s5 t mt]
  exact hin (σ t) (by rw [← s3]; exact s1 m0 mt t0) (by rw [← s4]; exact s1 mt m1 t1)

/-- C141 (partial): the planner, then the optimizers, then the time parameterization: a trajectory without collision, within the bounds.  Partial: no piece of the path given by the planner comes
from the reversal of half a turn (for the absence of collision); BiRRT* draws in the set near the best path. -/
theorem C141_solve_partial {C ι : Type} [Fintype ι] [DecidableEq C] {n : Nat} {W : World ℝ C ι} (hW : W.Ok) (hself : ∀ q, W.metric q q = 0) {dof : C → C → Fin n → ℝ} (hd : DofOk W dof) (c : Cfg n)
    {S : Set C} (hS : Segments W S) (q0 : C) (gs : List C) (l : List (SP W)) (h0 : W.Free q0) (hq : q0 ∈ S) (hg : ∀ g ∈ gs, g ∈ S) (h : Returned W hW q0 l gs) (h' : ReturnedFrom W hW S q0 l gs)
    (hb : ∀ p ∈ l, p.1.2 = false) (os : List (Opt W)) (hos : ∀ o ∈ os, o.Ok) (v : Vec ℝ C (Line ℝ C))
    (hv : optimizeAll W hW os (pathVector l) = some v) (w : Vec ℝ C (Timed C)) (hw : timeParam W dof c v = .ok (some w)) :
    ∃ g ∈ gs, Safe W (evalV (timedOps W) w) w.tr.2 q0 g ∧ InSet (evalV (timedOps W) w) w.tr.2 S := by
  have hin := C141_planners hW hS hq hg h'
  have key : ∀ g, SafeVec W hW q0 g (pathVector l) → Safe W (evalV (timedOps W) w) w.tr.2 q0 g ∧ InSet (evalV (timedOps W) w) w.tr.2 S := fun g hs =>
    ⟨(C140_trajectory W hW hd c (optimize_safe hW hself os hos hs hv) hw).1,
      C141_trajectory W hW hd c (optimize_safe hW hself os hos hs hv) (C141_optimize hW hS hself os hos hs hin hv) hw⟩
  rcases returned_solves hW q0 gs l h with ⟨g, hg, hne, hc⟩ | ⟨hq, p, hp, rfl⟩
  · exact ⟨g, hg, key g (safeVec_of_connects hW hne h0 hb hc)⟩
  · obtain rfl := Option.some.inj hp
    exact ⟨q0, hq, key q0 (safeVec_of_connects hW (by simp) h0 hb (connects_refl W hW q0 h0))⟩

/-! ## Robots -/

/-- C141: a set given for each joint by a set closed by interpolation is closed by interpolation. -/
theorem segments_robot {ι : Type} [Fintype ι] {J : ι → Joint} {N : (i : ι) → Normed (J i)} (metric : Config J → Config J → ℝ) (pairs : List (BodyPair ℝ (Config J) ι)) (mode : Mode) (step : ℝ)
    (bounds : Option (Config J → Bool)) (vmax : ι → ℝ) (S : (i : ι) → Set (J i).G)
    (hS : ∀ i, ∀ a ∈ S i, ∀ b ∈ S i, ∀ u : ℝ, 0 ≤ u → u ≤ 1 → a * (J i).exp (u • (J i).log (a⁻¹ * b)) ∈ S i) :
    Segments (world J N metric pairs mode step bounds vmax) {q | ∀ i, q i ∈ S i} :=
  fun a ha b hb u u0 u1 i => hS i (a i) (ha i) (b i) (hb i) u u0 u1

/-- Bounds of a translation, or of a rotation with bounds. -/
def between (lo up : ℝ) : Set Joints.line.G := {q | lo ≤ Multiplicative.toAdd (show Multiplicative ℝ from q) ∧ Multiplicative.toAdd (show Multiplicative ℝ from q) ≤ up}

theorem between_segments (lo up : ℝ) : ∀ a ∈ between lo up, ∀ b ∈ between lo up, ∀ u : ℝ, 0 ≤ u → u ≤ 1 → a * Joints.line.exp (u • Joints.line.log (a⁻¹ * b)) ∈ between lo up := by
  intro a ha b hb u u0 u1
  have e : Multiplicative.toAdd (show Multiplicative ℝ from a * Joints.line.exp (u • Joints.line.log (a⁻¹ * b))) =
      (1 - u) * Multiplicative.toAdd (show Multiplicative ℝ from a) + u * Multiplicative.toAdd (show Multiplicative ℝ from b) := by
    show (Multiplicative.toAdd (show Multiplicative ℝ from a) + u * (-Multiplicative.toAdd (show Multiplicative ℝ from a) + Multiplicative.toAdd (show Multiplicative ℝ from b)) : ℝ) = _
    ring
  obtain ⟨a1, a2⟩ := ha
  obtain ⟨b1, b2⟩ := hb
  refine ⟨?_, ?_⟩ <;> rw [e] <;> nlinarith

namespace Arms

/-- The base in front of the wall, any angle of the arms. -/
def zone : (i : Fin 3) → Set (mixed i).G
  | 0 => between 0 20
  | 1 => Set.univ
  | 2 => Set.univ

theorem zone_segments (m : Mode) : Segments (problem m) {q : Q | ∀ i, q i ∈ zone i} :=
  segments_robot _ _ _ _ _ _ zone fun i => by
    match i with
    | 0 => exact between_segments 0 20
    | 1 => exact fun _ _ _ _ _ _ _ => trivial
    | 2 => exact fun _ _ _ _ _ _ _ => trivial

theorem zone_iff (q : Q) : (∀ i, q i ∈ zone i) ↔ 0 ≤ base q ∧ base q ≤ 20 :=
  ⟨fun h => h 0, fun h i => by
    match i with
    | 0 => exact h
    | 1 => trivial
    | 2 => trivial⟩

/-- `C141_optimize` and `C141_trajectory` apply to this robot: whatever the optimizers, a straight path in the zone becomes a trajectory in the zone. -/
example [DecidableEq Q] (m : Mode) (q : Q) (h0 : 0 < base q) (h1 : base q ≤ 20) (os : List (Opt (problem m))) (hos : ∀ o ∈ os, o.Ok) (v : Vec ℝ Q (Line ℝ Q))
    (hv : optimizeAll (problem m) (ok m) os (pathVector [line (problem m) (ok m) origin q]) = some v) (w : Vec ℝ Q (Timed Q))
    (hw : timeParam (problem m) (component (J := mixed) jointOf coord) cfg v = .ok (some w)) : InSet (evalV (timedOps (problem m)) w) w.tr.2 {q | 0 ≤ base q ∧ base q ≤ 20} := by
  have hS : Segments (problem m) {q | 0 ≤ base q ∧ base q ≤ 20} := by
    have := zone_segments m
    simp only [zone_iff] at this
    exact this
  have hs := ahead m q h0.le h1
  have hin : InSet (evalV (straightOps (problem m).space) (pathVector [line (problem m) (ok m) origin q])) (pathVector [line (problem m) (ok m) origin q]).tr.2 {q | 0 ≤ base q ∧ base q ≤ 20} :=
    vector_stays _ ⟨by simp, fun p hp => by
      rw [List.mem_singleton.1 hp]
      exact stays_of hS _ ⟨base_origin.ge, by rw [show (line (problem m) (ok m) origin q).1.1.q0 = origin from rfl, base_origin]; norm_num⟩ ⟨h0.le, h1⟩⟩
  exact C141_trajectory (problem m) (ok m) (dofOk _ _ _ _ _ _ jointOf coord) cfg (optimize_safe (ok m) (metric_self m) os hos hs hv) (C141_optimize (ok m) hS (metric_self m) os hos hs hin hv) hw

end Arms
end Verif.Turns
