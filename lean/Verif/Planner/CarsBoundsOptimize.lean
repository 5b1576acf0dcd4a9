import Verif.Planner.CarsBounds
import Verif.Planner.CarsSampledOptimize
import Verif.Planner.TurnsBounds
set_option linter.unusedSectionVars false

/-!
# Joint bounds along the optimized paths of cars (C166)

The shortcut optimizers of C164 keep the joints other than the position of the car within their bounds.

Simplifications: those of `Planner/CarsSampledOptimize.lean`.
-/

namespace Verif.Planner.CarsSampled
open Verif.Car Verif.PathV Verif.Planner Verif.Roadmap Verif.Planner.Cars
open Classical

variable {ι : Type} [Fintype ι] {B : Bench ι}

/-- The other joints are within the bounds along all the arcs. -/
def KeptV (S : Set (ι → ℝ)) (v : Whole ι) : Prop := ∀ u ∈ v.paths, ∀ K ∈ u.paths, ∀ t, K.t0 ≤ t → t ≤ K.t1 → (K.eval t).o ∈ S

/-- A world where the bounds are an obstacle. -/
noncomputable def bounded (B : Bench ι) (S : Set (ι → ℝ)) : World ι := { B.X with pairs := [⟨[⟨fun q => if q.o ∈ S then 0 else -1, fun _ => none⟩], ⟨false, 0, 0, fun _ => 0⟩, none, 0⟩] }

theorem bounded_free {S : Set (ι → ℝ)} (q : Cfg (ι → ℝ) Unit) : CarFree (bounded B S).pairs q ↔ q.o ∈ S := by
  unfold CarFree bounded
  by_cases h : q.o ∈ S
  · simp [h]
  · simp [h]

theorem kept_whole {S : Set (ι → ℝ)} {a b : Conf ι} {w : Whole ι} {d : Bool} (hcons : w.cons = none) (hne : w.paths ≠ []) (hwf : WF (vecOps ccOps) (Fits B d) w) (hch : Chained (vecOps ccOps) w.paths)
    (h0 : evalV (vecOps ccOps) w w.tr.1 = .ok a.1) (h1 : evalV (vecOps ccOps) w w.tr.2 = .ok b.1)
    (hf : ∀ s, w.tr.1 ≤ s → s ≤ w.tr.2 → ∀ q, evalV (vecOps ccOps) w s = .ok q → q.o ∈ S) : KeptV S w := by
  obtain ⟨l, -, rfl, k3⟩ := Cars.safeVec_of (X := bounded B S) hcons hne ⟨hwf.1, fun v hv => ⟨(hwf.2 v hv).1.1, (hwf.2 v hv).1.2.ne, (hwf.2 v hv).1.2.arc, (hwf.2 v hv).1.2.link⟩⟩ hch h0 h1
    (fun s s0 s1 q hq => (bounded_free q).2 (hf s s0 s1 q hq))
  have each : ∀ (l : List (Cars.SP (bounded B S))) (a : Conf ι), Connects (Cars.env (bounded B S)) (Cars.Valid (bounded B S)) a l b → ∀ p ∈ l, Cars.Valid (bounded B S) p := by
    intro l
    induction l with
    | nil => intro a _; simp
    | cons p l ih =>
      intro a h x hx
      rcases List.mem_cons.1 hx with rfl | hx
      · exact h.1
      · exact ih _ h.2.2 x hx
  intro u hu K hK t t0 t1
  rw [Cars.pathVector_eq] at hu
  obtain ⟨p, hp, rfl⟩ := List.mem_map.1 hu
  rw [paths_vec] at hK
  exact (bounded_free _).1 (each l a k3 p hp K hK t t0 t1)

theorem keptV_pathVector {S : Set (ι → ℝ)} (l : List (SP B)) : KeptV S (pathVector l) ↔ ∀ p ∈ l, Keeps S p := by
  unfold KeptV Keeps
  rw [pathVector_paths]
  simp only [List.mem_map, forall_exists_index, and_imp, forall_apply_eq_imp_iff₂, paths_vec]

theorem apply_kept {S : Set (ι → ℝ)} (hS : Convex ℝ S) (hB : B.Ok) (o : Opt B) (ho : o.Ok) {d : Bool} {a b : Conf ι} {v w : Whole ι}
    (h : SafeVec B d a b v) (hv : KeptV S v) (hw : o.apply B v = some w) : KeptV S w := by
  obtain ⟨l, hne, rfl, hc⟩ := h
  have hk := (keptV_pathVector l).1 hv
  have hne' : l.map hi ≠ [] := fun e => hne (List.map_eq_nil_iff.1 e)
  have hs := Cars.safe_of_connects (l.map hi) a b hne' (connects_hi l hc)
  obtain ⟨p1, p2, p4, p5⟩ := Cars.whole_parts (l.map hi) (connects_hi l hc)
  rw [pathVector_hi] at hs p1 p2 p4 p5
  have hpaths := pathVector_paths l
  have p3 : (pathVector l).paths ≠ [] := by rw [hpaths]; exact fun e => hne (List.map_eq_nil_iff.1 e)
  cases o with
  | random eps n shoot stop fuel =>
    simp only [Opt.apply] at hw
    split at hw
    · next w' hr =>
      obtain rfl := Option.some.inj hw
      have hwf : WF (vecOps ccOps) (Fits B d) (pathVector l) := ⟨p4.1, fun v hv => by
        rw [hpaths] at hv
        obtain ⟨p, hp, rfl⟩ := List.mem_map.1 hv
        exact fits_vec p (connects_each hc p hp).2⟩
      obtain ⟨k0, k1, k2, k3, k4, k5, -, -, k6⟩ := Optim.C42_random (optContract hB d) ho.1 shoot ho.2 stop fuel (pathVector l) w' p1 p3 hwf p5 hr
      refine kept_whole (a := a) (b := b) (B := B) (d := d) k0 k2 k1 k3 (k4.trans ?_) (k5.trans hs.fin) (k6 (fun q => q.o ∈ S) ?_ ?_)
      · rw [p2]; exact hs.ini
      · intro x y v hx hy hst _ u u0 u1 q hq
        simp only [optEnv] at hst
        split at hst
        · next hu =>
          obtain ⟨p, hp, rfl⟩ := Option.map_eq_some_iff.1 hst
          have hkp := C166_steer_partial hS hB (a := ⟨x, hu.1⟩) (b := ⟨y, hu.2⟩) hx hy hp
          have u1 : u ≤ (vecOps ccOps).len (vec p.1) := u1
          have hq : evalV ccOps (vec p.1) ((vec p.1).tr.1 + u) = .ok q := hq
          have u1 := u1.trans (vlen (low p)).le
          rw [tr_vec, zero_add] at hq
          exact (keeps_iff p).1 hkp u u0 u1 q hq
        · simp at hst
      · intro s s0 s1 q hq
        rw [p2] at s0
        obtain ⟨K, hK, u, u0, u1, e, -⟩ := hs.free s s0 s1
        obtain rfl := Except.ok.inj (e.symm.trans hq)
        obtain ⟨x, hx, hKx⟩ := List.mem_flatMap.1 hK
        obtain ⟨p, hp, rfl⟩ := List.mem_map.1 hx
        exact hk p hp K hKx u u0 u1
    · exact absurd hw (by simp)
  | simple heur =>
    simp only [Opt.apply, hpaths, pieces_eq] at hw
    obtain ⟨p, ps, rfl⟩ := List.exists_cons_of_ne_nil hne
    simp only at hw
    split at hw
    · next l' e1 =>
      obtain rfl := Option.some.inj hw
      rw [keptV_pathVector]
      exact (Optim.Simple.simpleShortcut_in (closed hS hB) heur ((closed hS hB).ini p (hk p (by simp))) hk e1).2
    · exact absurd hw (by simp)

theorem optimize_kept {S : Set (ι → ℝ)} (hS : Convex ℝ S) (hB : B.Ok) (hsep : Separates (env B).toEnv) (os : List (Opt B)) (hos : ∀ o ∈ os, o.Ok) {d : Bool} {a b : Conf ι} (hab : a ≠ b) {v w : Whole ι}
    (h : SafeVec B d a b v) (hv : KeptV S v) (hw : optimizeAll B os v = some w) : KeptV S w := by
  induction os generalizing v with
  | nil => obtain rfl := Option.some.inj hw; exact hv
  | cons o os ih =>
    unfold optimizeAll at hw
    split at hw
    · exact absurd hw (by simp)
    · next v' hv' =>
      have ho := hos o (by simp)
      exact ih (fun x hx => hos x (by simp [hx])) (apply_safe hB hsep o ho hab h hv') (apply_kept hS hB o ho h hv hv') hw

/-- C166: any sequence of RandomShortcut and SimpleShortcut keeps the other joints within their bounds. -/
theorem C166_optimize_partial {S : Set (ι → ℝ)} (hS : Convex ℝ S) (hB : B.Ok) (hsep : Separates (env B).toEnv) (os : List (Opt B)) (hos : ∀ o ∈ os, o.Ok) (d : Bool) {a b : Conf ι} (hab : a ≠ b)
    {l : List (SP B)} (hne : l ≠ []) (h : Connects (env B) (Keep B d) a l b) (hk : ∀ p ∈ l, Keeps S p) {w : Whole ι} (hw : optimizeAll B os (pathVector l) = some w) :
    InBounds S (evalV (vecOps ccOps) w) w.tr.2 := by
  have k1 := (C164_optimize_partial hB hsep os hos d hab hne h hw).1
  have k2 := optimize_kept hS hB hsep os hos hab ⟨l, hne, rfl, h⟩ ((keptV_pathVector l).2 hk) hw
  intro t t0 t1
  obtain ⟨K, hK, u, u0, u1, e, -⟩ := k1.free t t0 t1
  obtain ⟨x, hx, hKx⟩ := List.mem_flatMap.1 hK
  exact ⟨_, e, k2 x hx K hKx u u0 u1⟩

/-- C166, BiRRT and then any optimizers: the path is safe, driven in one direction, with the other joints within their bounds. -/
theorem C166_resolution_partial {S : Set (ι → ℝ)} (hS : Convex ℝ S) (hB : B.Ok) (hsep : Separates (env B).toEnv) (heur : Roadmap (Conf ι) (SP B) → Nat → ℝ) (q0 : Conf ι) (gs : List (Conf ι)) (hq : q0 ∉ gs)
    (shoot : Nat → Conf ι) (st : Settings ℝ) (late intr : Nat → Bool) (fuel : Nat) (x : BState) (l : List (SP B)) (h0 : B.Free q0.1) (m0 : q0.1.o ∈ S) (mg : ∀ g ∈ gs, g.1.o ∈ S)
    (ms : ∀ n, (shoot n).1.o ∈ S) (hl : solve (birrt (env B) heur q0 gs shoot) st late intr fuel (x, Roadmap.empty) = .path l) (os : List (Opt B)) (hos : ∀ o ∈ os, o.Ok) {w : Whole ι}
    (hw : optimizeAll B os (pathVector l) = some w) :
    (∃ g ∈ gs, Safe B (evalV (vecOps ccOps) w) w.tr.2 (w.paths.flatMap fun v => v.paths) q0 g) ∧ InBounds S (evalV (vecOps ccOps) w) w.tr.2 ∧
      ∀ K ∈ w.paths.flatMap fun v => v.paths, if B.X.back then K.curveLength ≤ 0 else 0 ≤ K.curveLength := by
  obtain ⟨h1, -⟩ := OneWay.C158_birrt_partial (follows hB) (contract hB) (pointContract hB) (fun _ _ => rfl) heur q0 gs shoot (s := (x, Roadmap.empty))
    ⟨Inv.empty, by simp [Roadmap.empty]⟩ (by simp [OneWay.Edges, Roadmap.empty]) st late intr fuel l hl
  obtain ⟨g, hg, hne, hc⟩ := solves_keep (d := true) hB (fun p hp => ⟨hp.1, fun _ => hp.2⟩) h0 h1
  have hab : q0 ≠ g := fun e => hq (by rw [e]; exact hg)
  obtain ⟨k1, k2⟩ := C164_optimize_partial hB hsep os hos true hab hne hc hw
  exact ⟨⟨g, hg, k1⟩, C166_optimize_partial hS hB hsep os hos true hab hne hc
    ((C130_birrt (closed hS hB) heur q0 gs shoot m0 mg ms (x, Roadmap.empty) Within.empty).2 st late intr fuel l hl).2 hw, k2 rfl⟩

/-! ## The joint of the car in a corridor -/
namespace Demo

theorem plain_separates : Separates (env plain).toEnv := by
  intro p q h
  have h : |p.1.x - q.1.x| + |p.1.y - q.1.y| + |p.1.c - q.1.c| + |p.1.s - q.1.s| + |p.1.o 0 - q.1.o 0| ≤
    |q.1.x - q.1.x| + |q.1.y - q.1.y| + |q.1.c - q.1.c| + |q.1.s - q.1.s| + |q.1.o 0 - q.1.o 0| := h
  simp only [sub_self, abs_zero, add_zero] at h
  have h1 := abs_nonneg (p.1.x - q.1.x)
  have h2 := abs_nonneg (p.1.y - q.1.y)
  have h3 := abs_nonneg (p.1.c - q.1.c)
  have h4 := abs_nonneg (p.1.s - q.1.s)
  have h5 := abs_nonneg (p.1.o 0 - q.1.o 0)
  have e1 : p.1.x - q.1.x = 0 := abs_eq_zero.1 (by linarith)
  have e2 : p.1.y - q.1.y = 0 := abs_eq_zero.1 (by linarith)
  have e3 : p.1.c - q.1.c = 0 := abs_eq_zero.1 (by linarith)
  have e4 : p.1.s - q.1.s = 0 := abs_eq_zero.1 (by linarith)
  have e5 : p.1.o 0 - q.1.o 0 = 0 := abs_eq_zero.1 (by linarith)
  obtain ⟨⟨px, py, pc, ps, po, pw⟩, hp⟩ := p
  obtain ⟨⟨qx, qy, qc, qs, qo, qw⟩, hq⟩ := q
  simp only at e1 e2 e3 e4 e5
  refine Subtype.ext ?_
  simp only [Cfg.mk.injEq]
  refine ⟨by linarith, by linarith, by linarith, by linarith, ?_, trivial⟩
  funext j
  obtain rfl : j = 0 := Subsingleton.elim _ _
  linarith

/-- The path of the planner, then SimpleShortcut: the hypotheses of `C166_resolution_partial` hold, with a result. -/
example (heur heur' : Roadmap (Conf (Fin 1)) (SP plain) → Nat → ℝ) (x : BState) (st : Settings ℝ) (late : Nat → Bool)
    (fuel : Nat) : ∃ l w, solve (birrt (env plain) heur there [back] (fun _ => there)) st late (fun _ => false) fuel (x, Roadmap.empty) = .path l ∧
      optimizeAll plain [.simple heur'] (pathVector l) = some w ∧ InBounds {o | 0 ≤ o 0 ∧ o 0 ≤ 1} (evalV (vecOps ccOps) w) w.tr.2 := by
  obtain ⟨p, -, h, -⟩ := C163_car plain_ok heur there back (fun _ => there) apart (by simp [plain]) x st late (fun _ => false) rfl fuel
  have hfree : plain.Free there.1 := by intro c hc; simp [plain] at hc
  have hq : there ∉ [back] := by
    intro e
    exact apart (by rw [List.mem_singleton.1 e])
  obtain ⟨h1, -⟩ := OneWay.C158_birrt_partial (follows plain_ok) (contract plain_ok) (pointContract plain_ok) (fun _ _ => rfl) heur there [back] (fun _ => there) (s := (x, Roadmap.empty))
    ⟨Inv.empty, by simp [Roadmap.empty]⟩ (by simp [OneWay.Edges, Roadmap.empty]) st late (fun _ => false) fuel _ h
  obtain ⟨g, hg, hne, hc⟩ := solves_keep (d := true) plain_ok (fun p hp => ⟨hp.1, fun _ => hp.2⟩) hfree h1
  obtain ⟨w, hw⟩ := C164_simple_ends plain_ok plain_separates heur' true (fun e => hq (by rw [e]; exact hg)) hne hc
  have hw' : optimizeAll plain [.simple heur'] (pathVector [p]) = some w := by simp only [optimizeAll, hw]
  refine ⟨_, w, h, hw', (C166_resolution_partial ?_ plain_ok plain_separates heur there [back] hq (fun _ => there) st late (fun _ => false) fuel x _ hfree ?_ ?_ ?_ h [.simple heur']
    (by simp [Opt.Ok]) hw').2.1⟩
  · intro a ha b hb u v hu hv huv
    simp only [Set.mem_ofPred_eq, Pi.add_apply, Pi.smul_apply, smul_eq_mul] at *
    constructor <;> nlinarith
  · simp [there]
  · simp [back]
  · simp [there]

end Demo

end Verif.Planner.CarsSampled
