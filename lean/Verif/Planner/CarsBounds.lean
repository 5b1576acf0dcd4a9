import Verif.Planner.CarsSampled
import Verif.Planner.Closed
import Verif.Planner.Direct
set_option linter.unusedSectionVars false

/-!
# Joint bounds along the paths of cars (C166)

The planners for cars of `Planner/CarsSampled.lean`, with the configuration space as it is given: the joint bounds are met at the initial configuration, at the goals and at the configurations that are
shot.  Bounds are a convex set: the boxes of the joints, but any other one also.

Simplifications: those of `Planner/CarsSampled.lean`, except the one about the validation of joint bounds in the last part.
-/
namespace Verif.Planner.CarsSampled
open Verif.Car Verif.PathV Verif.Planner Verif.Roadmap Verif.Planner.Cars
open Classical

variable {ι : Type} [Fintype ι] {B : Bench ι}

/-! ## Specification -/

/-- The other joints are within the bounds all along the path. -/
def Keeps (S : Set (ι → ℝ)) (p : SP B) : Prop := ∀ K ∈ p.1, ∀ t, K.t0 ≤ t → t ≤ K.t1 → (K.eval t).o ∈ S

theorem keeps_iff {S : Set (ι → ℝ)} (p : SP B) : Keeps S p ↔ ∀ t, 0 ≤ t → t ≤ total ccOps p.1 → ∀ q, evalV ccOps (vec p.1) t = .ok q → q.o ∈ S := by
  constructor
  · intro h t t0 t1 q hq
    obtain ⟨K, hK, u, u0, u1, e⟩ := vval p t0 t1
    obtain rfl := Except.ok.inj (e.symm.trans hq)
    exact h K hK u u0 u1
  · intro h K hK u u0 u1
    obtain ⟨t, t0, t1, e⟩ := arc_value (low p) hK u0 u1
    exact h t t0 t1 _ e

theorem part_keeps {S : Set (ι → ℝ)} {p p' : SP B} {a b : ℝ} (h0 : 0 ≤ a) (hab : a ≤ b) (hb : b ≤ total ccOps p.1) (h : extractV ccOps (vec p.1) a b = .ok (vec p'.1)) (hp : Keeps S p) :
    Keeps S p' := by
  obtain ⟨k1, k2, -⟩ := part_of h0 hab hb h
  rw [keeps_iff]
  intro t t0 t1 q hq
  rw [k1] at t1
  rw [k2 t t0 t1] at hq
  exact (keeps_iff p).1 hp (a + t) (by linarith) (by linarith) q hq

/-! ## Steering -/

theorem lerp_mem {S : Set (ι → ℝ)} (hS : Convex ℝ S) {a b : ι → ℝ} (ha : a ∈ S) (hb : b ∈ S) {u : ℝ} (u0 : 0 ≤ u) (u1 : u ≤ 1) : lerp a b u ∈ S := by
  have : lerp a b u = (1 - u) • a + u • b := by unfold lerp; module
  rw [this]
  exact hS ha hb (sub_nonneg.2 u1) u0 (by ring)

theorem ratio_range {K : CC (ι → ℝ) Unit} (h : K.t0 ≤ K.t1) {t : ℝ} (t0 : K.t0 ≤ t) (t1 : t ≤ K.t1) : 0 ≤ K.ratio t ∧ K.ratio t ≤ 1 := by
  unfold CC.ratio
  split
  · simp
  · next hne =>
    have hp : 0 < K.t1 - K.t0 := lt_of_le_of_ne (sub_nonneg.2 h) (Ne.symm hne)
    exact ⟨div_nonneg (by linarith) hp.le, (div_le_one hp).2 (by linarith)⟩

/-- The ends of the arcs of the paths of Dubins are within the bounds. -/
theorem dubins_ends {S : Set (ι → ℝ)} (hS : Convex ℝ S) {rho extra : ℝ} (hr : 0 < rho) {q0 q1 : Cfg (ι → ℝ) Unit} (h0 : q0.Unit) (h1 : q1.Unit)
    {interp : Cfg (ι → ℝ) Unit → Cfg (ι → ℝ) Unit → ℝ → Cfg (ι → ℝ) Unit} (hi : ∀ a b u, (interp a b u).o = lerp a.o b.o u) (m0 : q0.o ∈ S) (m1 : q1.o ∈ S) {l : Arcs ι}
    (h : dubinsPath interp (fun _ => ()) rho extra q0 q1 = .ok l) : ∀ K ∈ l, K.init.o ∈ S ∧ K.fin.o ∈ S := by
  obtain ⟨w, T, ⟨ht, hp, hq⟩, -, -, hpath⟩ := dubins_best hr h0 h1 interp (fun _ => ()) extra
  rw [h] at hpath
  split at hpath
  · simp at hpath
  next hL =>
  have hL : w.cost ≠ 0 := hL
  have hLp : 0 < w.cost := lt_of_le_of_ne (by unfold Lens.cost; linarith) (Ne.symm hL)
  have hc : w.cost = w.t + w.p + w.q := rfl
  have piece : ∀ (a b : Cfg (ι → ℝ) Unit) (x k : ℝ), a.o ∈ S → b.o ∈ S → 
      (CC.create a b (rho * x) (rho * x + x / w.cost * extra) k ()).init.o ∈ S ∧ (CC.create a b (rho * x) (rho * x + x / w.cost * extra) k ()).fin.o ∈ S := by
    intro a b x k ma mb
    obtain ⟨-, -, -, -, -, hA, hB⟩ := C85_create a b (rho * x) (rho * x + x / w.cost * extra) k ()
    refine ⟨ma, ?_⟩
    by_cases hz : rho * x + x / w.cost * extra = 0
    · rw [(hB hz).2]; exact ma
    · rw [(hA hz).2]; exact mb
  obtain rfl := Except.ok.inj hpath
  have mid : ∀ u, 0 ≤ u → u ≤ 1 → (interp q0 q1 u).o ∈ S := fun u u0 u1 => by rw [hi]; exact lerp_mem hS m0 m1 u0 u1
  have a1 := piece q0 (interp q0 q1 (w.t / w.cost)) w.t (T.1.curv / rho) m0 (mid _ (by positivity) ((div_le_one hLp).2 (by linarith)))
  have a2 := piece _ (interp q0 q1 ((w.t + w.p) / w.cost)) w.p (T.2.1.curv / rho) a1.2 (mid _ (by positivity) ((div_le_one hLp).2 (by linarith)))
  have a3 := piece _ q1 w.q (T.2.2.curv / rho) a2.2 m1
  intro K hK
  simp only [List.mem_cons, List.not_mem_nil, or_false] at hK
  rcases hK with rfl | rfl | rfl
  · exact a1
  · exact a2
  · exact a3

theorem path_ends {S : Set (ι → ℝ)} (hS : Convex ℝ S) (hB : B.Ok) {a b : Conf ι} {l : Arcs ι} (ma : a.1.o ∈ S) (mb : b.1.o ∈ S) (h : path B.X a b = .ok l) :
    ∀ K ∈ l, K.init.o ∈ S ∧ K.fin.o ∈ S := by
  unfold path at h
  split at h
  · unfold snibudSteer at h
    split at h
    · simp at h
    · next l' hl' =>
      obtain rfl := Except.ok.inj h
      have := dubins_ends hS hB.world.radius b.2 a.2 hB.world.between mb ma hl'
      intro K hK
      obtain ⟨K0, hK0, rfl⟩ := List.mem_map.1 hK
      exact (this K0 (List.mem_reverse.1 hK0)).symm
  · exact dubins_ends hS hB.world.radius a.2 b.2 hB.world.between ma mb h

/-- C166: the paths of the steering method keep the other joints within the bounds. -/
theorem C166_steer_partial {S : Set (ι → ℝ)} (hS : Convex ℝ S) (hB : B.Ok) {a b : Conf ι} {p : SP B} (ma : a.1.o ∈ S) (mb : b.1.o ∈ S) (h : (env B).steer a b = some p) : Keeps S p := by
  have key : ∀ K ∈ p.1, K.init.o ∈ S ∧ K.fin.o ∈ S := by
    simp only [env] at h
    split at h
    · simp at h
    · next l hl =>
      split at h
      · obtain rfl := Option.some.inj h
        exact path_ends hS hB ma mb hl
      · simp at h
  intro K hK t t0 t1
  obtain ⟨r0, r1⟩ := ratio_range (p.2.1.arc K hK).1.le t0 t1
  exact lerp_mem hS (key K hK).1 (key K hK).2 r0 r1

/-! ## The calls of the planners -/

theorem closed {S : Set (ι → ℝ)} (hS : Convex ℝ S) (hB : B.Ok) : Closed (env B) (fun q => q.1.o ∈ S) (fun q => q.1.o ∈ S) (Keeps S) := by
  exact {
    steer a b p ha hb h := C166_steer_partial hS hB ha hb h
    extract p t h := by
      rcases extract_spec p t with e | ⟨h0, h1, e⟩
      · rw [e]; exact h
      · exact part_keeps le_rfl h0 h1 e h
    proj f p b p' h := by simp [env] at h
    valid b p h := by
      rcases check_spec hB b p with ⟨-, e, -⟩ | ⟨-, x, y, h1, h2, h3, -, h5, -⟩
      · rw [e]; exact h
      · exact part_keeps h1 h2 h3 h5 h
    rev p h K hK t t0 t1 := by
      obtain ⟨K0, hK0, rfl⟩ := List.mem_map.1 hK
      have hK0 := List.mem_reverse.1 hK0
      change 0 ≤ t at t0
      change t ≤ K0.t1 - K0.t0 at t1
      rw [reverse_eval (p.2.1.arc K0 hK0).1 t0 t1]
      exact h K0 hK0 _ (by linarith) (by linarith)
    kernel x q q' _ hq h := by
      obtain rfl := Option.some.inj h
      exact hq
    ini p h := (keeps_iff p).1 h 0 le_rfl (tnn p) _ (vec_ends (low p)).1
    fin p h := (keeps_iff p).1 h _ (tnn p) le_rfl _ (vec_ends (low p)).2 }

/-- Specification: the other joints are within the bounds at each parameter of the path. -/
def InBounds (S : Set (ι → ℝ)) (f : ℝ → Except PathV.Err (Cfg (ι → ℝ) Unit)) (T : ℝ) : Prop := ∀ t, 0 ≤ t → t ≤ T → ∃ q, f t = .ok q ∧ q.o ∈ S

theorem bounds_of {S : Set (ι → ℝ)} {l : List (SP B)} {q0 : Conf ι} {gs : List (Conf ι)}
    (h : ∃ g ∈ gs, Safe B (evalV (vecOps ccOps) (pathVector l)) (pathVector l).tr.2 (l.flatMap fun p => p.1) q0 g) (hk : ∀ p ∈ l, Keeps S p) :
    InBounds S (evalV (vecOps ccOps) (pathVector l)) (pathVector l).tr.2 := by
  obtain ⟨g, -, s⟩ := h
  intro t t0 t1
  obtain ⟨K, hK, u, u0, u1, e, -⟩ := s.free t t0 t1
  obtain ⟨p, hp, hKp⟩ := List.mem_flatMap.1 hK
  exact ⟨_, e, hk p hp K hKp u u0 u1⟩

/-! ## C166 -/

/-- C166, BiRRT: whatever the limits and the interruptions, if the other joints are within the bounds at the initial configuration, at the goals and at the configurations that are shot, they are within
the bounds along the path that is returned. -/
theorem C166_birrt_partial {S : Set (ι → ℝ)} (hS : Convex ℝ S) (hB : B.Ok) (heur : Roadmap (Conf ι) (SP B) → Nat → ℝ) (q0 : Conf ι) (gs : List (Conf ι)) (shoot : Nat → Conf ι) (st : Settings ℝ)
    (late intr : Nat → Bool) (fuel : Nat) (x : BState) (l : List (SP B)) (h0 : B.Free q0.1) (m0 : q0.1.o ∈ S) (mg : ∀ g ∈ gs, g.1.o ∈ S) (ms : ∀ n, (shoot n).1.o ∈ S)
    (hl : solve (birrt (env B) heur q0 gs shoot) st late intr fuel (x, Roadmap.empty) = .path l) : InBounds S (evalV (vecOps ccOps) (pathVector l)) (pathVector l).tr.2 :=
  bounds_of (C162_birrt_partial hB heur q0 gs shoot st late intr fuel x l h0 hl).1
    ((C130_birrt (closed hS hB) heur q0 gs shoot m0 mg ms (x, Roadmap.empty) Within.empty).2 st late intr fuel l hl).2

/-- C166, diffusing planner. -/
theorem C166_diffusing_partial {S : Set (ι → ℝ)} (hS : Convex ℝ S) (hB : B.Ok) (D : DiffParams ℝ) (heur : Roadmap (Conf ι) (SP B) → Nat → ℝ) (q0 : Conf ι) (gs : List (Conf ι))
    (shoot : Nat → Conf ι) (st : Settings ℝ) (late intr : Nat → Bool) (fuel n : Nat) (l : List (SP B)) (h0 : B.Free q0.1) (m0 : q0.1.o ∈ S) (mg : ∀ g ∈ gs, g.1.o ∈ S)
    (ms : ∀ n, (shoot n).1.o ∈ S) (hl : solve (diffusing (env B) D heur q0 gs shoot) st late intr fuel (n, Roadmap.empty) = .path l) :
    InBounds S (evalV (vecOps ccOps) (pathVector l)) (pathVector l).tr.2 :=
  bounds_of (C162_diffusing_partial hB D heur q0 gs shoot st late intr fuel n l h0 hl)
    ((C130_diffusing (closed hS hB) D heur q0 gs shoot m0 mg ms (n, Roadmap.empty) Within.empty).2 st late intr fuel l hl).2

/-- C166, Visibility-PRM. -/
theorem C166_visibility_partial {S : Set (ι → ℝ)} (hS : Convex ℝ S) (hB : B.Ok) (heur : Roadmap (Conf ι) (SP B) → Nat → ℝ) (q0 : Conf ι) (gs : List (Conf ι)) (sample : Nat → Conf ι)
    (st : Settings ℝ) (late intr : Nat → Bool) (fuel : Nat) (x : Nat × (Nat → Bool)) (l : List (SP B)) (h0 : B.Free q0.1) (m0 : q0.1.o ∈ S) (mg : ∀ g ∈ gs, g.1.o ∈ S)
    (ms : ∀ n, (sample n).1.o ∈ S) (hl : solve (visibility (env B) heur q0 gs sample) st late intr fuel (x, Roadmap.empty) = .path l) :
    InBounds S (evalV (vecOps ccOps) (pathVector l)) (pathVector l).tr.2 :=
  bounds_of (C162_visibility_partial hB heur q0 gs sample st late intr fuel x l h0 hl)
    ((C130_visibility (closed hS hB) heur q0 gs sample m0 mg ms (x, Roadmap.empty) Within.empty).2 st late intr fuel l hl).2

/-- C166, k-PRM*. -/
theorem C166_kprm_partial {S : Set (ι → ℝ)} (hS : Convex ℝ S) {H : Type} (hB : B.Ok) (C : KEnv (Conf ι) (SP B) ℝ H) (hC : C.toPEnv = env B) (hk : 0 < C.k) (hN : 0 < C.nodes)
    (heur : Roadmap (Conf ι) (SP B) → Nat → ℝ) (q0 : Conf ι) (gs : List (Conf ι)) (st : Settings ℝ) (late intr : Nat → Bool) (fuel : Nat) (x : KState)
    (l : List (SP B)) (h0 : B.Free q0.1) (m0 : q0.1.o ∈ S) (mg : ∀ g ∈ gs, g.1.o ∈ S) (ms : ∀ n, (C.shoot n).1.o ∈ S) (mc : ∀ q q', q.1.o ∈ S → C.check q = some q' → q'.1.o ∈ S)
    (hl : solve (kprm C heur q0 gs) st late intr fuel (x, Roadmap.empty) = .path l) : InBounds S (evalV (vecOps ccOps) (pathVector l)) (pathVector l).tr.2 :=
  bounds_of (C162_kprm_partial hB C hC hk hN heur q0 gs st late intr fuel x l h0 hl)
    ((C130_kprm (J := fun q => q.1.o ∈ S) (by rw [hC]; exact closed hS hB) heur q0 gs m0 mg ms mc (x, Roadmap.empty) Within.empty).2 st late intr fuel l hl).2

/-! ## The position of the car -/

/-- A forward arc that starts along the first axis goes further along it. -/
theorem arc_forward {K : CC (ι → ℝ) Unit} (hc : K.init.c = 1) (hs : K.init.s = 0) (hl : 0 < K.curveLength) (ht : K.t0 < K.t1) :
    ∃ t, K.t0 ≤ t ∧ t ≤ K.t1 ∧ K.init.x < (K.eval t).x := by
  have hp : 0 < K.t1 - K.t0 := sub_pos.2 ht
  by_cases hk : K.curvature = 0
  · refine ⟨K.t1, ht.le, le_rfl, ?_⟩
    have : K.ratio K.t1 = 1 := by unfold CC.ratio; rw [if_neg hp.ne', div_self hp.ne']
    simp only [CC.eval, if_pos hk, this, hc]
    linarith
  · have hak : 0 < |K.curvature| := abs_pos.2 hk
    -- a length along which the car turns by less than one radian
    obtain ⟨s, s0, s1, s2⟩ : ∃ s, 0 < s ∧ s ≤ K.curveLength ∧ |K.curvature| * s ≤ 1 :=
      ⟨min K.curveLength (1 / |K.curvature|), lt_min hl (by positivity), min_le_left _ _, by
        calc |K.curvature| * min K.curveLength (1 / |K.curvature|) ≤ |K.curvature| * (1 / |K.curvature|) := mul_le_mul_of_nonneg_left (min_le_right _ _) hak.le
          _ = 1 := by field_simp⟩
    have hu0 : 0 ≤ s / K.curveLength := by positivity
    have hu1 : s / K.curveLength ≤ 1 := (div_le_one hl).2 s1
    refine ⟨K.t0 + s / K.curveLength * (K.t1 - K.t0), by nlinarith, by nlinarith, ?_⟩
    have hr : K.ratio (K.t0 + s / K.curveLength * (K.t1 - K.t0)) * K.curveLength = s := by
      unfold CC.ratio; rw [if_neg hp.ne', add_sub_cancel_left, mul_div_assoc, div_self hp.ne', mul_one, div_mul_cancel₀ _ hl.ne']
    simp only [CC.eval, if_neg hk, hr, hc, hs]
    have : 0 < 1 / K.curvature * Real.sin (K.curvature * s) := by
      rcases lt_or_gt_of_ne hk with h | h
      · rw [abs_of_neg h] at s2
        have := Real.sin_pos_of_pos_of_le_one (x := -K.curvature * s) (by nlinarith) s2
        rw [neg_mul, Real.sin_neg] at this
        exact mul_pos_of_neg_of_neg (one_div_neg.2 h) (by linarith)
      · rw [abs_of_pos h] at s2
        have := Real.sin_pos_of_pos_of_le_one (x := K.curvature * s) (by positivity) s2
        positivity
    linarith

theorem still_arc {K : CC (ι → ℝ) Unit} (hK : K.Coherent) (hl : K.curveLength = 0) : K.fin.pose = K.init.pose := by
  rw [hK.fin.1]
  simp only [CC.eval, Cfg.pose, hl]
  simp

/-- C166: the position of a car is another matter.  Whatever the configuration it has to go to, a car of Dubins that faces the first axis goes further along it: from a position at the upper bound, each
path leaves the bounds. -/
theorem C166_position (hB : B.Ok) (hf : B.X.back = false) {a b : Conf ι} (hc : a.1.c = 1) (hs : a.1.s = 0) (hne : a.1.pose ≠ b.1.pose) :
    ∃ p, (env B).steer a b = some p ∧ ∃ t, 0 ≤ t ∧ t ≤ total ccOps p.1 ∧ ∃ q, evalV ccOps (vec p.1) t = .ok q ∧ a.1.x < q.x := by
  obtain ⟨p, hp⟩ := C162_steer hB hne
  refine ⟨p, hp, ?_⟩
  obtain ⟨K1, K2, K3, e, i1, i2, i3, i4, hall, -⟩ := C87_dubins_partial hB.world.radius (hB.world.extra a.1 (extraEnd a.1 b.1)) a.2 b.2 hne hB.world.between (fun _ => ())
  have e' : path B.X a b = .ok [K1, K2, K3] := by unfold path; rw [if_neg (by simp [hf])]; exact e
  have e1 : p.1 = [K1, K2, K3] := by
    simp only [env, e'] at hp
    split at hp
    · have h := Option.some.inj hp
      rw [← h]
    · simp at hp
  have go : ∀ K ∈ p.1, K.init.pose = a.1.pose → 0 < K.curveLength → ∃ t, 0 ≤ t ∧ t ≤ total ccOps p.1 ∧ ∃ q, evalV ccOps (vec p.1) t = .ok q ∧ a.1.x < q.x := by
    intro K hK hi hl
    simp only [Cfg.pose, Prod.mk.injEq, Complex.mk.injEq] at hi
    obtain ⟨⟨x1, -⟩, c1, s1⟩ := hi
    obtain ⟨t, t0, t1, h⟩ := arc_forward (K := K) (c1.trans hc) (s1.trans hs) hl (by
      have := (p.2.2 K hK).1
      rw [abs_of_pos hl] at this
      linarith)
    obtain ⟨u, u0, u1, hu⟩ := arc_value (low p) hK t0 t1
    exact ⟨u, u0, u1, _, hu, by rw [← x1]; exact h⟩
  have h1 := hall K1 (by simp)
  have h2 := hall K2 (by simp)
  have h3 := hall K3 (by simp)
  rcases h1.2.2.1.lt_or_eq with l1 | l1
  · exact go K1 (by rw [e1]; simp) (by rw [i1]) l1
  have p1 : K2.init.pose = a.1.pose := by rw [i2, still_arc h1.1 l1.symm, i1]
  rcases h2.2.2.1.lt_or_eq with l2 | l2
  · exact go K2 (by rw [e1]; simp) p1 l2
  have p2 : K3.init.pose = a.1.pose := by rw [i3, still_arc h2.1 l2.symm, p1]
  rcases h3.2.2.1.lt_or_eq with l3 | l3
  · exact go K3 (by rw [e1]; simp) p2 l3
  · exact absurd (by rw [← p2, ← still_arc h3.1 l3.symm, i4.1]) hne

/-! ## Bounds validated along the paths -/

/-- Bounds of the position of a car. -/
structure Box where
  xlo : ℝ
  xhi : ℝ
  ylo : ℝ
  yhi : ℝ

/-- `JointBoundValidation::validate` on the position of the car: joint-bound-validation.cc:49-63.  The other joints are the matter of `C166_birrt_partial`; the bounds of the heading are met by all
headings. -/
noncomputable def Box.ok (b : Box) (q : Cfg (ι → ℝ) Unit) : Bool := !(decide (b.xhi < q.x) || decide (q.x < b.xlo)) && !(decide (b.yhi < q.y) || decide (q.y < b.ylo))

/-- One of the bounds, seen as an obstacle.  `m` is used in the specification only: the obstacle is at this distance behind the bound, as a configuration on the bound is valid. -/
noncomputable def edge (m : ℝ) (f : Cfg (ι → ℝ) Unit → ℝ) : CarPair ι Unit where
  objs := [⟨fun q => f q + m, fun q => if 0 ≤ f q then some m else none⟩]
  coef := ⟨false, 1, 0, fun _ => 0⟩
  coefR := none
  tol := 1

noncomputable def Box.edges (b : Box) (m : ℝ) : List (CarPair ι Unit) := [edge m fun q => b.xhi - q.x, edge m fun q => q.x - b.xlo, edge m fun q => b.yhi - q.y, edge m fun q => q.y - b.ylo]

/-- The path validation "DiscretizedCollisionAndJointBound": problem-solver.cc:119-127 (`fenced_okConf`). -/
noncomputable def fenced (B : Bench ι) (b : Box) (m : ℝ) : Bench ι := { B with X := { B.X with pairs := b.edges m ++ B.X.pairs } }

/-- The configuration validation of this path validation: both the bounds and the collisions. -/
theorem fenced_okConf (b : Box) (m : ℝ) (q : Cfg (ι → ℝ) Unit) : okConf (fenced B b m) q = (b.ok q && okConf B q) := by
  have e : ∀ f : Cfg (ι → ℝ) Unit → ℝ, ((edge m f).objs.all fun o => (o.collide q).isSome) = decide (0 ≤ f q) := by
    intro f
    by_cases h : 0 ≤ f q <;> simp [edge, h]
  have d : ∀ x y : ℝ, decide (0 ≤ x - y) = !decide (x < y) := by
    intro x y
    by_cases h : x < y
    · simp [h]
    · simp [h, not_lt.1 h]
  show ((b.edges m ++ B.X.pairs).all fun c => c.objs.all fun o => (o.collide q).isSome) = (b.ok q && okConf B q)
  rw [List.all_append]
  congr 1
  simp only [Box.edges, List.all_cons, List.all_nil, e, d, Box.ok, Bool.and_true, Bool.not_or, Bool.and_assoc]

/-- C166: a configuration is accepted by this validation if and only if its position is within the bounds, bounds included, and it is without collision. -/
theorem C166_validation (b : Box) (m : ℝ) (q : Cfg (ι → ℝ) Unit) : (b.ok q = true ↔ (b.xlo ≤ q.x ∧ q.x ≤ b.xhi) ∧ b.ylo ≤ q.y ∧ q.y ≤ b.yhi) ∧
    (okConf (fenced B b m) q = true ↔ ((b.xlo ≤ q.x ∧ q.x ≤ b.xhi) ∧ b.ylo ≤ q.y ∧ q.y ≤ b.yhi) ∧ ∀ c ∈ B.X.pairs, ∀ o ∈ c.objs, o.collide q ≠ none) := by
  have h1 : b.ok q = true ↔ (b.xlo ≤ q.x ∧ q.x ≤ b.xhi) ∧ b.ylo ≤ q.y ∧ q.y ≤ b.yhi := by
    simp only [Box.ok, Bool.and_eq_true, Bool.not_eq_true', Bool.or_eq_false_iff, decide_eq_false_iff_not, not_lt]
    tauto
  refine ⟨h1, ?_⟩
  rw [fenced_okConf, Bool.and_eq_true, h1]
  simp only [okConf, List.all_eq_true, Option.isSome_iff_ne_none]

theorem edge_ok {m : ℝ} (hm : 0 < m) {f : Cfg (ι → ℝ) Unit → ℝ} (hf : ∀ a b, |f a - f b| ≤ ‖a.pose.1 - b.pose.1‖) : (edge m f).Ok := by
  exact {
    tol := one_pos
    lower o ho q d hd := by
      simp only [edge, List.mem_singleton] at ho
      subst ho
      simp only at hd ⊢
      split at hd
      · next h =>
        obtain rfl := Option.some.inj hd
        exact ⟨hm, by linarith⟩
      · simp at hd
    coef o ho := by
      simp only [edge, List.mem_singleton] at ho
      subst ho
      refine ⟨fun j => by simp [edge], 1, 0, zero_le_one, le_rfl, by simp [edge], fun a b _ => ?_⟩
      have := hf a b
      simp only [edge, zero_mul, one_mul, add_zero, Finset.sum_const_zero, add_sub_add_right_eq_sub]
      exact this
    coefR o ho r hr := by simp [edge] at hr
    nonneg := ⟨zero_le_one, le_rfl, fun _ => le_rfl, by simp [edge]⟩ }

theorem fenced_ok (hB : B.Ok) (b : Box) {m : ℝ} (hm : 0 < m) : (fenced B b m).Ok := by
  have hx : ∀ p q : Cfg (ι → ℝ) Unit, |p.x - q.x| ≤ ‖p.pose.1 - q.pose.1‖ := fun p q => by
    have := Complex.abs_re_le_norm (p.pose.1 - q.pose.1); simpa [Cfg.pose] using this
  have hy : ∀ p q : Cfg (ι → ℝ) Unit, |p.y - q.y| ≤ ‖p.pose.1 - q.pose.1‖ := fun p q => by
    have := Complex.abs_im_le_norm (p.pose.1 - q.pose.1); simpa [Cfg.pose] using this
  refine ⟨⟨?_, hB.world.radius, hB.world.extra, hB.world.between⟩, hB.step, hB.vmax, hB.slow⟩
  intro c hc
  rcases List.mem_append.1 hc with hc | hc
  · simp only [Box.edges, List.mem_cons, List.not_mem_nil, or_false] at hc
    rcases hc with rfl | rfl | rfl | rfl
    · exact edge_ok hm fun p q => by rw [sub_sub_sub_cancel_left, abs_sub_comm]; exact hx p q
    · exact edge_ok hm fun p q => by rw [sub_sub_sub_cancel_right]; exact hx p q
    · exact edge_ok hm fun p q => by rw [sub_sub_sub_cancel_left, abs_sub_comm]; exact hy p q
    · exact edge_ok hm fun p q => by rw [sub_sub_sub_cancel_right]; exact hy p q
  · exact hB.world.pairs c hc

/-- Specification: the position is within the bounds, up to `e`. -/
def Box.Near (b : Box) (e : ℝ) (q : Cfg (ι → ℝ) Unit) : Prop := b.xlo - e ≤ q.x ∧ q.x ≤ b.xhi + e ∧ b.ylo - e ≤ q.y ∧ q.y ≤ b.yhi + e

theorem near_of_free {b : Box} {m : ℝ} {q : Cfg (ι → ℝ) Unit} (h : (fenced B b m).Free q) : b.Near (B.step / 2 + m) q ∧ B.Free q := by
  have key : ∀ f, edge m f ∈ (b.edges m : List (CarPair ι Unit)) → -(B.step / 2) ≤ f q + m := by
    intro f hf
    have := h (edge m f) (List.mem_append_left _ hf) ⟨fun q => f q + m, fun q => if 0 ≤ f q then some m else none⟩ (by simp [edge])
    have e : (fenced B b m).vel (edge m f) = 1 := by simp [Bench.vel, edge]
    rw [e, one_mul] at this
    exact this
  have k1 := key (fun q => b.xhi - q.x) (by simp [Box.edges])
  have k2 := key (fun q => q.x - b.xlo) (by simp [Box.edges])
  have k3 := key (fun q => b.yhi - q.y) (by simp [Box.edges])
  have k4 := key (fun q => q.y - b.ylo) (by simp [Box.edges])
  exact ⟨⟨by linarith, by linarith, by linarith, by linarith⟩, fun c hc => h c (List.mem_append_right _ hc)⟩

theorem free_of_ok {b : Box} {m : ℝ} (hB : B.Ok) (hm : 0 ≤ m) {q : Cfg (ι → ℝ) Unit} (h : b.ok q = true) (hq : B.Free q) : (fenced B b m).Free q := by
  simp only [Box.ok, Bool.and_eq_true, Bool.not_eq_true', Bool.or_eq_false_iff, decide_eq_false_iff_not, not_lt] at h
  intro c hc
  rcases List.mem_append.1 hc with hc | hc
  · have key : ∀ f : Cfg (ι → ℝ) Unit → ℝ, 0 ≤ f q → ∀ o ∈ (edge m f).objs, -((fenced B b m).vel (edge m f) * ((fenced B b m).step / 2)) ≤ o.dist q := by
      intro f hf o ho
      simp only [edge, List.mem_singleton] at ho
      subst ho
      have e : (fenced B b m).vel (edge m f) = 1 := by simp [Bench.vel, edge]
      have hs : 0 < (fenced B b m).step := hB.step
      simp only
      change -((fenced B b m).vel (edge m f) * _) ≤ _
      rw [e]
      linarith
    simp only [Box.edges, List.mem_cons, List.not_mem_nil, or_false] at hc
    rcases hc with rfl | rfl | rfl | rfl
    · exact key _ (by linarith [h.1.1])
    · exact key _ (by linarith [h.1.2])
    · exact key _ (by linarith [h.2.1])
    · exact key _ (by linarith [h.2.2])
  · exact hq c hc

/-- C166, with the path validation "DiscretizedCollisionAndJointBound", BiRRT: the position of the car is within the bounds along the path that is returned, up to half a step of the validation (and `m`,
as small as wanted), and no two objects penetrate by more than they can move in half a step; `shoot`: any configurations.  Partial: half a step. -/
theorem C166_validated_birrt_partial (hB : B.Ok) (b : Box) {m : ℝ} (hm : 0 < m) (heur : Roadmap (Conf ι) (SP (fenced B b m)) → Nat → ℝ) (q0 : Conf ι) (gs : List (Conf ι)) (shoot : Nat → Conf ι)
    (st : Settings ℝ) (late intr : Nat → Bool) (fuel : Nat) (x : BState) (l : List (SP (fenced B b m))) (h0 : B.Free q0.1) (hb : b.ok q0.1 = true)
    (hl : solve (birrt (env (fenced B b m)) heur q0 gs shoot) st late intr fuel (x, Roadmap.empty) = .path l) (t : ℝ) (t0 : 0 ≤ t) (t1 : t ≤ (pathVector l).tr.2) :
    ∃ q, evalV (vecOps ccOps) (pathVector l) t = .ok q ∧ b.Near (B.step / 2 + m) q ∧ B.Free q := by
  obtain ⟨g, -, s⟩ := (C162_birrt_partial (fenced_ok hB b hm) heur q0 gs shoot st late intr fuel x l (free_of_ok hB hm.le hb h0) hl).1
  obtain ⟨K, -, u, -, -, e, hf⟩ := s.free t t0 t1
  exact ⟨_, e, near_of_free hf⟩

/-- The same, diffusing planner. -/
theorem C166_validated_diffusing_partial (hB : B.Ok) (b : Box) {m : ℝ} (hm : 0 < m) (D : DiffParams ℝ) (heur : Roadmap (Conf ι) (SP (fenced B b m)) → Nat → ℝ) (q0 : Conf ι) (gs : List (Conf ι))
    (shoot : Nat → Conf ι) (st : Settings ℝ) (late intr : Nat → Bool) (fuel n : Nat) (l : List (SP (fenced B b m))) (h0 : B.Free q0.1) (hb : b.ok q0.1 = true)
    (hl : solve (diffusing (env (fenced B b m)) D heur q0 gs shoot) st late intr fuel (n, Roadmap.empty) = .path l) (t : ℝ) (t0 : 0 ≤ t) (t1 : t ≤ (pathVector l).tr.2) :
    ∃ q, evalV (vecOps ccOps) (pathVector l) t = .ok q ∧ b.Near (B.step / 2 + m) q ∧ B.Free q := by
  obtain ⟨g, -, s⟩ := C162_diffusing_partial (fenced_ok hB b hm) D heur q0 gs shoot st late intr fuel n l (free_of_ok hB hm.le hb h0) hl
  obtain ⟨K, -, u, -, -, e, hf⟩ := s.free t t0 t1
  exact ⟨_, e, near_of_free hf⟩

theorem arc_bounded (K : CC (ι → ℝ) Unit) : ∃ M : ℝ, ∀ t, K.t0 ≤ t → t ≤ K.t1 → |(K.eval t).x| ≤ M ∧ |(K.eval t).y| ≤ M := by
  have hr : Continuous K.ratio := by
    unfold CC.ratio
    split
    · exact continuous_const
    · exact (continuous_id.sub continuous_const).div_const _
  have hx : Continuous fun t => (K.eval t).x := by
    simp only [CC.eval]
    split <;> fun_prop
  have hy : Continuous fun t => (K.eval t).y := by
    simp only [CC.eval]
    split <;> fun_prop
  obtain ⟨M, hM⟩ := (isCompact_Icc (a := K.t0) (b := K.t1)).exists_bound_of_continuousOn hx.continuousOn
  obtain ⟨N, hN⟩ := (isCompact_Icc (a := K.t0) (b := K.t1)).exists_bound_of_continuousOn hy.continuousOn
  exact ⟨max M N, fun t t0 t1 => ⟨(hM t ⟨t0, t1⟩).trans (le_max_left _ _), (hN t ⟨t0, t1⟩).trans (le_max_right _ _)⟩⟩

theorem arcs_bounded (l : Arcs ι) : ∃ M : ℝ, ∀ K ∈ l, ∀ t, K.t0 ≤ t → t ≤ K.t1 → |(K.eval t).x| ≤ M ∧ |(K.eval t).y| ≤ M := by
  induction l with
  | nil => exact ⟨0, by simp⟩
  | cons K l ih =>
    obtain ⟨M, hM⟩ := ih
    obtain ⟨N, hN⟩ := arc_bounded K
    refine ⟨max M N, fun L hL t t0 t1 => ?_⟩
    rcases List.mem_cons.1 hL with rfl | hL
    · exact ⟨(hN t t0 t1).1.trans (le_max_right _ _), (hN t t0 t1).2.trans (le_max_right _ _)⟩
    · exact ⟨(hM L hL t t0 t1).1.trans (le_max_left _ _), (hM L hL t t0 t1).2.trans (le_max_left _ _)⟩

/-! ## A car in a corridor -/

namespace Demo

/-- No obstacle; one other joint. -/
noncomputable def plain : Bench (Fin 1) := ⟨⟨[], false, 1, false, fun a b => |b.o 0 - a.o 0|, fun a b => |a.1.x - b.1.x| + |a.1.y - b.1.y| + |a.1.c - b.1.c| + |a.1.s - b.1.s| + |a.1.o 0 - b.1.o 0|, fun a b u => { a with o := lerp a.o b.o u }⟩, 1 / 10, fun _ => 1⟩

theorem plain_ok : plain.Ok := by
  exact {
    world := ⟨by simp [plain], by norm_num [plain], fun _ _ => abs_nonneg _, fun _ _ _ => rfl⟩
    step := by norm_num [plain]
    vmax := fun _ => zero_le_one
    slow a b j := by
      obtain rfl : j = 0 := Subsingleton.elim _ _
      simp [plain, extraEnd] }

/-- At the end of a corridor, facing the wall, one of the joints at 0. -/
def there : Conf (Fin 1) := ⟨⟨0, 0, 1, 0, fun _ => 0, ()⟩, by simp [Cfg.Unit]⟩

/-- One meter back, the joint at 1. -/
def back : Conf (Fin 1) := ⟨⟨-1, 0, 1, 0, fun _ => 1, ()⟩, by simp [Cfg.Unit]⟩

theorem apart : there.1.pose ≠ back.1.pose := by
  intro h
  have := congrArg (fun p : Pose => p.1.re) h
  simp [there, back, Cfg.pose] at this

/-- The joint goes from 0 to 1: it is between them along the path of the planner (the hypotheses of `C166_birrt_partial` hold, with a solution). -/
theorem joint_kept (heur : Roadmap (Conf (Fin 1)) (SP plain) → Nat → ℝ) (x : BState) (st : Settings ℝ) (late : Nat → Bool) (fuel : Nat) :
    ∃ l, solve (birrt (env plain) heur there [back] (fun _ => there)) st late (fun _ => false) fuel (x, Roadmap.empty) = .path l ∧
      InBounds {o | 0 ≤ o 0 ∧ o 0 ≤ 1} (evalV (vecOps ccOps) (pathVector l)) (pathVector l).tr.2 := by
  obtain ⟨p, -, h, -⟩ := C163_car plain_ok heur there back (fun _ => there) apart (by simp [plain]) x st late (fun _ => false) rfl fuel
  refine ⟨_, h, C166_birrt_partial ?_ plain_ok heur there [back] (fun _ => there) st late (fun _ => false) fuel x _ (by intro c hc; simp [plain] at hc) ?_ ?_ ?_ h⟩
  · intro a ha b hb u v hu hv huv
    simp only [Set.mem_ofPred_eq, Pi.add_apply, Pi.smul_apply, smul_eq_mul] at *
    constructor <;> nlinarith
  · simp [there]
  · simp [back]
  · simp [there]

/-- C166 is false for the position of the car: whatever is shot, BiRRT returns a path that goes beyond the upper bound of the first coordinate, 0, which both ends meet. -/
theorem C166_position_counterexample (heur : Roadmap (Conf (Fin 1)) (SP plain) → Nat → ℝ) (shoot : Nat → Conf (Fin 1)) (x : BState) (st : Settings ℝ) (late : Nat → Bool) (fuel : Nat) :
    there.1.x ≤ 0 ∧ back.1.x ≤ 0 ∧ ∃ l, solve (birrt (env plain) heur there [back] shoot) st late (fun _ => false) fuel (x, Roadmap.empty) = .path l ∧
      ∃ t, 0 ≤ t ∧ t ≤ (pathVector l).tr.2 ∧ ∃ q, evalV (vecOps ccOps) (pathVector l) t = .ok q ∧ 0 < q.x := by
  refine ⟨le_rfl, by simp [back], ?_⟩
  obtain ⟨p, hp, h, s, -⟩ := C163_car plain_ok heur there back shoot apart (by simp [plain]) x st late (fun _ => false) rfl fuel
  refine ⟨_, h, ?_⟩
  obtain ⟨p', hp', t, t0, t1, q, hq, hx⟩ := C166_position plain_ok rfl (a := there) (b := back) rfl rfl apart
  have e : p' = p := by
    simp only [env, hp] at hp'
    rw [dif_pos p.2] at hp'
    exact (Option.some.inj hp').symm
  subst e
  have ev : pathVector [p'] = ⟨none, (0, total (vecOps ccOps) [vec p'.1]), [vec p'.1]⟩ := by
    have := pathVector_eq [low p']
    exact this
  have tot : total (vecOps ccOps) [vec p'.1] = total ccOps p'.1 := by
    simp [total, vecOps, Ops.len, tr_vec]
  refine ⟨t, t0, ?_, q, ?_, hx⟩
  · rw [ev, tot]; exact t1
  · have hlo : (vecOps (ccOps (E := Fin 1 → ℝ) (W := Unit))).lo (vec p'.1) = 0 := vlo (low p')
    have hhi : (vecOps (ccOps (E := Fin 1 → ℝ) (W := Unit))).hi (vec p'.1) = total ccOps p'.1 := vhi (low p')
    obtain ⟨i, v, u, -, k2, k3, k4, k5, -, k6⟩ := C19_eval (vecOps ccOps) (pathVector [p']) (by rw [ev]; simp) (by
      rw [ev]
      intro v hv
      rw [List.mem_singleton.1 hv, hlo, hhi]; exact tnn p') t t0 (by rw [ev]; simp only [List.map_cons, List.map_nil, List.sum_cons, List.sum_nil]; rw [hlo, hhi]; linarith)
    rw [ev] at k2 k5 k6 ⊢
    obtain ⟨rfl, rfl⟩ : i = 0 ∧ v = vec p'.1 := by
      rcases i with _ | i
      · exact ⟨rfl, (Option.some.inj k2).symm⟩
      · simp at k2
    simp only [List.take_zero, List.map_nil, List.sum_nil, zero_add] at k5
    rw [hlo, sub_zero] at k5
    rw [k6, k5, show (vecOps ccOps).eval (vec p'.1) t = .ok q from hq]
    rfl

/-- With bounds wide enough, BiRRT returns a path with the validation of bounds: the hypotheses of `C166_validated_birrt_partial` hold, with a solution. -/
example : ∃ b : Box, ∀ m : ℝ, 0 < m → b.ok there.1 = true ∧ ∀ (heur : Roadmap (Conf (Fin 1)) (SP (fenced plain b m)) → Nat → ℝ) (shoot : Nat → Conf (Fin 1)) (x : BState) (st : Settings ℝ)
    (late : Nat → Bool) (fuel : Nat), ∃ l, solve (birrt (env (fenced plain b m)) heur there [back] shoot) st late (fun _ => false) fuel (x, Roadmap.empty) = .path l := by
  obtain ⟨p, hp⟩ := C162_steer plain_ok apart
  have hpath : path plain.X there back = .ok p.1 := by
    simp only [env] at hp
    split at hp
    · simp at hp
    · next l hl =>
      split at hp
      · rw [hl, ← Option.some.inj hp]
      · simp at hp
  obtain ⟨M, hM⟩ := arcs_bounded p.1
  refine ⟨⟨-(max M 0), max M 0, -(max M 0), max M 0⟩, fun m hm => ⟨?_, fun heur shoot x st late fuel => ?_⟩⟩
  · simp [Box.ok, there]
  · obtain ⟨l, -, h, -⟩ := C163_car (fenced_ok plain_ok _ hm) heur there back shoot apart (by
      intro l hl K hK t t0 t1 c hc o ho
      have e : p.1 = l := Except.ok.inj (hpath.symm.trans hl)
      subst e
      obtain ⟨h1, h2⟩ := hM K hK t t0 t1
      have h3 := abs_le.1 (h1.trans (le_max_left M 0))
      have h4 := abs_le.1 (h2.trans (le_max_left M 0))
      have hc : c ∈ (Box.edges ⟨-(max M 0), max M 0, -(max M 0), max M 0⟩ m : List (CarPair (Fin 1) Unit)) := by simpa [fenced, plain] using hc
      have key : ∀ f : Cfg (Fin 1 → ℝ) Unit → ℝ, 0 ≤ f (K.eval t) → ∀ o ∈ (edge m f).objs, o.collide (K.eval t) ≠ none := by
        intro f hf o ho
        simp only [edge, List.mem_singleton] at ho
        subst ho
        simp [hf]
      simp only [Box.edges, List.mem_cons, List.not_mem_nil, or_false] at hc
      rcases hc with rfl | rfl | rfl | rfl
      · exact key _ (by linarith [h3.2]) o ho
      · exact key _ (by linarith [h3.1]) o ho
      · exact key _ (by linarith [h4.2]) o ho
      · exact key _ (by linarith [h4.1]) o ho) x st late (fun _ => false) rfl fuel
    exact ⟨_, h⟩

end Demo

end Verif.Planner.CarsSampled
