import Verif.Planner.Closed
import Verif.Path.Straight
import Verif.Path.Rhs
set_option linter.unusedSectionVars false

/-!
# Planning with constraints (C131)

The straight steering method gives to each path a copy of the constraints whose settable right-hand sides are the values at the start of the path: each piece
of a solution has its own level set, and is on it up to the error threshold of the projector.  Constraints whose right-hand side cannot be set are
satisfied everywhere up to the threshold; for the others the errors of the pieces add up.
-/
namespace Verif.Leaf
open Verif.PathV Verif.Planner Verif.Rhs

variable {K Q I : Type} [Field K] [LinearOrder K] [IsStrictOrderedRing K]

/-! ## Model -/

/-- A problem with constraints: configuration space, distance, numerical solver, constraints of the steering method with their right-hand sides, `projectOnKernel`
(config-projector.cc:249-259, external). -/
structure Setup (K Q I : Type) [Field K] where
  space : Space K Q
  metric : Q → Q → K
  S : Solver Q K I
  cons : Cell K K I
  kernel : Q → Q → Q
  eps : K

/-- Assumptions: `eps` is the error threshold of the projector; a configuration returned with success is satisfying (`ConfigProjector::impl_compute`,
config-projector.cc:181-205), a satisfying one is not changed; the right-hand sides do not depend on the parameter. -/
structure Setup.Ok (B : Setup K Q I) : Prop where
  nonneg : ∀ a b, 0 ≤ B.metric a b
  zero : ∀ a b, B.metric a b = 0 → a = b
  sound : ∀ r q, (B.S.project r q).2 = true → B.S.satisfied r (B.S.project r q).1 = true
  close : ∀ r q, B.S.satisfied r q = true → ∀ i, |B.S.value i q - r i| ≤ B.eps
  stay : ∀ r q, B.S.satisfied r q = true → B.S.project r q = (q, true)
  const : ∀ i f, B.cons.kind i ≠ .varying f

/-- Constraints of a path with right-hand sides `r`: `Path::applyConstraints`, path.cc:140-146 (right-hand sides that are not functions of the parameter). -/
def cst (B : Setup K Q I) (r : I → K) : Cst K Q := fun _ q => if (B.S.project r q).2 then .ok (B.S.project r q).1 else .error .projection

/-- A straight path with the right-hand sides of its constraints. -/
structure Piece (K Q I : Type) where
  q0 : Q
  q1 : Q
  len : K
  rhs : I → K

/-- The path object. -/
def Piece.straight (B : Setup K Q I) (p : Piece K Q I) : Straight K Q := ⟨(0, p.len), p.q0, p.q1, some (cst B p.rhs)⟩

/-- What is true of all the paths built: they passed `Path::checkPath` (path.cc:235-270), which throws otherwise, and their right-hand sides come from the
constraints of the steering method (`rightHandSideFromConfig` does not change the fixed ones).  Proved for each way of building a path below. -/
structure Made (B : Setup K Q I) (p : Piece K Q I) : Prop where
  len : 0 ≤ p.len
  point : p.len = 0 → p.q0 = p.q1
  fixed : ∀ i, B.cons.kind i = .fixed → p.rhs i = B.cons.rhs i
  sat0 : B.S.satisfied p.rhs p.q0 = true
  sat1 : B.S.satisfied p.rhs p.q1 = true

abbrev CP (B : Setup K Q I) := { p : Piece K Q I // Made B p }

/-- `steeringMethod::Straight::impl_compute`, straight.cc:38-52: the right-hand sides of the copy of the constraints are set from the first configuration;
`StraightPath::create` checks the end configurations and throws `projection_error`, turned into a null pointer by `operator()` (steering-method.hh:55-64). -/
def steer (B : Setup K Q I) (hB : B.Ok) (a b : Q) : Option (CP B) :=
  if h : B.S.satisfied (steered B.S B.cons a).rhs a = true ∧ B.S.satisfied (steered B.S B.cons a).rhs b = true then
    some ⟨⟨a, b, B.metric a b, (steered B.S B.cons a).rhs⟩, hB.nonneg a b, hB.zero a b, fun i hi => by simp [steered, hi], h.1, h.2⟩
  else none

theorem eval_sat {B : Setup K Q I} (hB : B.Ok) {p : Piece K Q I} {t : K} {q : Q} (h : (p.straight B).eval B.space t = .ok q) : B.S.satisfied p.rhs q = true := by
  change (if (B.S.project p.rhs ((p.straight B).impl B.space t)).2 = true then Except.ok (B.S.project p.rhs ((p.straight B).impl B.space t)).1 else Except.error Err.projection) = _ at h
  by_cases hk : (B.S.project p.rhs ((p.straight B).impl B.space t)).2 = true
  · rw [if_pos hk] at h
    rw [← Except.ok.inj h]
    exact hB.sound _ _ hk
  · rw [if_neg hk] at h
    cases h

/-- `StraightPath::impl_extract`: straight-path.cc:142-158.  When it throws `projection_error`, the exception ends the resolution (no path is returned): the value
chosen here (the same path) does not matter. -/
def ext (B : Setup K Q I) (hB : B.Ok) (p : CP B) (a b : K) : CP B :=
  match ha : (p.1.straight B).eval B.space a, hb : (p.1.straight B).eval B.space b with
  | .ok x, .ok y => ⟨⟨x, y, |b - a|, p.1.rhs⟩, abs_nonneg _, fun h => by
      have : b = a := sub_eq_zero.1 (abs_eq_zero.1 h)
      rw [this, ha] at hb
      exact Except.ok.inj hb, p.2.fixed, eval_sat (p := p.1) hB ha, eval_sat (p := p.1) hB hb⟩
  | _, _ => p

theorem ext_of {B : Setup K Q I} {hB : B.Ok} {p : CP B} {a b : K} {x y : Q} (ha : (p.1.straight B).eval B.space a = .ok x) (hb : (p.1.straight B).eval B.space b = .ok y) :
    (ext B hB p a b).1 = ⟨x, y, |b - a|, p.1.rhs⟩ := by
  unfold ext
  split
  · next x' y' ha' hb' => rw [ha] at ha'; rw [hb] at hb'; cases ha'; cases hb'; rfl
  · next hne => exact absurd hb (hne x y ha)

/-- `ext` is the extraction of straight paths. -/
theorem ext_eq {B : Setup K Q I} {hB : B.Ok} {p : CP B} {a b : K} {p' : Straight K Q} (h : (p.1.straight B).extract B.space a b = .ok p') :
    (ext B hB p a b).1.straight B = p' := by
  unfold Straight.extract at h
  cases ha : (p.1.straight B).eval B.space a with
  | error e => rw [ha] at h; cases h
  | ok x =>
    cases hb : (p.1.straight B).eval B.space b with
    | error e => rw [ha, hb] at h; cases h
    | ok y =>
      rw [ha, hb] at h
      rw [ext_of ha hb, ← Except.ok.inj h]
      rfl

/-- A path validation: it returns the path itself when it accepts it, else a part of it from the beginning, or to the end when `reverse` is set. -/
structure Checker (B : Setup K Q I) (hB : B.Ok) where
  run : Bool → CP B → Bool × CP B
  whole : ∀ b p, (run b p).1 = true → (run b p).2 = p
  part : ∀ p, ∃ t, (run false p).2 = p ∨ (run false p).2 = ext B hB p 0 t
  tail : ∀ p, ∃ t, (run true p).2 = p ∨ (run true p).2 = ext B hB p t p.1.len

/-- The calls of the planners, without path projector.  `onKernel`: diffusing-planner.cc:103-122, bi-rrt-planner.cc:75-92: projection on the kernel then
`constraints->apply` with the right-hand sides of the steering method. -/
def env (B : Setup K Q I) (hB : B.Ok) (V : Checker B hB) : PEnv Q (CP B) K where
  dist := B.metric
  rev p := ext B hB p p.1.len 0
  zeroLength p := decide (p.1.len = 0)
  ini p := p.1.q0
  fin p := p.1.q1
  t0 _ := 0
  t1 p := p.1.len
  len p := p.1.len
  extract := ext B hB
  steer := steer B hB
  projector := none
  validate := V.run
  onKernel x q := if (B.S.project B.cons.rhs (B.kernel x q)).2 then some (B.S.project B.cons.rhs (B.kernel x q)).1 else none

/-- BiRRT* with these calls: `adjust` is the loop of `extend` that projects the configuration (bi-rrt-star.cc:329-341), `near` the sampling near the best path. -/
def starEnv (B : Setup K Q I) (hB : B.Ok) (V : Checker B hB) (adjust : Q → Q → Q) (radius : Nat → K) (maxLen minLen eps : K) (near : Nat → Q → Q → Q → Q) :
    Star.SEnv Q (CP B) K where
  toPEnv := env B hB V
  adjust := adjust
  radius := radius
  maxLen := maxLen
  minLen := minLen
  eps := eps
  between := near

/-! ## Specification -/

/-- What the user gets: at each successful evaluation on the piece of rank `k`, fixed constraints are satisfied up to the threshold and the others have their value at
the initial configuration up to `2 k + 2` thresholds. -/
def Follows (B : Setup K Q I) (q0 : Q) (l : List (CP B)) : Prop :=
  ∀ k p, l[k]? = some p → ∀ t q, (p.1.straight B).eval B.space t = .ok q → ∀ i,
    match B.cons.kind i with
    | .fixed => |B.S.value i q - B.cons.rhs i| ≤ B.eps
    | _ => |B.S.value i q - B.S.value i q0| ≤ (2 * k + 2 : ℕ) * B.eps

/-! ## Proofs -/

variable {B : Setup K Q I} {hB : B.Ok} {V : Checker B hB}

theorem eval_zero (p : CP B) (hB : B.Ok) : (p.1.straight B).eval B.space 0 = .ok p.1.q0 := by
  simp [Straight.eval, constrained, Piece.straight, Straight.impl, cst, hB.stay _ _ p.2.sat0]

theorem eval_len (p : CP B) (hB : B.Ok) : (p.1.straight B).eval B.space p.1.len = .ok p.1.q1 := by
  by_cases h : p.1.len = 0
  · rw [h, eval_zero p hB, p.2.point h]
  · simp [Straight.eval, constrained, Piece.straight, Straight.impl, cst, h, hB.stay _ _ p.2.sat1]

theorem ext_ini (p : CP B) (t : K) : (ext B hB p 0 t).1.q0 = p.1.q0 := by
  cases hb : (p.1.straight B).eval B.space t with
  | ok y => rw [ext_of (eval_zero p hB) hb]
  | error e =>
    unfold ext
    split
    · next hb' => rw [hb] at hb'; cases hb'
    · rfl

theorem ext_fin (p : CP B) (t : K) : (ext B hB p t p.1.len).1.q1 = p.1.q1 := by
  cases ha : (p.1.straight B).eval B.space t with
  | ok y => rw [ext_of ha (eval_len p hB)]
  | error e =>
    unfold ext
    split
    · next ha' _ => rw [ha] at ha'; cases ha'
    · rfl

theorem rev_eq (p : CP B) : (ext B hB p p.1.len 0).1 = ⟨p.1.q1, p.1.q0, p.1.len, p.1.rhs⟩ := by
  rw [ext_of (eval_len p hB) (eval_zero p hB), zero_sub, abs_neg, abs_of_nonneg p.2.len]

/-- The assumptions of the planners hold. -/
theorem contract (B : Setup K Q I) (hB : B.Ok) (V : Checker B hB) : Contract (env B hB V) (fun _ => True) where
  steer a b p h := by
    change steer B hB a b = some p at h
    unfold steer at h
    split_ifs at h
    cases h
    exact ⟨rfl, rfl⟩
  extract_ini p t := ext_ini (hB := hB) p t
  extract_valid _ _ _ := trivial
  proj f p b p' h := by cases h
  proj_some f p h := by cases h
  valid_ini p := by
    obtain ⟨t, h | h⟩ := V.part p
    · show (V.run false p).2.1.q0 = _; rw [h]; rfl
    · show (V.run false p).2.1.q0 = _; rw [h]; exact ext_ini p t
  valid_part _ _ := trivial
  valid_true b p h := by
    have := V.whole b p h
    refine ⟨trivial, trivial, ?_, ?_⟩
    · show (V.run b p).2.1.q0 = _; rw [this]; rfl
    · show (V.run b p).2.1.q1 = _; rw [this]; rfl
  valid_fin p := by
    obtain ⟨t, h | h⟩ := V.tail p
    · show (V.run true p).2.1.q1 = _; rw [h]; rfl
    · show (V.run true p).2.1.q1 = _; rw [h]; exact ext_fin p t
  rev_ini p := by show (ext B hB p p.1.len 0).1.q0 = _; rw [rev_eq]; rfl
  rev_fin p := by show (ext B hB p p.1.len 0).1.q1 = _; rw [rev_eq]; rfl
  rev_valid _ _ := trivial

theorem close3 {a b r e : K} (h1 : |a - r| ≤ e) (h2 : |b - r| ≤ e) : |b - a| ≤ 2 * e := by
  rw [abs_le] at *
  constructor <;> linarith [h1.1, h1.2, h2.1, h2.2]

theorem add_close {a b c e f : K} (h1 : |b - a| ≤ e) (h2 : |c - b| ≤ f) : |c - a| ≤ e + f := by
  rw [abs_le] at *
  constructor <;> linarith [h1.1, h1.2, h2.1, h2.2]

/-- The value at the start of a piece. -/
theorem start_close {g a : Q} {l : List (CP B)} (h : Connects (env B hB V) (fun _ => True) a l g) (i : I) :
    ∀ k p, l[k]? = some p → |B.S.value i p.1.q0 - B.S.value i a| ≤ (2 * k : ℕ) * B.eps := by
  induction l generalizing a with
  | nil => simp
  | cons x l ih =>
    obtain ⟨-, h2, h3⟩ := h
    change x.1.q0 = a at h2
    intro k p hk
    cases k with
    | zero => simp at hk; subst hk; simp [h2]
    | succ k =>
      have h4 := ih h3 k p (by simpa using hk)
      have h5 := close3 (hB.close _ _ x.2.sat0 i) (hB.close _ _ x.2.sat1 i)
      rw [h2] at h5
      have h6 := add_close h5 h4
      refine h6.trans (le_of_eq ?_)
      push_cast
      ring

theorem follows {q0 g : Q} {l : List (CP B)} (h : Connects (env B hB V) (fun _ => True) q0 l g) : Follows B q0 l := by
  intro k p hk t q hq i
  have h1 := hB.close _ _ (eval_sat hB hq) i
  cases hi : B.cons.kind i with
  | fixed => simp only; rw [← p.2.fixed i hi]; exact h1
  | varying f => exact absurd hi (hB.const i f)
  | equality =>
    simp only
    refine (add_close (start_close h i k p hk) (close3 (hB.close _ _ p.2.sat0 i) h1)).trans (le_of_eq ?_)
    push_cast
    ring

/-- The goal is reached only on a close level set. -/
theorem goal_close {q0 g : Q} {l : List (CP B)} (h : Connects (env B hB V) (fun _ => True) q0 l g) (i : I) :
    |B.S.value i g - B.S.value i q0| ≤ (2 * l.length : ℕ) * B.eps := by
  induction l generalizing q0 with
  | nil => have : q0 = g := h; subst this; simp
  | cons x l ih =>
    obtain ⟨-, h2, h3⟩ := h
    change x.1.q0 = q0 at h2
    have h5 := close3 (hB.close _ _ x.2.sat0 i) (hB.close _ _ x.2.sat1 i)
    rw [h2] at h5
    refine (add_close h5 (ih h3)).trans (le_of_eq ?_)
    simp only [List.length_cons]
    push_cast
    ring

/-- What C131 says of a path returned. -/
def Result (B : Setup K Q I) (q0 : Q) (gs : List Q) (l : List (CP B)) : Prop :=
  Follows B q0 l ∧ (∃ p, l.head? = some p ∧ p.1.q0 = q0) ∧ ∃ g ∈ gs, (∃ p, l.getLast? = some p ∧ p.1.q1 = g) ∧
    ∀ i, |B.S.value i g - B.S.value i q0| ≤ (2 * l.length : ℕ) * B.eps

theorem last_of {q0 g : Q} {l : List (CP B)} (hl : l ≠ []) (h : Connects (env B hB V) (fun _ => True) q0 l g) : ∃ p, l.getLast? = some p ∧ p.1.q1 = g := by
  induction l generalizing q0 with
  | nil => exact absurd rfl hl
  | cons x l ih =>
    obtain ⟨-, -, h3⟩ := h
    cases l with
    | nil => exact ⟨x, rfl, h3⟩
    | cons y l =>
      obtain ⟨p, h4, h5⟩ := ih (by simp) h3
      exact ⟨p, by rw [List.getLast?_cons_cons]; exact h4, h5⟩

theorem result {q0 : Q} {gs : List Q} {l : List (CP B)} (h : Solves (env B hB V) (fun _ => True) q0 gs l) : Result B q0 gs l := by
  have : ∃ g ∈ gs, l ≠ [] ∧ Connects (env B hB V) (fun _ => True) q0 l g := by
    rcases h with h | ⟨h1, p, h2, h3⟩
    · exact h
    · refine ⟨q0, h1, by simp [h3], ?_⟩
      obtain ⟨h4, h5⟩ := (contract B hB V).steer _ _ _ h2
      subst h3
      exact ⟨trivial, h4, h5⟩
  obtain ⟨g, h1, h2, h3⟩ := this
  refine ⟨follows h3, ?_, g, h1, last_of h2 h3, goal_close h3⟩
  cases l with
  | nil => exact absurd rfl h2
  | cons x l => exact ⟨x, rfl, h3.2.1⟩

/-! ## C131 -/

section
variable [DecidableEq Q]

/-- C131 for the diffusing planner. -/
theorem C131_diffusing_partial (B : Setup K Q I) (hB : B.Ok) (V : Checker B hB) (D : DiffParams K) (heur : Roadmap.Roadmap Q (CP B) → Nat → K) (q0 : Q) (gs : List Q) (shoot : Nat → Q)
    (st : Settings K) (late intr : Nat → Bool) (fuel n : Nat) (l : List (CP B))
    (hl : solve (diffusing (env B hB V) D heur q0 gs shoot) st late intr fuel (n, Roadmap.empty) = .path l) : Result B q0 gs l :=
  result (C67_diffusing (contract B hB V) D heur q0 gs shoot (V := []) ⟨Roadmap.Inv.empty, by simp [Roadmap.empty]⟩ st late intr fuel n l hl)

/-- C131 for Visibility-PRM. -/
theorem C131_visibility_partial (B : Setup K Q I) (hB : B.Ok) (V : Checker B hB) (heur : Roadmap.Roadmap Q (CP B) → Nat → K) (q0 : Q) (gs : List Q) (sample : Nat → Q)
    (x : Nat × (Nat → Bool)) (st : Settings K) (late intr : Nat → Bool) (fuel : Nat) (l : List (CP B))
    (hl : solve (visibility (env B hB V) heur q0 gs sample) st late intr fuel (x, Roadmap.empty) = .path l) : Result B q0 gs l :=
  result (C67_visibility (contract B hB V) heur q0 gs sample (V := []) (s := (x, Roadmap.empty)) ⟨Roadmap.Inv.empty, by simp [Roadmap.empty]⟩ st late intr fuel l hl)

/-- C131 for kPRM*. -/
theorem C131_kprm_partial {H : Type} (B : Setup K Q I) (hB : B.Ok) (V : Checker B hB) (C : KEnv Q (CP B) K H) (hC : C.toPEnv = env B hB V) (hk : 0 < C.k) (hN : 0 < C.nodes)
    (heur : Roadmap.Roadmap Q (CP B) → Nat → K) (q0 : Q) (gs : List Q) (x : KState) (st : Settings K) (late intr : Nat → Bool) (fuel : Nat) (l : List (CP B))
    (hl : solve (kprm C heur q0 gs) st late intr fuel (x, Roadmap.empty) = .path l) : Result B q0 gs l := by
  have := C67_kprm (C := C) (Valid := fun _ => True) (V := []) (by rw [hC]; exact contract B hB V) hk hN heur q0 gs (s := (x, Roadmap.empty))
    ⟨Roadmap.Inv.empty, by simp [Roadmap.empty]⟩ st late intr fuel l hl
  rw [hC] at this
  exact result this

/-- C131 for BiRRT*. -/
theorem C131_birrtstar_partial (B : Setup K Q I) (hB : B.Ok) (V : Checker B hB) (adjust : Q → Q → Q) (radius : Nat → K) (maxLen minLen eps : K) (hm : 0 < minLen)
    (near : Nat → Q → Q → Q → Q) {pop : List (Star.WNode (CP B) K) → Option (Star.WNode (CP B) K × List (Star.WNode (CP B) K))} (hp : Star.PopOk pop)
    (heur : Roadmap.Roadmap Q (CP B) → Nat → K) (fc fp : Nat) (q0 g : Q) (draws : Nat → Star.Draw Q) (x : Star.Trees (CP B) × Nat) (st : Settings K) (late intr : Nat → Bool)
    (fuel : Nat) (l : List (CP B))
    (hl : solve (Star.birrtstar (starEnv B hB V adjust radius maxLen minLen eps near) heur pop fc fp q0 [g] draws) st late intr fuel (x, Roadmap.empty) = .path l) :
    Result B q0 [g] l := by
  have hC : Star.SContract (starEnv B hB V adjust radius maxLen minLen eps near) (fun _ => True) := by
    refine ⟨contract B hB V, fun p => p.2.len, fun p => ?_, hm⟩
    show (ext B hB p p.1.len 0).1.len = _
    rw [rev_eq]
    rfl
  exact result (Star.C67_birrtstar hC hp heur fc fp q0 g draws x st late intr fuel l hl)

/-- C131: once the two trees of BiRRT* are connected, the configurations drawn are not projected on the constraints (bi-rrt-star.cc:433-441): those that do not
satisfy them are lost, the path is not improved. -/
theorem C131_birrtstar_idle (B : Setup K Q I) (hB : B.Ok) (V : Checker B hB) (adjust : Q → Q → Q) (radius : Nat → K) (maxLen minLen eps : K) (near : Nat → Q → Q → Q → Q)
    (q : Q) (r r' : Roadmap.Roadmap Q (CP B)) (t t' : Star.Trees (CP B)) (hq : ∀ x ∈ r.configs, B.S.satisfied (steered B.S B.cons x).rhs q = false)
    (h : Star.improve (starEnv B hB V adjust radius maxLen minLen eps near) q r t = .ok (r', t')) : r' = r ∧ t' = t := by
  unfold Star.improve at h
  split at h
  · cases h
  · next d n hn =>
    split at h
    · cases h; exact ⟨rfl, rfl⟩
    · split at h
      · cases h
      · next x hx =>
        have : (env B hB V).steer x q = none := by
          show steer B hB x q = none
          unfold steer
          rw [dif_neg]
          rintro ⟨-, h2⟩
          rw [hq x (List.mem_of_getElem? hx)] at h2
          cases h2
        have e : Star.buildPath (env B hB V) x q (some maxLen) true = (false, none) := by
          unfold Star.buildPath
          rw [this]
        have e' : (Star.buildPath (starEnv B hB V adjust radius maxLen minLen eps near).toPEnv x q
            (some (starEnv B hB V adjust radius maxLen minLen eps near).maxLen) true).2 = none := by
          show (Star.buildPath (env B hB V) x q (some maxLen) true).2 = none
          rw [e]
        rw [e'] at h
        cases h
        exact ⟨rfl, rfl⟩

end

/-! ## A point in the plane -/
namespace Plane

/-- The second coordinate is constrained; the projection replaces it when it is farther than the threshold. -/
def setup : Setup ℚ (ℚ × ℚ) Unit where
  space := ⟨fun a b u => (a.1 + u * (b.1 - a.1), a.2 + u * (b.2 - a.2)), fun a b => by simp, fun a b => by simp⟩
  metric a b := |a.1 - b.1| + |a.2 - b.2|
  S := ⟨fun _ q => q.2, fun r q => if |q.2 - r ()| ≤ 1 / 1000 then (q, true) else ((q.1, r ()), true), fun r q => decide (|q.2 - r ()| ≤ 1 / 1000)⟩
  cons := ⟨fun _ => .equality, fun _ => 0⟩
  kernel _ q := q
  eps := 1 / 1000

theorem ok : setup.Ok where
  nonneg a b := add_nonneg (abs_nonneg _) (abs_nonneg _)
  zero a b h := by
    have h1 := (add_eq_zero_iff_of_nonneg (abs_nonneg (a.1 - b.1)) (abs_nonneg (a.2 - b.2))).1 h
    exact Prod.ext (sub_eq_zero.1 (abs_eq_zero.1 h1.1)) (sub_eq_zero.1 (abs_eq_zero.1 h1.2))
  sound r q _ := by
    show decide (|(if |q.2 - r ()| ≤ 1 / 1000 then (q, true) else ((q.1, r ()), true)).1.2 - r ()| ≤ 1 / 1000) = true
    split
    · next h => exact decide_eq_true h
    · norm_num
  close r q h i := of_decide_eq_true h
  stay r q h := if_pos (of_decide_eq_true h)
  const i f h := by cases h

/-- No obstacle. -/
def all : Checker setup ok := ⟨fun _ p => (true, p), fun _ _ _ => rfl, fun _ => ⟨0, Or.inl rfl⟩, fun _ => ⟨0, Or.inl rfl⟩⟩

def out (o : Res (List (CP setup)) PlanErr) : Option (List ((ℚ × ℚ) × (ℚ × ℚ))) := match o with
  | .path l => some (l.map fun p => (p.1.q0, p.1.q1))
  | _ => none

/-- The run of the diffusing planner from `(0, 0)` to `(10, 3/2000)`, with `(5, 3/4000)` shot. -/
def run : Res (List (CP setup)) PlanErr :=
  solve (diffusing (env setup ok all) ⟨0, 1⟩ (fun _ _ => 0) (0, 0) [(10, 3 / 2000)] (fun _ => (5, 3 / 4000))) (Settings.default (K := ℚ)) (fun _ => false) (fun _ => false) 10 (0, Roadmap.empty)

/-- C131, counterexample: the goal is not on the level set of the initial configuration, up to the threshold (the steering method refuses to join them), the planner
joins them by a node between the two. -/
theorem C131_counterexample : setup.S.satisfied (steered setup.S setup.cons (0, 0)).rhs (10, 3 / 2000) = false ∧ (steer setup ok (0, 0) (10, 3 / 2000)).isNone = true ∧
    out run = some [((0, 0), (5, 3 / 4000)), ((5, 3 / 4000), (10, 3 / 2000))] := by
  decide +kernel

/-- the path returned by this run -/
example : ∃ l, run = .path l ∧ Result setup (0, 0) [(10, 3 / 2000)] l := by
  have h := C131_counterexample.2.2
  cases hr : run with
  | path l => exact ⟨l, rfl, C131_diffusing_partial setup ok all _ _ _ _ _ _ _ _ _ _ l hr⟩
  | _ => rw [hr] at h; cases h

/-- a configuration that does not satisfy the constraints -/
example (x : ℚ × ℚ) (hx : |x.2| ≤ 1) : setup.S.satisfied (steered setup.S setup.cons x).rhs (3, 2) = false := by
  refine decide_eq_false fun h => ?_
  have : |(2 : ℚ) - x.2| ≤ 1 / 1000 := h
  rw [abs_le] at *
  linarith [hx.1, hx.2, this.1, this.2]

end Plane

end Verif.Leaf
