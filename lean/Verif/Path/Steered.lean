import Verif.Path.Rhs

/-!
# Paths of the steering methods and the constraints of the problem (C157)

Each steering method has the constraints of the problem.  What it does with them depends on its class.
-/
namespace Verif.Rhs.Steered
open Verif.Rhs
variable {Q V K I : Type}

/-- The steering methods of the library (interpolated-steering-method.hh is not among them: nothing includes it, and the base class has no
default constructor).  `near` for Reeds-Shepp: the poses of the car are almost the same (reeds-shepp-path.cc:627). -/
inductive Method where
  | straight
  | hermite
  | spline
  | reedsShepp (near : Bool)
  | dubins
  | snibud
  | kinodynamic

/-- One path, or one element of a path vector: the path without constraints, and its constraints. -/
structure Part (Q V K I : Type) where
  raw : PathObj Q K
  cons : Option (Cell V K I)

/-- Evaluation (C125). -/
def Part.eval (S : Solver Q V I) (p : Part Q V K I) (t : K) : Option Q := evalSpec S p.raw p.cons t

/-- `impl_compute` of each class, as to constraints; `raws` are the paths without constraints that are built from `q1` to the other configuration (C87,
C88, C90, C108, C110): one, or those of a path vector.  All constructors copy the constraints (src/path.cc:89-101), which have a config projector.
* straight: src/steering-method/straight.cc:38-52: on the level set of `q1`;
* hermite: include/hpp/core/steering-method/hermite.hh:69-76;
  spline: src/steering-method/spline.cc:94-95: as they are;
* Reeds and Shepp: src/steering-method/reeds-shepp.cc:57-62 and src/reeds-shepp-path.cc:627-637 (none), 664-672 (as they are, for each segment);
* Dubins: src/steering-method/dubins.cc:53-56; the constructor (src/dubins-path.cc:107-133) does not use them, segments have none (257-260);
* Snibud: src/steering-method/snibud.cc:53-57: the reversed path of Dubins;
* kinodynamic: src/steering-method/steering-kinodynamic.cc:173-181. -/
def compute (S : Solver Q V I) (m : Method) (c : Option (Cell V K I)) (raws : List (PathObj Q K)) (q1 : Q) : List (Part Q V K I) :=
  match m with
  | .straight => raws.map fun p => ⟨p, c.map fun x => x.rhsFromConfig S q1⟩
  | .hermite | .spline => raws.map fun p => ⟨p, c⟩
  | .reedsShepp near => raws.map fun p => ⟨p, if near then none else c⟩
  | .dubins | .snibud | .kinodynamic => raws.map fun p => ⟨p, none⟩

/-! ## Specification -/

/-- Contract of the solver: each constraint is satisfied on its own; a projection that succeeds gives a configuration that satisfies the constraints; a
configuration that satisfies them is kept. -/
structure Contract (S : Solver Q V I) (ok : I → V → V → Prop) : Prop where
  each : ∀ r q, S.satisfied r q = true ↔ ∀ i, ok i (S.value i q) (r i)
  sound : ∀ r q, (S.project r q).2 = true → S.satisfied r (S.project r q).1 = true
  keep : ∀ r q, S.satisfied r q = true → S.project r q = (q, true)

/-- The steering methods that give their constraints to their paths. -/
def Method.Uses : Method → Prop
  | .dubins | .snibud | .kinodynamic | .reedsShepp true => False
  | _ => True

/-- The right-hand side that a user expects for constraint `i` along a path from `q1`: null for some, a function for others, else that of `q1`. -/
def expected (S : Solver Q V I) (x : Cell V K I) (q1 : Q) (t : K) (i : I) : V :=
  match x.kind i with
  | .fixed => x.rhs i
  | .equality => S.value i q1
  | .varying f => f t

/-- The paths without constraints go from `q1` to `q2`, end to end. -/
def Joined : Q → List (PathObj Q K) → Q → Prop
  | q1, [], q2 => q1 = q2
  | q1, p :: l, q2 => p.compute p.lo = some q1 ∧ ∃ q, p.compute p.hi = some q ∧ Joined q l q2

/-- The same for the paths with constraints, through the configurations they return. -/
def JoinedC (S : Solver Q V I) : Q → List (Part Q V K I) → Q → Prop
  | q1, [], q2 => q1 = q2
  | q1, p :: l, q2 => p.eval S p.raw.lo = some q1 ∧ ∃ q, p.eval S p.raw.hi = some q ∧ JoinedC S q l q2

/-! ## Proofs -/

variable {S : Solver Q V I} {ok : I → V → V → Prop}

theorem inForce_straight (x : Cell V K I) (q1 : Q) (t : K) : inForce (x.rhsFromConfig S q1) t = expected S x q1 t := by
  funext i
  simp only [inForce, expected, Cell.rhsFromConfig]
  cases x.kind i <;> rfl

/-- A successful evaluation with constraints satisfies them. -/
theorem eval_sat (hS : Contract S ok) {p : Part Q V K I} {x : Cell V K I} (hc : p.cons = some x) {t : K} {q : Q} (h : p.eval S t = some q) :
    S.satisfied (inForce x t) q = true := by
  unfold Part.eval evalSpec at h
  rw [hc] at h
  cases hr : p.raw.compute t with
  | none => rw [hr] at h; cases h
  | some q0 =>
    rw [hr] at h
    simp only at h
    split at h
    next hp =>
      cases h
      exact hS.sound _ _ hp
    next => cases h

theorem eval_keep (hS : Contract S ok) {p : Part Q V K I} {x : Cell V K I} (hc : p.cons = some x) {t : K} {q : Q} (hr : p.raw.compute t = some q)
    (h : S.satisfied (inForce x t) q = true) : p.eval S t = some q := by
  unfold Part.eval evalSpec
  rw [hc, hr]
  simp [hS.keep _ _ h]

/-- C157: whatever configuration a path of the straight steering method returns is on the level set of the first configuration. -/
theorem C157_straight (hS : Contract S ok) (x : Cell V K I) (raws : List (PathObj Q K)) (q1 : Q) :
    ∀ p ∈ compute S .straight (some x) raws q1, ∀ t q, p.eval S t = some q → ∀ i, ok i (S.value i q) (expected S x q1 t i) := by
  intro p hp t q hq i
  obtain ⟨r, _, rfl⟩ := List.mem_map.1 hp
  have := eval_sat hS (x := x.rhsFromConfig S q1) rfl hq
  rw [inForce_straight] at this
  exact (hS.each _ _).1 this i

/-- C157, partial: for all steering methods that use their constraints, the constraints that have no level sets are satisfied by whatever configuration a
path returns; the other ones too, with the right-hand side that they have in the steering method (instead of that of the first configuration). -/
theorem C157_satisfied_partial (hS : Contract S ok) {m : Method} (hm : m.Uses) (x : Cell V K I) (raws : List (PathObj Q K)) (q1 : Q) :
    ∀ p ∈ compute S m (some x) raws q1, ∀ t q, p.eval S t = some q →
      (∀ i, x.kind i ≠ .equality → ok i (S.value i q) (expected S x q1 t i)) ∧
      (m ≠ .straight → ∀ i, x.kind i = .equality → ok i (S.value i q) (x.rhs i)) := by
  intro p hp t q hq
  by_cases hs : m = .straight
  · subst hs
    exact ⟨fun i _ => C157_straight hS x raws q1 p hp t q hq i, fun h => absurd rfl h⟩
  · have hc : p.cons = some x := by
      cases m with
      | straight => exact absurd rfl hs
      | dubins | snibud | kinodynamic => exact hm.elim
      | reedsShepp near =>
        cases near with
        | true => exact hm.elim
        | false => obtain ⟨r, _, rfl⟩ := List.mem_map.1 hp; rfl
      | hermite | spline => obtain ⟨r, _, rfl⟩ := List.mem_map.1 hp; rfl
    have h := (hS.each _ _).1 (eval_sat hS hc hq)
    refine ⟨fun i hi => ?_, fun _ i hi => ?_⟩
    · have := h i
      unfold inForce at this
      unfold expected
      cases hk : x.kind i with
      | equality => exact absurd hk hi
      | fixed => rw [hk] at this; exact this
      | varying f => rw [hk] at this; exact this
    · have := h i
      unfold inForce at this
      rw [hi] at this
      exact this

theorem joined_cons (hS : Contract S ok) (x : Cell V K I) (hv : ∀ i f, x.kind i ≠ .varying f) (raws : List (PathObj Q K)) :
    ∀ q1 q2, Joined q1 raws q2 → S.satisfied x.rhs q1 = true → S.satisfied x.rhs q2 = true →
      (∀ p ∈ raws, ∀ t q, p.compute t = some q → (S.project x.rhs q).2 = true) →
      JoinedC S q1 (raws.map fun p => (⟨p, some x⟩ : Part Q V K I)) q2 := by
  have hf : ∀ t, inForce x t = x.rhs := by
    intro t
    funext i
    unfold inForce
    cases hk : x.kind i with
    | varying f => exact absurd hk (hv i f)
    | fixed => rfl
    | equality => rfl
  have he : ∀ (p : PathObj Q K) t q, p.compute t = some q → (S.project x.rhs q).2 = true →
      Part.eval S (⟨p, some x⟩ : Part Q V K I) t = some (S.project x.rhs q).1 := by
    intro p t q hq hp
    simp only [Part.eval, evalSpec, hq, hf, hp, if_true]
  -- generalization: the first configuration is the projection of that of the path without constraints
  have key : ∀ (l : List (PathObj Q K)) (a b : Q), Joined a l b → S.satisfied x.rhs b = true →
      (∀ p ∈ l, ∀ t q, p.compute t = some q → (S.project x.rhs q).2 = true) →
      JoinedC S (S.project x.rhs a).1 (l.map fun p => (⟨p, some x⟩ : Part Q V K I)) b := by
    intro l
    induction l with
    | nil =>
      intro a b h hb _
      have h : a = b := h
      subst h
      show (S.project x.rhs a).1 = a
      rw [hS.keep _ _ hb]
    | cons p l ih =>
      intro a b h hb hp
      obtain ⟨h1, q, h2, h3⟩ := h
      have hpp := hp p (by simp)
      exact ⟨he p _ _ h1 (hpp _ _ h1), _, he p _ _ h2 (hpp _ _ h2), ih q b h3 hb (fun p' h' => hp p' (by simp [h']))⟩
  intro q1 q2 h h1 h2 hp
  have := key raws q1 q2 h h2 hp
  rwa [hS.keep _ _ h1] at this

/-- C157: the path of the straight steering method goes from the first configuration to the second one, if they are on the same level set. -/
theorem C157_straight_ends (hS : Contract S ok) (x : Cell V K I) {p : PathObj Q K} {q1 q2 : Q} (h : Joined q1 [p] q2)
    (h1 : ∀ i, ok i (S.value i q1) (expected S x q1 p.lo i)) (h2 : ∀ i, ok i (S.value i q2) (expected S x q1 p.hi i)) :
    JoinedC S q1 (compute S .straight (some x) [p] q1) q2 := by
  obtain ⟨ha, q, hb, rfl⟩ := h
  refine ⟨eval_keep hS rfl ha ?_, q, eval_keep hS rfl hb ?_, rfl⟩
  · rw [inForce_straight]
    exact (hS.each _ _).2 h1
  · rw [inForce_straight]
    exact (hS.each _ _).2 h2

/-- C157, partial: paths of the other steering methods that use their constraints go from the first configuration to the second one, and are continuous
at the junctions of the elements, if these satisfy the constraints with the right-hand sides that the steering method has, if no right-hand side
depends on the parameter and if the projection does not fail. -/
theorem C157_ends_partial (hS : Contract S ok) {m : Method} (hm : m.Uses) (hs : m ≠ .straight) (x : Cell V K I) (hv : ∀ i f, x.kind i ≠ .varying f)
    (raws : List (PathObj Q K)) {q1 q2 : Q} (h : Joined q1 raws q2) (h1 : ∀ i, ok i (S.value i q1) (x.rhs i)) (h2 : ∀ i, ok i (S.value i q2) (x.rhs i))
    (hp : ∀ p ∈ raws, ∀ t q, p.compute t = some q → (S.project x.rhs q).2 = true) : JoinedC S q1 (compute S m (some x) raws q1) q2 := by
  have := joined_cons hS x hv raws q1 q2 h ((hS.each _ _).2 h1) ((hS.each _ _).2 h2) hp
  cases m with
  | straight => exact absurd rfl hs
  | dubins | snibud | kinodynamic => exact hm.elim
  | reedsShepp near =>
    cases near with
    | true => exact hm.elim
    | false => exact this
  | hermite | spline => exact this

/-- C157: the other steering methods ignore the constraints: evaluation never fails and gives the path without constraints. -/
theorem C157_ignored {m : Method} (hm : ¬ m.Uses) (c : Option (Cell V K I)) (raws : List (PathObj Q K)) (q1 : Q) :
    ∀ p ∈ compute S m c raws q1, ∀ t, p.eval S t = p.raw.compute t := by
  intro p hp t
  have hn : p.cons = none := by
    cases m with
    | dubins | snibud | kinodynamic => obtain ⟨r, _, rfl⟩ := List.mem_map.1 hp; rfl
    | reedsShepp near =>
      cases near with
      | true => obtain ⟨r, _, rfl⟩ := List.mem_map.1 hp; rfl
      | false => exact absurd trivial hm
    | straight | hermite | spline => exact absurd trivial hm
  unfold Part.eval evalSpec
  rw [hn]
  cases p.raw.compute t <;> rfl

/-! ### Examples: points of the plane; one constraint, on the second coordinate -/

def exS : Solver (Int × Int) Int Unit where
  value := fun _ q => q.2
  project := fun r q => ((q.1, r ()), true)
  satisfied := fun r q => q.2 = r ()

theorem exS_ok : Contract exS (fun _ a b => a = b) where
  each := by
    intro r q
    simp only [exS, decide_eq_true_eq]
    exact ⟨fun h _ => h, fun h => h ()⟩
  sound := by intro r q _; simp [exS]
  keep := by
    intro r q h
    have h : q.2 = r () := by simpa [exS] using h
    simp only [exS, ← h]

/-- From (0,a) to (4,a), leaving the line in between. -/
def bump (a : Int) : PathObj (Int × Int) Int := ⟨fun t => some (t, a + t * (4 - t)), 0, 4, (0, a), (4, a), none⟩

def exCell (k : Kind Int Int) : Cell Int Int Unit := ⟨fun _ => k, fun _ => 0⟩

example : Joined (0, 3) [bump 3] (4, 3) := ⟨rfl, _, rfl, rfl⟩

/-- The straight steering method keeps the level of its first configuration. -/
example : (compute exS .straight (some (exCell .equality)) [bump 3] (0, 3)).map (fun p => p.eval exS 2) = [some (2, 3)] := by decide

/-- The code violates C157: between two configurations that satisfy the constraint, the paths of Dubins, Snibud and the kinodynamic steering method, and those
of Reeds and Shepp between almost equal poses, return configurations that do not. -/
theorem C157_ignored_counterexample : ∀ m ∈ [Method.dubins, .snibud, .kinodynamic, .reedsShepp true],
    ∃ p ∈ compute exS m (some (exCell .fixed)) [bump 0] (0, 0),
      p.eval exS 0 = some (0, 0) ∧ p.eval exS 4 = some (4, 0) ∧ p.eval exS 2 = some (2, 4) ∧ exS.satisfied (exCell .fixed).rhs (2, 4) = false := by
  intro m hm
  simp only [List.mem_cons, List.not_mem_nil, or_false] at hm
  rcases hm with rfl | rfl | rfl | rfl <;> exact ⟨⟨bump 0, none⟩, by simp [compute], by decide, by decide, by decide, by decide⟩

/-- The code violates C157: between two configurations of a level set, the paths of the steering methods for Hermite curves and splines,
and those of Reeds and Shepp, start from another level set. -/
theorem C157_level_counterexample : ∀ m ∈ [Method.hermite, .spline, .reedsShepp false],
    ∃ p ∈ compute exS m (some (exCell .equality)) [bump 3] (0, 3), p.raw.compute 0 = some (0, 3) ∧ p.eval exS 0 = some (0, 0) := by
  intro m hm
  simp only [List.mem_cons, List.not_mem_nil, or_false] at hm
  rcases hm with rfl | rfl | rfl <;> exact ⟨⟨bump 3, some (exCell .equality)⟩, by simp [compute], by decide, by decide⟩

end Verif.Rhs.Steered
