import Verif.Validation.Discretized
set_option linter.unusedSectionVars false

/-!
# Composite validations (C36, C37, C63)

Member validations are arbitrary functions (virtual methods of objects the code does not own).
-/
namespace Verif.Validation
open Verif.PathV

/-! ## Configuration validations -/

section Config
variable {C R : Type}

/-- `ConfigValidations::validate`: src/config-validations.cc:40-49.  A member returns `none` when it accepts and its report otherwise.
The result is the report (if any) and the number of members called. -/
def configValidate (q : C) : List (C → Option R) → Option R × Nat
  | [] => (none, 0)
  | v :: vs => match v q with
    | some r => (some r, 1)
    | none => ((configValidate q vs).1, (configValidate q vs).2 + 1)

/-- C37: accepted iff every member accepts. -/
theorem C37_conjunction (q : C) (vs : List (C → Option R)) :
    (configValidate q vs).1 = none ↔ ∀ v ∈ vs, v q = none := by
  induction vs with
  | nil => simp [configValidate]
  | cons v vs ih =>
    unfold configValidate
    cases hv : v q with
    | none => simp [hv, ih]
    | some r => simp [hv]

/-- C37: on rejection the report is that of the first member that rejects, and the members after it are not called. -/
theorem C37_first_report (q : C) (vs : List (C → Option R)) (r : R) (n : Nat) (h : configValidate q vs = (some r, n)) :
    ∃ pre v post, vs = pre ++ v :: post ∧ (∀ u ∈ pre, u q = none) ∧ v q = some r ∧ n = pre.length + 1 := by
  induction vs generalizing n with
  | nil => simp [configValidate] at h
  | cons v vs ih =>
    unfold configValidate at h
    cases hv : v q with
    | some r' =>
      simp [hv] at h
      exact ⟨[], v, vs, rfl, by simp, by rw [hv, h.1], by simp [← h.2]⟩
    | none =>
      rw [hv] at h
      simp only [Prod.mk.injEq] at h
      obtain ⟨pre, w, post, e, h1, h2, h3⟩ := ih (configValidate q vs).2 (Prod.ext h.1 rfl)
      refine ⟨v :: pre, w, post, by simp [e], ?_, h2, by simp [← h.2, h3]⟩
      intro u hu
      rcases List.mem_cons.1 hu with rfl | hu
      exacts [hv, h1 u hu]

example : configValidate (3 : Nat) [fun q => if q < 5 then none else some "a", fun q => if q < 2 then none else some "b",
    fun _ => some "c"] = (some "b", 2) := by decide

end Config

section Bounds
variable {K : Type} [LinearOrder K]

/-- Report of the joint bound validation: whether it is about the extra configuration space, rank, lower bound, upper bound, value. -/
structure BoundReport (K : Type) where
  extra : Bool
  rank : Nat
  lower : K
  upper : K
  value : K

/-- First loop of `JointBoundValidation::validate`: src/joint-bound-validation.cc:49-63, rank by rank from `i`; arguments: lower limits,
upper limits and configuration from rank `i` on. Vectors of different sizes are an out of range access (Eigen assertion). -/
def boundLoop (extra : Bool) : Nat → List K → List K → List K → Option (BoundReport K)
  | i, l :: ls, u :: us, x :: xs => if u < x ∨ l > x then some ⟨extra, i, l, u, x⟩ else boundLoop extra (i + 1) ls us xs
  | _, _, _, _ => none

/-- `JointBoundValidation::validate`: joint-bound-validation.cc:45-80.  `lo`, `up`: position limits of the model (size `nq`); `elo`, `eup`:
those of the extra configuration space.  The configuration has size `nq + dimension`. -/
def jointBound (lo up elo eup : List K) (q : List K) : Option (BoundReport K) :=
  match boundLoop false 0 lo up q with
  | some r => some r
  | none => boundLoop true 0 elo eup (q.drop lo.length)

/-- Coordinate `i` of `q` is within the closed bounds. -/
def Within (lo up q : List K) : Prop := ∀ (i : Nat) (l u x : K), lo[i]? = some l → up[i]? = some u → q[i]? = some x → l ≤ x ∧ x ≤ u

theorem within_cons (l u x : K) (ls us xs : List K) :
    Within (l :: ls) (u :: us) (x :: xs) ↔ (l ≤ x ∧ x ≤ u) ∧ Within ls us xs := by
  constructor
  · intro h
    refine ⟨h 0 l u x rfl rfl rfl, fun i l' u' x' h1 h2 h3 => h (i + 1) l' u' x' (by simpa) (by simpa) (by simpa)⟩
  · rintro ⟨h1, h2⟩ i l' u' x' a b c
    cases i with
    | zero => simp at a b c; subst a b c; exact h1
    | succ i => exact h2 i l' u' x' (by simpa using a) (by simpa using b) (by simpa using c)

theorem boundLoop_none (extra : Bool) (i : Nat) (lo up q : List K) :
    boundLoop extra i lo up q = none ↔ Within lo up q := by
  induction lo generalizing i up q with
  | nil => simp [boundLoop, Within]
  | cons l ls ih =>
    cases up with
    | nil => simp [boundLoop, Within]
    | cons u us =>
      cases q with
      | nil => simp [boundLoop, Within]
      | cons x xs =>
        rw [within_cons, boundLoop]
        by_cases h : u < x ∨ l > x
        · rw [if_pos h]
          simp only [reduceCtorEq, false_iff]
          rintro ⟨⟨h1, h2⟩, -⟩
          rcases h with h | h
          · exact absurd h2 (not_le.2 h)
          · exact absurd h1 (not_le.2 h)
        · rw [if_neg h, ih]
          push Not at h
          exact ⟨fun hw => ⟨⟨h.2, h.1⟩, hw⟩, fun hw => hw.2⟩

/-- The report names the first coordinate out of bounds. -/
theorem boundLoop_some (extra : Bool) (i : Nat) (lo up q : List K) (r : BoundReport K) (h : boundLoop extra i lo up q = some r) :
    r.extra = extra ∧ ∃ k, r.rank = i + k ∧ lo[k]? = some r.lower ∧ up[k]? = some r.upper ∧ q[k]? = some r.value ∧
      (r.upper < r.value ∨ r.value < r.lower) ∧ Within (lo.take k) (up.take k) (q.take k) := by
  induction lo generalizing i up q with
  | nil => simp [boundLoop] at h
  | cons l ls ih =>
    cases up with
    | nil => simp [boundLoop] at h
    | cons u us =>
      cases q with
      | nil => simp [boundLoop] at h
      | cons x xs =>
        rw [boundLoop] at h
        by_cases hc : u < x ∨ l > x
        · rw [if_pos hc] at h
          obtain rfl := Option.some.inj h
          exact ⟨rfl, 0, rfl, rfl, rfl, rfl, hc, by simp [Within]⟩
        · rw [if_neg hc] at h
          obtain ⟨h0, k, h1, h2, h3, h4, h5, h6⟩ := ih (i + 1) us xs h
          push Not at hc
          refine ⟨h0, k + 1, by omega, by simpa, by simpa, by simpa, h5, ?_⟩
          simp only [List.take_succ_cons]
          exact (within_cons _ _ _ _ _ _).2 ⟨⟨hc.2, hc.1⟩, h6⟩

/-- C37: the joint bound validation accepts a configuration iff each of its coordinates, including the extra ones, is within its closed
bounds. -/
theorem C37_jointBound (lo up elo eup q qe : List K) (h1 : q.length = lo.length) :
    jointBound lo up elo eup (q ++ qe) = none ↔ Within lo up q ∧ Within elo eup qe := by
  have hq : Within lo up (q ++ qe) ↔ Within lo up q := by
    constructor
    · intro h i l u x a b c
      refine h i l u x a b ?_
      rw [List.getElem?_append_left (List.getElem?_eq_some_iff.1 c).1]
      exact c
    · intro h i l u x a b c
      have hi := (List.getElem?_eq_some_iff.1 a).1
      rw [List.getElem?_append_left (by omega)] at c
      exact h i l u x a b c
  have hd : (q ++ qe).drop lo.length = qe := by rw [← h1]; simp
  unfold jointBound
  rw [hd]
  cases h : boundLoop false 0 lo up (q ++ qe) with
  | none =>
    rw [boundLoop_none, hq] at h
    simp [h, boundLoop_none]
  | some r =>
    have : ¬ Within lo up q := by
      rw [← hq, ← boundLoop_none false 0, h]; simp
    simp [this]

/-- C37: on rejection the report describes a coordinate that is out of its bounds, all coordinates before it being inside. -/
theorem C37_jointBound_report (lo up elo eup q qe : List K) (h1 : q.length = lo.length) (r : BoundReport K)
    (h : jointBound lo up elo eup (q ++ qe) = some r) :
    (r.upper < r.value ∨ r.value < r.lower) ∧
    if r.extra then Within lo up q ∧ elo[r.rank]? = some r.lower ∧ eup[r.rank]? = some r.upper ∧ qe[r.rank]? = some r.value ∧
        Within (elo.take r.rank) (eup.take r.rank) (qe.take r.rank)
    else lo[r.rank]? = some r.lower ∧ up[r.rank]? = some r.upper ∧ q[r.rank]? = some r.value ∧
        Within (lo.take r.rank) (up.take r.rank) (q.take r.rank) := by
  unfold jointBound at h
  have hd : (q ++ qe).drop lo.length = qe := by rw [← h1]; simp
  rw [hd] at h
  cases hb : boundLoop false 0 lo up (q ++ qe) with
  | some r' =>
    rw [hb] at h
    obtain rfl := Option.some.inj h
    obtain ⟨h0, k, hk, a, b, c, d, e⟩ := boundLoop_some _ _ _ _ _ _ hb
    have hk' : r'.rank = k := by omega
    have hlt : k < q.length := by have := (List.getElem?_eq_some_iff.1 a).1; omega
    rw [h0, hk']
    refine ⟨d, ?_⟩
    simp only [Bool.false_eq_true, if_false]
    rw [List.getElem?_append_left hlt] at c
    rw [List.take_append_of_le_length (le_of_lt hlt)] at e
    exact ⟨a, b, c, e⟩
  | none =>
    rw [hb] at h
    simp only at h
    obtain ⟨h0, k, hk, a, b, c, d, e⟩ := boundLoop_some _ _ _ _ _ _ h
    have hk' : r.rank = k := by omega
    have hw : Within lo up q := by
      have hw := (boundLoop_none _ _ _ _ _).1 hb
      intro i l u x a b c
      refine hw i l u x a b ?_
      rw [List.getElem?_append_left (List.getElem?_eq_some_iff.1 c).1]
      exact c
    rw [h0, hk']
    exact ⟨d, by simpa using ⟨hw, a, b, c, e⟩⟩

example : jointBound [0, 0] [1, 2] [5] [7] ([1, 0] ++ [5] : List Int) = none ∧
    (jointBound [0, 0] [1, 2] [5] [7] ([1, 0] ++ [8] : List Int)).map (·.rank) = some 0 ∧
    (jointBound [0, 0] [1, 2] [5] [7] ([1, 3] ++ [8] : List Int)).map (fun r => (r.extra, r.rank)) = some (false, 1) := by decide

end Bounds

/-! ## Collision validation of a configuration -/

section Collision
variable {Pair Req : Type}

/-- `ObstacleUser::collide`: src/obstacle-user.cc:42-52; the index of the first colliding pair. -/
def collideFirst (collide : Pair → Req → Bool) : Nat → List (Pair × Req) → Option Nat
  | _, [] => none
  | i, pr :: l => if collide pr.1 pr.2 then some i else collideFirst collide (i + 1) l

/-- The loop over the remaining pairs when all contacts are computed: src/collision-validation.cc:72-84. -/
def collideRest (collide : Pair → Req → Bool) (l : List (Pair × Req)) : List Pair :=
  l.filterMap (fun pr => if collide pr.1 pr.2 then some pr.1 else none)

/-- `CollisionValidation::validate`: collision-validation.cc:48-95.  `c`, `p`: active and parameterized pairs with their requests.
`none` is acceptance; the report is the list of the pairs reported (one pair unless all contacts are computed).  Contact points and
the kinematics (`collide` is the collision test at the configuration) are not modelled. -/
def collisionValidate (collide : Pair → Req → Bool) (checkParam allContacts : Bool) (c p : List (Pair × Req)) : Option (List Pair) :=
  let report := fun (l : List (Pair × Req)) (i : Nat) =>
    match l[i]? with
    | none => []
    | some pr => if allContacts then pr.1 :: collideRest collide (l.drop (i + 1)) else [pr.1]
  match collideFirst collide 0 c with
  | some i => some (report c i)
  | none => if checkParam then
      match collideFirst collide 0 p with
      | some i => some (report p i)
      | none => none
    else none

theorem collideFirst_none (collide : Pair → Req → Bool) (i : Nat) (l : List (Pair × Req)) :
    collideFirst collide i l = none ↔ ∀ pr ∈ l, collide pr.1 pr.2 = false := by
  induction l generalizing i with
  | nil => simp [collideFirst]
  | cons pr l ih =>
    unfold collideFirst
    cases h : collide pr.1 pr.2 <;> simp [h, ih]

theorem collideFirst_some (collide : Pair → Req → Bool) (i j : Nat) (l : List (Pair × Req)) (h : collideFirst collide i l = some j) :
    ∃ pre pr post, l = pre ++ pr :: post ∧ j = i + pre.length ∧ collide pr.1 pr.2 = true ∧ ∀ x ∈ pre, collide x.1 x.2 = false := by
  induction l generalizing i with
  | nil => simp [collideFirst] at h
  | cons pr l ih =>
    unfold collideFirst at h
    cases hc : collide pr.1 pr.2 with
    | true =>
      simp [hc] at h
      exact ⟨[], pr, l, rfl, by simp [h], hc, by simp⟩
    | false =>
      simp only [hc, Bool.false_eq_true, if_false] at h
      obtain ⟨pre, x, post, e, h1, h2, h3⟩ := ih (i + 1) h
      refine ⟨pr :: pre, x, post, by simp [e], by simp [h1]; omega, h2, ?_⟩
      intro y hy
      rcases List.mem_cons.1 hy with rfl | hy
      exacts [hc, h3 y hy]

/-- C63: a configuration is accepted iff no active pair collides and, when parameterized pairs are checked, none of those does. -/
theorem C63_verdict (collide : Pair → Req → Bool) (checkParam allContacts : Bool) (c p : List (Pair × Req)) :
    collisionValidate collide checkParam allContacts c p = none ↔
      (∀ pr ∈ c, collide pr.1 pr.2 = false) ∧ (checkParam = true → ∀ pr ∈ p, collide pr.1 pr.2 = false) := by
  unfold collisionValidate
  cases hc : collideFirst collide 0 c with
  | some i =>
    have hn : ¬ ∀ pr ∈ c, collide pr.1 pr.2 = false := by rw [← collideFirst_none collide 0, hc]; simp
    exact ⟨fun h => by simp at h, fun h => absurd h.1 hn⟩
  | none =>
    rw [collideFirst_none] at hc
    cases checkParam with
    | false => exact ⟨fun _ => ⟨hc, by simp⟩, fun _ => by simp⟩
    | true =>
      cases hp : collideFirst collide 0 p with
      | some i =>
        have hn : ¬ ∀ pr ∈ p, collide pr.1 pr.2 = false := by rw [← collideFirst_none collide 0, hp]; simp
        exact ⟨fun h => by simp at h, fun h => absurd (h.2 rfl) hn⟩
      | none =>
        rw [collideFirst_none] at hp
        exact ⟨fun _ => ⟨hc, fun _ => hp⟩, fun _ => by simp⟩

/-- The colliding pairs of a list, in order. -/
def colliding (collide : Pair → Req → Bool) (l : List (Pair × Req)) : List Pair :=
  (l.filter (fun pr => collide pr.1 pr.2)).map (·.1)

theorem collideRest_eq (collide : Pair → Req → Bool) (l : List (Pair × Req)) : collideRest collide l = colliding collide l := by
  unfold collideRest colliding
  induction l with
  | nil => rfl
  | cons pr l ih =>
    cases h : collide pr.1 pr.2 <;> simp [h] <;> simpa using ih

/-- C63: on rejection the reported pairs are the colliding pairs of the active list (of the parameterized list when no active pair
collides), all of them when all contacts are requested, otherwise only the first. -/
theorem C63_report (collide : Pair → Req → Bool) (checkParam allContacts : Bool) (c p : List (Pair × Req)) (rep : List Pair)
    (h : collisionValidate collide checkParam allContacts c p = some rep) :
    rep ≠ [] ∧ rep = (if allContacts then id else List.take 1)
      (colliding collide (if (colliding collide c).isEmpty then p else c)) := by
  have key : ∀ (l : List (Pair × Req)) (i : Nat), collideFirst collide 0 l = some i →
      (match l[i]? with
        | none => []
        | some pr => if allContacts then pr.1 :: collideRest collide (l.drop (i + 1)) else [pr.1]) ≠ [] ∧
      colliding collide l ≠ [] ∧
      (match l[i]? with
        | none => []
        | some pr => if allContacts then pr.1 :: collideRest collide (l.drop (i + 1)) else [pr.1]) =
        (if allContacts then id else List.take 1) (colliding collide l) := by
    intro l i hl
    obtain ⟨pre, pr, post, rfl, hi, h1, h2⟩ := collideFirst_some _ _ _ _ hl
    have hi : i = pre.length := by omega
    subst hi
    have hpre : pre.filter (fun pr => collide pr.1 pr.2) = [] := by
      rw [List.filter_eq_nil_iff]; intro x hx; simp [h2 x hx]
    have hcol : colliding collide (pre ++ pr :: post) = pr.1 :: colliding collide post := by
      unfold colliding
      rw [List.filter_append, hpre]
      simp [h1]
    have hdrop : (pre ++ pr :: post).drop (pre.length + 1) = post := by
      rw [List.drop_append]; simp
    rw [hcol, hdrop, collideRest_eq]
    simp only [List.getElem?_append_right (le_refl _), Nat.sub_self, List.getElem?_cons_zero]
    cases allContacts <;> simp
  unfold collisionValidate at h
  cases hc : collideFirst collide 0 c with
  | some i =>
    rw [hc] at h
    obtain ⟨k1, k2, k3⟩ := key c i hc
    have h' := Option.some.inj h
    rw [← h']
    refine ⟨k1, ?_⟩
    rw [if_neg (by simpa using k2 : ¬ (colliding collide c).isEmpty = true)]
    exact k3
  | none =>
    have hce : colliding collide c = [] := by
      rw [collideFirst_none] at hc
      unfold colliding
      rw [List.map_eq_nil_iff, List.filter_eq_nil_iff]
      intro x hx; simp [hc x hx]
    rw [hc] at h
    simp only at h
    cases checkParam with
    | false => simp at h
    | true =>
      simp only [if_true] at h
      cases hp : collideFirst collide 0 p with
      | none => rw [hp] at h; simp at h
      | some i =>
        rw [hp] at h
        obtain ⟨k1, k2, k3⟩ := key p i hp
        have h' := Option.some.inj h
        rw [← h']
        refine ⟨k1, ?_⟩
        rw [if_pos (by simp [hce] : (colliding collide c).isEmpty = true)]
        exact k3

example : collisionValidate (fun (a : Nat) (b : Nat) => a < b) true true [(3, 1), (2, 2)] [(1, 2), (5, 2), (0, 3)] = some [1, 0] := by
  decide

end Collision

/-! ## Path validations -/

section PathVal
variable {K P : Type} [LinearOrder K]

/-- Outcome of a member: `none` when the path is valid (the valid part is then not used), otherwise the valid part and the parameter of
the report. -/
abbrev Member (K P : Type) := P → Bool → Option (P × K)

/-- The loop of `PathValidations::validate`: src/path-validations.cc:60-71. State: `tempPath`, `lastValidTime`, `result`. -/
def pathLoop (rev : Bool) : List (Member K P) → P → K → Bool → P × K × Bool
  | [], temp, last, res => (temp, last, res)
  | m :: ms, temp, last, res => match m temp rev with
    | none => pathLoop rev ms temp last res
    | some (part, t) => if t < last then pathLoop rev ms part t false else pathLoop rev ms temp last false

/-- `PathValidations::validate`: path-validations.cc:50-76.  `hi` is `timeRange().second`; `reportNull` tells whether the report pointer
given by the caller is null (line 74 dereferences it).  Returns the Boolean, the valid part, the parameter of the report. -/
def pathValidate (hi : P → K) (ms : List (Member K P)) (p : P) (rev reportNull : Bool) : Option (Bool × P × K) :=
  let r := pathLoop rev ms p (hi p) true
  if reportNull then none else some (r.2.2, r.1, r.2.1)

theorem pathLoop_false (rev : Bool) (ms : List (Member K P)) (temp : P) (last : K) :
    (pathLoop rev ms temp last false).2.2 = false := by
  induction ms generalizing temp last with
  | nil => rfl
  | cons m ms ih =>
    unfold pathLoop
    split
    · exact ih _ _
    · split <;> exact ih _ _

/-- C36 (verdict): the composite accepts iff every member accepts the path; the path is then returned whole. -/
theorem C36_conjunction (hi : P → K) (ms : List (Member K P)) (p : P) (rev : Bool) :
    ∃ v part t, pathValidate hi ms p rev false = some (v, part, t) ∧ (v = true ↔ ∀ m ∈ ms, m p rev = none) ∧
      (v = true → part = p ∧ t = hi p) := by
  have key : ∀ ms : List (Member K P), ((pathLoop rev ms p (hi p) true).2.2 = true ↔ ∀ m ∈ ms, m p rev = none) ∧
      ((pathLoop rev ms p (hi p) true).2.2 = true → (pathLoop rev ms p (hi p) true).1 = p ∧
        (pathLoop rev ms p (hi p) true).2.1 = hi p) := by
    intro ms
    induction ms with
    | nil => simp [pathLoop]
    | cons m ms ih =>
      unfold pathLoop
      cases hm : m p rev with
      | none => simpa [hm] using ih
      | some x =>
        simp only
        split <;> simp [pathLoop_false, hm]
  exact ⟨_, _, _, rfl, (key ms).1, (key ms).2⟩

/-- What is assumed of a member in the forward direction: it accepts only valid paths; otherwise the part it returns is a sub-path, valid
for it, ending strictly before the reported parameter, itself in the time range.  Validity goes to sub-paths. -/
structure Sound (hi : P → K) (sub : P → P → Prop) (m : Member K P) (V : P → Prop) : Prop where
  accept : ∀ p, m p false = none → V p
  reject : ∀ p part t, m p false = some (part, t) → sub part p ∧ V part ∧ hi part < t ∧ t ≤ hi p
  mono : ∀ p q, sub q p → V p → V q

/-- C36 (valid part, forward): if no member reports a failure exactly at the end of the path, the returned part is a sub-path valid for
every member. Missing: failures at the end parameter and the reverse direction, for which it is false. -/
theorem C36_part_partial (hi : P → K) (sub : P → P → Prop) (hrefl : ∀ p, sub p p)
    (htrans : ∀ p q r, sub p q → sub q r → sub p r) (ms : List (Member K P × (P → Prop)))
    (hs : ∀ m ∈ ms, Sound hi sub m.1 m.2) (p : P) (hend : ∀ m ∈ ms, ∀ part t, m.1 p false = some (part, t) → t < hi p) :
    ∃ v part t, pathValidate hi (ms.map (·.1)) p false false = some (v, part, t) ∧ sub part p ∧ ∀ m ∈ ms, m.2 part := by
  -- the current path is the input, or ends before the last recorded parameter
  have key : ∀ (ms' done : List (Member K P × (P → Prop))) (temp : P) (last : K) (res : Bool), (∀ m ∈ ms', Sound hi sub m.1 m.2) →
      (∀ m ∈ done, Sound hi sub m.1 m.2) → (∀ m ∈ ms', ∀ part t, m.1 p false = some (part, t) → t < hi p) →
      sub temp p → (∀ m ∈ done, m.2 temp) → ((temp = p ∧ last = hi p) ∨ hi temp < last) →
      sub (pathLoop false (ms'.map (·.1)) temp last res).1 p ∧
        ∀ m ∈ done ++ ms', m.2 (pathLoop false (ms'.map (·.1)) temp last res).1 := by
    intro ms'
    induction ms' with
    | nil => intro done temp last res _ _ _ h1 h2 _; simpa [pathLoop] using ⟨h1, fun a b h => h2 (a, b) h⟩
    | cons m ms' ih =>
      intro done temp last res hs hd he h1 h2 h3
      have hm := hs m (by simp)
      simp only [List.map_cons]
      unfold pathLoop
      cases hmt : m.1 temp false with
      | none =>
        have := ih (done ++ [m]) temp last res (fun x hx => hs x (by simp [hx])) ?_ (fun x hx => he x (by simp [hx])) h1 ?_ h3
        · simpa using this
        · intro x hx
          rcases List.mem_append.1 hx with hx | hx
          · exact hd x hx
          · simp at hx; subst hx; exact hm
        · intro x hx
          rcases List.mem_append.1 hx with hx | hx
          · exact h2 x hx
          · simp at hx; subst hx; exact hm.accept _ hmt
      | some y =>
        obtain ⟨part, t⟩ := y
        obtain ⟨r1, r2, r3, r4⟩ := hm.reject _ _ _ hmt
        have hlt : t < last := by
          rcases h3 with ⟨rfl, rfl⟩ | h3
          · exact he m (by simp) part t hmt
          · exact lt_of_le_of_lt r4 h3
        simp only
        rw [if_pos hlt]
        have := ih (done ++ [m]) part t false (fun x hx => hs x (by simp [hx])) ?_ (fun x hx => he x (by simp [hx]))
          (htrans _ _ _ r1 h1) ?_ (Or.inr r3)
        · simpa using this
        · intro x hx
          rcases List.mem_append.1 hx with hx | hx
          · exact hd x hx
          · simp at hx; subst hx; exact hm
        · intro x hx
          rcases List.mem_append.1 hx with hx | hx
          · exact (hd x hx).mono _ _ r1 (h2 x hx)
          · simp at hx; subst hx; exact r2
  have := key ms [] p (hi p) true hs (by simp) hend (hrefl p) (by simp) (Or.inl ⟨rfl, rfl⟩)
  exact ⟨_, _, _, rfl, this.1, by simpa using this.2⟩

/-- A member that accepts the sub-intervals of `[a, b]` only; the returned part stops half a unit before the failure. -/
def segMember (a b : ℚ) : Member ℚ (ℚ × ℚ) := fun p rev =>
  if rev then (if p.1 < a then some ((a + 1 / 2, p.2), a) else none)
  else if b < p.2 then some ((p.1, b - 1 / 2), b) else none

example : pathValidate (·.2) [segMember 0 5, segMember 0 3, segMember 0 4] (0, 6) false false = some (false, (0, 5 / 2), 3) := by
  decide +kernel

example : Sound (·.2) (fun q p : ℚ × ℚ => q.1 = p.1 ∧ q.2 ≤ p.2) (segMember 0 3) (fun p => p.2 ≤ 3) where
  accept p h := by simpa [segMember] using h
  reject p part t h := by
    simp only [segMember, Bool.false_eq_true, if_false, Option.ite_none_right_eq_some, Option.some.injEq, Prod.mk.injEq] at h
    obtain ⟨h, rfl, rfl⟩ := h
    refine ⟨⟨rfl, ?_⟩, ?_, ?_, le_of_lt h⟩ <;> simp <;> linarith
  mono p q h1 h2 := le_trans h1.2 h2

/-- C36, forward: a failure reported exactly at the end of the path is ignored when choosing the valid part: the whole path is returned
although a member rejects it. -/
theorem C36_end_counterexample : ∃ (ms : List (Member ℚ (ℚ × ℚ))) (p : ℚ × ℚ) (t : ℚ),
    pathValidate (·.2) ms p false false = some (false, p, t) ∧ ∃ m ∈ ms, m p false ≠ none :=
  ⟨[fun p _ => if p.2 = 2 then some ((p.1, 1), 2) else none], (0, 2), 2, by decide +kernel,
    fun p _ => if p.2 = 2 then some ((p.1, 1), 2) else none, List.mem_singleton.2 rfl, by decide +kernel⟩

/-- C36, reverse: the part returned by the second member is ignored, the returned part `[3/2, 6]` is rejected by it. -/
theorem C36_reverse_counterexample : ∃ (ms : List (Member ℚ (ℚ × ℚ))) (p part : ℚ × ℚ) (t : ℚ),
    pathValidate (·.2) ms p true false = some (false, part, t) ∧ ∃ m ∈ ms, m part true ≠ none :=
  ⟨[segMember 1 10, segMember 3 10], (0, 6), (3 / 2, 6), 1, by decide +kernel, segMember 3 10, by simp, by decide +kernel⟩

/-- The report given by the caller is dereferenced in all cases, even on success: with the null pointer used by every caller of
`validate` in this library the call has no result. -/
theorem C36_null_report_counterexample (hi : P → K) (ms : List (Member K P)) (p : P) (rev : Bool) :
    pathValidate hi ms p rev true = none := rfl

end PathVal
end Verif.Validation
