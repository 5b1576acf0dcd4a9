import Verif.ContinuousValidation.Intervals
import Verif.Validation.Discretized
set_option linter.unusedSectionVars false

/-!
# Continuous validation of a path: progressive and dichotomy (C31, C32)

At each iteration the code evaluates the path at `t` and calls `validateConfiguration`, which either fails or returns an interval around
`t` certified for all the pairs of bodies.  The pairs keep a memory of what they have certified, hence a state `S`:
`query : S → K → Option ((K × K) × S)` (`none` stands for the failure of the evaluation or of the validation).  The query is instantiated
by the model of the pairs of bodies in `BodyPairs.lean`.  An infinite bound of an interval is represented by any
value outside of the time range (the code only compares bounds with parameters of the range).
-/
namespace Verif.CV
open Verif.PathV (Ops Err)
variable {K S C P : Type} [Field K] [LinearOrder K] [IsStrictOrderedRing K]

/-- `first (I, reverse)`: src/continuous-validation/helper.hh:35-37. -/
def ifirst (rev : Bool) (I : K × K) : K := if rev then I.2 else I.1
/-- `second (I, reverse)`: helper.hh:38-40. -/
def isecond (rev : Bool) (I : K × K) : K := ifirst (!rev) I

/-- Outcome of a validation loop: `valid`, the end of the valid part, the parameter of the report, the number of evaluations. -/
structure Res (K : Type) where
  valid : Bool
  last : K
  fail : Option K
  tests : Nat
  deriving DecidableEq, Repr

/-! ## Progressive -/

/-- `reverse ? t <= tmin : t >= tmax`: src/continuous-validation/progressive.cc:101, 118. -/
def reached (rev : Bool) (t T1 : K) : Prop := if rev then t ≤ T1 else T1 ≤ t

instance (rev : Bool) (t T1 : K) : Decidable (reached rev t T1) := by unfold reached; infer_instance

/-- Loop of `Progressive::validateStraightPath`: progressive.cc:102-122. `T1` is the end to reach (`tmax`, or `tmin` if `reverse`).
On failure the loop stops (the update of lines 118-121 is then not observable). -/
def progLoop (query : S → K → Option ((K × K) × S)) (rev : Bool) (T1 : K) : Nat → S → K → K → Nat → Nat → Except Err (Res K)
  | 0, _, _, _, _, _ => .error .outOfFuel
  | fuel + 1, s, t, last, fin, n =>
    if fin < 2 then
      match query s t with
      | none => .ok ⟨false, last, some t, n + 1⟩
      | some (I, s') =>
        if reached rev (isecond rev I) T1 then progLoop query rev T1 fuel s' T1 t (fin + 1) (n + 1)
        else progLoop query rev T1 fuel s' (isecond rev I) t fin (n + 1)
    else .ok ⟨true, last, none, n⟩

/-- `Progressive::validateStraightPath<reverse>`: progressive.cc:78-131; `s` is the state of the pairs after `setPath`.  Returns the
Boolean, the valid part and the parameter of the report. -/
def progressive (O : Ops K C P) (query : S → K → Option ((K × K) × S)) (s : S) (rev : Bool) (fuel : Nat) (p : P) :
    Except Err (Bool × P × Option K × Nat) := do
  let t0 := ifirst rev (O.lo p, O.hi p)
  let T1 := isecond rev (O.lo p, O.hi p)
  let r ← progLoop query rev T1 fuel s t0 t0 (if reached rev t0 T1 then 1 else 0) 0
  if r.valid then .ok (true, p, r.fail, r.tests)
  else do
    let part ← if rev then O.extract p r.last (O.hi p) else O.extract p (O.lo p) r.last
    .ok (false, part, r.fail, r.tests)

/-! ## Specification -/

/-- What is assumed of the query on the range `[a, b]`: an invariant is preserved, an answer contains the tested parameter, and all the
parameters of the range in an answer satisfy `Free`. -/
structure QueryOK (query : S → K → Option ((K × K) × S)) (a b : K) (Inv : S → Prop) (Free : K → Prop) : Prop where
  step : ∀ s t I s', Inv s → a ≤ t → t ≤ b → query s t = some (I, s') →
    Inv s' ∧ I.1 ≤ t ∧ t ≤ I.2 ∧ ∀ u, I.1 ≤ u → u ≤ I.2 → a ≤ u → u ≤ b → Free u

/-- Mirrored query. -/
def mirror (query : S → K → Option ((K × K) × S)) (s : S) (t : K) : Option ((K × K) × S) :=
  (query s (-t)).map (fun r => ((-r.1.2, -r.1.1), r.2))

theorem QueryOK.mirror {query : S → K → Option ((K × K) × S)} {a b : K} {Inv : S → Prop} {Free : K → Prop}
    (h : QueryOK query a b Inv Free) : QueryOK (mirror query) (-b) (-a) Inv (fun t => Free (-t)) := by
  constructor
  intro s t I s' hi h1 h2 hq
  unfold CV.mirror at hq
  cases hq' : query s (-t) with
  | none => rw [hq'] at hq; simp at hq
  | some r =>
    rw [hq'] at hq
    simp at hq
    obtain ⟨rfl, rfl⟩ := hq
    obtain ⟨k1, k2, k3, k4⟩ := h.step s (-t) r.1 r.2 hi (by linarith) (by linarith) hq'
    refine ⟨k1, by simp; linarith, by simp; linarith, ?_⟩
    intro u u1 u2 u3 u4
    simp at u1 u2
    exact k4 (-u) (by linarith) (by linarith) (by linarith) (by linarith)

theorem progLoop_mirror (query : S → K → Option ((K × K) × S)) (T1 : K) (fuel : Nat) (s : S) (t last : K) (fin n : Nat) :
    progLoop query true T1 fuel s t last fin n =
      (progLoop (mirror query) false (-T1) fuel s (-t) (-last) fin n).map
        (fun r => ⟨r.valid, -r.last, r.fail.map (fun x => -x), r.tests⟩) := by
  induction fuel generalizing s t last fin n with
  | zero => rfl
  | succ fuel ih =>
    unfold progLoop
    by_cases hf : fin < 2
    · rw [if_pos hf, if_pos hf]
      simp only [mirror, neg_neg]
      cases hq : query s t with
      | none => simp [Except.map]
      | some r =>
        obtain ⟨I, s'⟩ := r
        simp only [Option.map_some, isecond, ifirst, reached, Bool.not_true, Bool.not_false, if_true, Bool.false_eq_true, if_false,
          neg_le_neg_iff]
        split
        · rw [ih]
        · rw [ih]
    · rw [if_neg hf, if_neg hf]
      simp [Except.map]

/-- Invariant of the forward loop: everything between `a` and `t` is free, as well as `last`. -/
structure PInv (Free : K → Prop) (a b t last : K) (fin : Nat) : Prop where
  le1 : a ≤ last
  le2 : last ≤ t
  le3 : t ≤ b
  st : (t = a ∧ last = a ∧ (fin = 0 ∨ fin = 1 ∧ a = b)) ∨ ((∀ u, a ≤ u → u ≤ t → Free u) ∧ (1 ≤ fin → t = b))

theorem progLoop_spec (query : S → K → Option ((K × K) × S)) (a b : K) (Inv : S → Prop) (Free : K → Prop)
    (hq : QueryOK query a b Inv Free) (fuel : Nat) (s : S) (t last : K) (fin n : Nat) (r : Res K) (hinv : Inv s)
    (hp : PInv Free a b t last fin) (hr : progLoop query false b fuel s t last fin n = .ok r) :
    (r.valid = true → r.fail = none ∧ ∀ u, a ≤ u → u ≤ b → Free u) ∧
    (r.valid = false → ∃ tf, r.fail = some tf ∧ a ≤ r.last ∧ r.last ≤ tf ∧ tf ≤ b ∧ (∃ s', Inv s' ∧ query s' tf = none) ∧
      ((tf = a ∧ r.last = a) ∨ ∀ u, a ≤ u → u ≤ tf → Free u)) := by
  induction fuel generalizing s t last fin n with
  | zero => simp [progLoop] at hr
  | succ fuel ih =>
    unfold progLoop at hr
    by_cases hf : fin < 2
    · rw [if_pos hf] at hr
      cases hqt : query s t with
      | none =>
        rw [hqt] at hr
        obtain rfl := Except.ok.inj hr
        refine ⟨by simp, fun _ => ⟨t, rfl, hp.le1, hp.le2, hp.le3, ⟨s, hinv, hqt⟩, ?_⟩⟩
        rcases hp.st with ⟨h1, h2, -⟩ | ⟨h1, -⟩
        · exact Or.inl ⟨h1, h2⟩
        · exact Or.inr h1
      | some x =>
        obtain ⟨I, s'⟩ := x
        rw [hqt] at hr
        simp only [isecond, ifirst, Bool.not_false, if_true, reached, Bool.false_eq_true, if_false] at hr
        obtain ⟨k1, k2, k3, k4⟩ := hq.step s t I s' hinv (le_trans hp.le1 hp.le2) hp.le3 hqt
        have hfree : ∀ c, c ≤ b → c ≤ I.2 → ∀ u, a ≤ u → u ≤ c → Free u := by
          intro c hcb hcI u hu1 hu2
          by_cases hut : u < t
          · rcases hp.st with ⟨h1, -, -⟩ | ⟨h1, -⟩
            · exact absurd hu1 (by rw [← h1]; exact not_le.2 hut)
            · exact h1 u hu1 (le_of_lt hut)
          · push Not at hut
            exact k4 u (le_trans k2 hut) (le_trans hu2 hcI) hu1 (le_trans hu2 hcb)
        have hat : a ≤ t := le_trans hp.le1 hp.le2
        by_cases hb : b ≤ I.2
        · rw [if_pos hb] at hr
          exact ih s' b t (fin + 1) (n + 1) k1
            ⟨hat, hp.le3, le_rfl, Or.inr ⟨hfree b le_rfl hb, fun _ => rfl⟩⟩ hr
        · rw [if_neg hb] at hr
          push Not at hb
          have hfin : fin = 0 := by
            rcases hp.st with ⟨h1, -, h3 | ⟨-, h3⟩⟩ | ⟨-, h3⟩
            · exact h3
            · exfalso; rw [h1] at k3; rw [← h3] at hb; exact absurd k3 (not_le.2 hb)
            · by_contra hne
              have := h3 (by omega)
              rw [this] at k3
              exact absurd k3 (not_le.2 hb)
          exact ih s' I.2 t fin (n + 1) k1
            ⟨hat, k3, le_of_lt hb, Or.inr ⟨hfree I.2 (le_of_lt hb) le_rfl, by omega⟩⟩ hr
    · rw [if_neg hf] at hr
      obtain rfl := Except.ok.inj hr
      refine ⟨fun _ => ⟨rfl, ?_⟩, by simp⟩
      rcases hp.st with ⟨-, -, h | ⟨h, -⟩⟩ | ⟨h1, h2⟩
      · omega
      · omega
      · rw [h2 (by omega)] at h1
        exact h1

/-- Termination: if every answer to the query goes at least `δ` beyond `t` (or reaches the end), the loop ends. -/
theorem progLoop_bound (query : S → K → Option ((K × K) × S)) (a b δ : K) (hδ : 0 < δ) (Inv : S → Prop)
    (hq : ∀ s t I s', Inv s → a ≤ t → t ≤ b → query s t = some (I, s') → Inv s' ∧ (t + δ ≤ I.2 ∨ b ≤ I.2))
    (m fuel : Nat) (s : S) (hs : Inv s) (t last : K) (fin n : Nat) (hat : a ≤ t) (htb : t ≤ b)
    (hm : (fin = 0 ∧ b - t ≤ m * δ ∧ m + 2 < fuel) ∨ (fin = 1 ∧ t = b ∧ 1 < fuel) ∨ (fin = 2 ∧ 0 < fuel)) :
    ∃ r, progLoop query false b fuel s t last fin n = .ok r ∧ r.tests ≤ n + m + 2 := by
  induction fuel generalizing s t last fin n m with
  | zero => omega
  | succ fuel ih =>
    unfold progLoop
    rcases hm with ⟨rfl, hm, hfu⟩ | ⟨rfl, rfl, hfu⟩ | ⟨rfl, -⟩
    · rw [if_pos (by decide : 0 < 2)]
      cases hqt : query s t with
      | none => exact ⟨_, rfl, by simp; omega⟩
      | some x =>
        obtain ⟨I, s'⟩ := x
        simp only [isecond, ifirst, Bool.not_false, if_true, reached, Bool.false_eq_true, if_false]
        by_cases hb : b ≤ I.2
        · rw [if_pos hb]
          cases fuel with
          | zero => omega
          | succ fuel' =>
            unfold progLoop
            rw [if_pos (by decide : 0 + 1 < 2)]
            cases hqb : query s' b with
            | none => exact ⟨_, rfl, by simp⟩
            | some y =>
              obtain ⟨J, s''⟩ := y
              simp only [isecond, ifirst, Bool.not_false, if_true, reached, Bool.false_eq_true, if_false]
              have hJ : b ≤ J.2 := by
                rcases (hq s' b J s'' (hq s t I s' hs hat htb hqt).1 (le_trans hat htb) le_rfl hqb).2 with h | h
                · linarith
                · exact h
              rw [if_pos hJ]
              cases fuel' with
              | zero => omega
              | succ f =>
                unfold progLoop
                exact ⟨_, rfl, by simp⟩
        · rw [if_neg hb]
          have hI : t + δ ≤ I.2 := (hq s t I s' hs hat htb hqt).2.resolve_right hb
          push Not at hb
          cases m with
          | zero => exfalso; simp at hm; linarith
          | succ k =>
            have : b - I.2 ≤ k * δ := by push_cast at hm; linarith
            obtain ⟨r, hr, hn⟩ := ih k s' (hq s t I s' hs hat htb hqt).1 I.2 t 0 (n + 1) (by linarith) (le_of_lt hb) (Or.inl ⟨rfl, this, by omega⟩)
            exact ⟨r, hr, by omega⟩
    · rw [if_pos (by decide : 1 < 2)]
      cases hqt : query s t with
      | none => exact ⟨_, rfl, by simp; omega⟩
      | some x =>
        obtain ⟨I, s'⟩ := x
        simp only [isecond, ifirst, Bool.not_false, if_true, reached, Bool.false_eq_true, if_false]
        have hJ : t ≤ I.2 := by
          rcases (hq s t I s' hs hat le_rfl hqt).2 with h | h
          · linarith
          · exact h
        rw [if_pos hJ]
        cases fuel with
        | zero => omega
        | succ f =>
          unfold progLoop
          exact ⟨_, rfl, by simp; omega⟩
    · rw [if_neg (by decide)]
      exact ⟨_, rfl, by simp; omega⟩

theorem PInv.init (Free : K → Prop) (a b : K) (hab : a ≤ b) : PInv Free a b a a (if b ≤ a then 1 else 0) := by
  refine ⟨le_rfl, le_rfl, hab, Or.inl ⟨rfl, rfl, ?_⟩⟩
  split
  · rename_i h; exact Or.inr ⟨rfl, le_antisymm hab h⟩
  · exact Or.inl rfl

/-! ## Properties of the progressive validation -/

/-- C31, acceptance: if the progressive validation returns true (in any direction) the path is returned whole and every parameter of its
time range is in a certified interval. -/
theorem C31_valid (O : Ops K C P) (query : S → K → Option ((K × K) × S)) (s : S) (rev : Bool) (fuel : Nat) (p : P)
    (hp : O.lo p ≤ O.hi p) (Inv : S → Prop) (Free : K → Prop) (hq : QueryOK query (O.lo p) (O.hi p) Inv Free) (hs : Inv s)
    (vp : P) (rep : Option K) (n : Nat) (hr : progressive O query s rev fuel p = .ok (true, vp, rep, n)) :
    vp = p ∧ rep = none ∧ ∀ t, O.lo p ≤ t → t ≤ O.hi p → Free t := by
  cases rev with
  | false =>
    simp only [progressive, ifirst, isecond, reached, Bool.not_false, if_true, Bool.false_eq_true, if_false] at hr
    cases hl : progLoop query false (O.hi p) fuel s (O.lo p) (O.lo p) (if O.hi p ≤ O.lo p then 1 else 0) 0 with
    | error e => rw [hl] at hr; simp [bind, Except.bind] at hr
    | ok r =>
      rw [hl] at hr
      simp only [bind, Except.bind] at hr
      have sp := progLoop_spec query _ _ Inv Free hq fuel s _ _ _ 0 r hs (PInv.init Free _ _ hp) hl
      cases hv : r.valid with
      | true =>
        rw [hv] at hr
        simp at hr
        obtain ⟨h1, h2⟩ := sp.1 hv
        exact ⟨hr.1.symm, hr.2.1 ▸ h1, h2⟩
      | false =>
        rw [hv] at hr
        simp only [Bool.false_eq_true, if_false] at hr
        cases he : O.extract p (O.lo p) r.last with
        | error e => rw [he] at hr; simp at hr
        | ok q => rw [he] at hr; simp at hr
  | true =>
    simp only [progressive, ifirst, isecond, reached, Bool.not_true, if_true, Bool.false_eq_true, if_false] at hr
    rw [progLoop_mirror] at hr
    cases hl : progLoop (mirror query) false (-O.lo p) fuel s (-O.hi p) (-O.hi p) (if O.hi p ≤ O.lo p then 1 else 0) 0 with
    | error e => rw [hl] at hr; simp [bind, Except.bind, Except.map] at hr
    | ok r =>
      rw [hl] at hr
      simp only [bind, Except.bind, Except.map] at hr
      have hi := PInv.init (fun t => Free (-t)) (-O.hi p) (-O.lo p) (by linarith)
      simp only [neg_le_neg_iff] at hi
      have sp := progLoop_spec (mirror query) _ _ Inv _ hq.mirror fuel s _ _ _ 0 r hs hi hl
      cases hv : r.valid with
      | true =>
        rw [hv] at hr
        simp at hr
        obtain ⟨h1, h2⟩ := sp.1 hv
        rw [h1] at hr
        refine ⟨hr.1.symm, by simpa using hr.2.1.symm, fun t t1 t2 => ?_⟩
        simpa using h2 (-t) (by linarith) (by linarith)
      | false =>
        rw [hv] at hr
        simp only [Bool.false_eq_true, if_false] at hr
        cases he : O.extract p (-r.last) (O.hi p) with
        | error e => rw [he] at hr; simp at hr
        | ok q => rw [he] at hr; simp at hr

/-- C31, rejection: if it returns false, the reported parameter `tf` is one at which the query failed; the part returned goes from the
starting end to a parameter `tl` not after `tf`; either `tf` is the starting end itself and the part is reduced to it, or all the
parameters of the part (and up to `tf`) are in certified intervals. -/
theorem C31_fail (O : Ops K C P) (query : S → K → Option ((K × K) × S)) (s : S) (rev : Bool) (fuel : Nat) (p : P)
    (hp : O.lo p ≤ O.hi p) (Inv : S → Prop) (Free : K → Prop) (hq : QueryOK query (O.lo p) (O.hi p) Inv Free) (hs : Inv s)
    (vp : P) (rep : Option K) (n : Nat) (hr : progressive O query s rev fuel p = .ok (false, vp, rep, n)) :
    ∃ tf tl, rep = some tf ∧ O.lo p ≤ tf ∧ tf ≤ O.hi p ∧ (∃ s', Inv s' ∧ query s' tf = none) ∧
      if rev then O.extract p tl (O.hi p) = .ok vp ∧ tf ≤ tl ∧ tl ≤ O.hi p ∧
        ((tf = O.hi p ∧ tl = O.hi p) ∨ ∀ t, tf ≤ t → t ≤ O.hi p → Free t)
      else O.extract p (O.lo p) tl = .ok vp ∧ O.lo p ≤ tl ∧ tl ≤ tf ∧
        ((tf = O.lo p ∧ tl = O.lo p) ∨ ∀ t, O.lo p ≤ t → t ≤ tf → Free t) := by
  cases rev with
  | false =>
    simp only [progressive, ifirst, isecond, reached, Bool.not_false, if_true, Bool.false_eq_true, if_false] at hr ⊢
    cases hl : progLoop query false (O.hi p) fuel s (O.lo p) (O.lo p) (if O.hi p ≤ O.lo p then 1 else 0) 0 with
    | error e => rw [hl] at hr; simp [bind, Except.bind] at hr
    | ok r =>
      rw [hl] at hr
      simp only [bind, Except.bind] at hr
      have sp := progLoop_spec query _ _ Inv Free hq fuel s _ _ _ 0 r hs (PInv.init Free _ _ hp) hl
      cases hv : r.valid with
      | true => rw [hv] at hr; simp at hr
      | false =>
        rw [hv] at hr
        simp only [Bool.false_eq_true, if_false] at hr
        cases he : O.extract p (O.lo p) r.last with
        | error e => rw [he] at hr; simp at hr
        | ok q =>
          rw [he] at hr
          simp at hr
          obtain ⟨rfl, rfl, -⟩ := hr
          obtain ⟨tf, h1, h2, h3, h4, h5, h6⟩ := sp.2 hv
          exact ⟨tf, r.last, h1, le_trans h2 h3, h4, h5, he, h2, h3, h6⟩
  | true =>
    simp only [progressive, ifirst, isecond, reached, Bool.not_true, if_true, Bool.false_eq_true, if_false] at hr ⊢
    rw [progLoop_mirror] at hr
    cases hl : progLoop (mirror query) false (-O.lo p) fuel s (-O.hi p) (-O.hi p) (if O.hi p ≤ O.lo p then 1 else 0) 0 with
    | error e => rw [hl] at hr; simp [bind, Except.bind, Except.map] at hr
    | ok r =>
      rw [hl] at hr
      simp only [bind, Except.bind, Except.map] at hr
      have hi := PInv.init (fun t => Free (-t)) (-O.hi p) (-O.lo p) (by linarith)
      simp only [neg_le_neg_iff] at hi
      have sp := progLoop_spec (mirror query) _ _ Inv _ hq.mirror fuel s _ _ _ 0 r hs hi hl
      cases hv : r.valid with
      | true => rw [hv] at hr; simp at hr
      | false =>
        rw [hv] at hr
        simp only [Bool.false_eq_true, if_false] at hr
        cases he : O.extract p (-r.last) (O.hi p) with
        | error e => rw [he] at hr; simp at hr
        | ok q =>
          rw [he] at hr
          simp at hr
          obtain ⟨rfl, rfl, -⟩ := hr
          obtain ⟨tf, h1, h2, h3, h4, ⟨s', h5, h5'⟩, h6⟩ := sp.2 hv
          refine ⟨-tf, -r.last, by simp [h1], by linarith, by linarith, ⟨s', h5, ?_⟩, he, by linarith, by linarith, ?_⟩
          · simpa [mirror] using h5'
          · rcases h6 with ⟨h6, h7⟩ | h6
            · exact Or.inl ⟨by linarith, by linarith⟩
            · right
              intro t t1 t2
              simpa using h6 (-t) (by linarith) (by linarith)

/-- C31, termination: if each answer extends at least `δ > 0` on the side of the end to reach (or contains that end), the number of
evaluations is at most `m + 2` where `m δ` is at least the length of the path. -/
theorem C31_terminates (O : Ops K C P) (query : S → K → Option ((K × K) × S)) (s : S) (rev : Bool) (fuel m : Nat) (p : P)
    (hp : O.lo p ≤ O.hi p) (δ : K) (hδ : 0 < δ) (Inv : S → Prop) (hs : Inv s)
    (hq : ∀ s t I s', Inv s → O.lo p ≤ t → t ≤ O.hi p → query s t = some (I, s') →
      Inv s' ∧ if rev then I.1 ≤ t - δ ∨ I.1 ≤ O.lo p else t + δ ≤ I.2 ∨ O.hi p ≤ I.2)
    (hm : O.len p ≤ m * δ) (hfuel : m + 3 ≤ fuel) (hex : ∀ a b, ∃ q, O.extract p a b = .ok q) :
    ∃ v vp rep n, progressive O query s rev fuel p = .ok (v, vp, rep, n) ∧ n ≤ m + 2 := by
  have hlen : O.hi p - O.lo p ≤ m * δ := hm
  cases rev with
  | false =>
    simp only [Bool.false_eq_true, if_false] at hq
    obtain ⟨r, hr, hn⟩ := progLoop_bound query (O.lo p) (O.hi p) δ hδ Inv hq m fuel s hs (O.lo p) (O.lo p)
      (if O.hi p ≤ O.lo p then 1 else 0) 0 le_rfl hp (by
        split
        · rename_i h; exact Or.inr (Or.inl ⟨rfl, le_antisymm hp h, by omega⟩)
        · exact Or.inl ⟨rfl, hlen, by omega⟩)
    simp only [progressive, ifirst, isecond, reached, Bool.not_false, if_true, Bool.false_eq_true, if_false, hr, bind, Except.bind]
    cases hv : r.valid with
    | true => exact ⟨_, _, _, _, rfl, by omega⟩
    | false =>
      obtain ⟨q, hq⟩ := hex (O.lo p) r.last
      simp only [hq]
      exact ⟨_, _, _, _, rfl, by omega⟩
  | true =>
    simp only [if_true] at hq
    obtain ⟨r, hr, hn⟩ := progLoop_bound (mirror query) (-O.hi p) (-O.lo p) δ hδ Inv (by
        intro s t I s' h0 h1 h2 h3
        unfold mirror at h3
        cases h4 : query s (-t) with
        | none => rw [h4] at h3; simp at h3
        | some x =>
          rw [h4] at h3
          simp at h3
          obtain ⟨rfl, rfl⟩ := h3
          obtain ⟨h6, h5⟩ := hq s (-t) x.1 x.2 h0 (by linarith) (by linarith) h4
          refine ⟨h6, ?_⟩
          rcases h5 with h5 | h5
          · left; simp; linarith
          · right; simp; linarith) m fuel s hs (-O.hi p) (-O.hi p)
      (if O.hi p ≤ O.lo p then 1 else 0) 0 le_rfl (by linarith) (by
        split
        · rename_i h; exact Or.inr (Or.inl ⟨rfl, by linarith, by omega⟩)
        · exact Or.inl ⟨rfl, by linarith, by omega⟩)
    simp only [progressive, ifirst, isecond, reached, Bool.not_true, if_true, Bool.false_eq_true, if_false]
    rw [progLoop_mirror, hr]
    simp only [bind, Except.bind, Except.map]
    cases hv : r.valid with
    | true => exact ⟨_, _, _, _, rfl, by omega⟩
    | false =>
      obtain ⟨q, hq⟩ := hex (-r.last) (O.hi p)
      simp only [hq]
      exact ⟨_, _, _, _, rfl, by omega⟩

end Verif.CV
