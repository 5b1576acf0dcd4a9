import Verif.Projector.Progressive
set_option linter.unusedSectionVars false

/-!
# `pathProjector::RecursiveHermite` (C71)
-/
namespace Verif.Proj
variable {H C K : Type} [Field K] [LinearOrder K] [IsStrictOrderedRing K]

/-- What the projection uses of Hermite paths `H`.
* `len`: `hermiteLength` after `computeHermiteLength`;
* `mid p`: `p->eval (0.5, success)`, `none` when not successful;
* `left p q`, `right p q`: the two halves through `q` (recursive-hermite.cc:222-238: steering method, then velocities at the ends and length);
* `steer`: the steering method; `sat`: `ConstraintSet::isSatisfied`. -/
structure HEnv (H C K : Type) where
  ini : H → C
  fin : H → C
  len : H → K
  mid : H → Option C
  left : H → C → H
  right : H → C → H
  steer : C → C → H
  sat : C → Bool

/-- `recurse`: recursive-hermite.cc:206-257; `acc` is the path vector `proj` that is extended.  `none`: recursion depth above `fuel`. -/
def recurse (E : HEnv H C K) (beta thr : K) : Nat → H → List H → Option (Bool × List H)
  | 0, _, _ => none
  | n + 1, p, acc =>
    if E.len p < thr then some (true, acc ++ [p])
    else match E.mid p with
      | none => some (false, acc)
      | some q =>
        let l := E.left p q
        let r := E.right p q
        let stopThr := beta * E.len p
        let lStop := decide (stopThr < E.len l)
        let rStop := decide (stopThr < E.len r)
        let stop := rStop || lStop
        if lStop = true then some (false, acc)
        else match recurse E beta thr n l acc with
          | none => none
          | some (false, acc') => some (false, acc')
          | some (true, acc') => if stop = true then some (false, acc') else recurse E beta thr n r acc'

/-- The loop over `ps`: recursive-hermite.cc:153-168.  `res->concatenate (r)` appends the paths of `r`. -/
def hermiteLoop (E : HEnv H C K) (beta thr : K) (fuel : Nat) : List H → List H → Option (Bool × List H)
  | [], res => some (true, res)
  | p :: ps, res =>
    if E.len p < thr then hermiteLoop E beta thr fuel ps (res ++ [p])
    else match recurse E beta thr fuel p [] with
      | none => none
      | some (false, r) => some (false, res ++ r)
      | some (true, r) => hermiteLoop E beta thr fuel ps (res ++ r)

/-- The kinds of input: a Hermite path, an interpolated path given by its way points, another path given by its ends. -/
inductive HIn (H C : Type) where
  | hermite (p : H)
  | interp (pts : List C)
  | other (a b : C)

/-- Paths between consecutive way points: recursive-hermite.cc:133-143. -/
def between (E : HEnv H C K) : List C → List H
  | a :: b :: l => E.steer a b :: between E (b :: l)
  | _ => []

/-- The vector `ps`: recursive-hermite.cc:128-150. -/
def hermitePieces (E : HEnv H C K) : HIn H C → List H
  | .hermite p => [p]
  | .interp l => between E l
  | .other a b => [E.steer a b]

inductive HOut (H : Type) where
  /-- the input -/
  | same
  /-- the input extracted on its initial time -/
  | point
  | single (p : H)
  | vec (l : List H)
deriving DecidableEq

/-- `project`: recursive-hermite.cc:109-204 for a path with a constraint set, `q2` its final configuration, `active`: there is a projector
with positive dimension.  Output `none` inside: not assigned. -/
def hermiteProject (E : HEnv H C K) (beta thr : K) (fuel : Nat) (active : Bool) (q2 : C) (path : HIn H C) :
    Option (Bool × Option (HOut H)) :=
  if E.sat q2 = false then some (false, none)
  else if active = false then some (true, some .same)
  else match hermiteLoop E beta thr fuel (hermitePieces E path) [] with
    | none => none
    | some (true, res) => some (true, some (.vec res))
    | some (false, []) => some (false, some .point)
    | some (false, [p]) => some (false, some (.single p))
    | some (false, p :: p' :: l) => some (false, some (.vec (p :: p' :: l)))

/-! ## Specification -/

/-- Assumptions on the environment. -/
structure HContract (E : HEnv H C K) : Prop where
  ini : ∀ a b, E.ini (E.steer a b) = a
  fin : ∀ a b, E.fin (E.steer a b) = b
  leftIni : ∀ p q, E.ini (E.left p q) = E.ini p
  leftFin : ∀ p q, E.fin (E.left p q) = q
  rightIni : ∀ p q, E.ini (E.right p q) = q
  rightFin : ∀ p q, E.fin (E.right p q) = E.fin p
  mid : ∀ p q, E.mid p = some q → E.sat q = true

/-- A sequence of paths from `a` to `b`, each one starting where the previous one ends, with Hermite length below `thr` and both ends
satisfying the constraints. -/
inductive HChain (E : HEnv H C K) (thr : K) : C → List H → C → Prop
  | nil (a : C) : HChain E thr a [] a
  | cons {p : H} {l : List H} {b : C} (hl : E.len p < thr) (h1 : E.sat (E.ini p) = true) (h2 : E.sat (E.fin p) = true)
      (h : HChain E thr (E.fin p) l b) : HChain E thr (E.ini p) (p :: l) b

/-- Ends of the input. -/
inductive HEnds (E : HEnv H C K) : HIn H C → C → C → Prop
  | hermite (p : H) : HEnds E (.hermite p) (E.ini p) (E.fin p)
  | interp (a b : C) (l : List C) : HEnds E (.interp (a :: l ++ [b])) a b
  | other (a b : C) : HEnds E (.other a b) a b

variable {E : HEnv H C K} {beta thr : K}

theorem HChain.append {a b c : C} {l l' : List H} (h : HChain E thr a l b) (h' : HChain E thr b l' c) : HChain E thr a (l ++ l') c := by
  induction h with
  | nil => exact h'
  | cons hl h1 h2 _ ih => exact .cons hl h1 h2 (ih h')

theorem recurse_spec (hE : HContract E) (fuel : Nat) (p : H) (acc : List H) (h1 : E.sat (E.ini p) = true) (h2 : E.sat (E.fin p) = true)
    {ok : Bool} {out : List H} (h : recurse E beta thr fuel p acc = some (ok, out)) :
    ∃ l e, out = acc ++ l ∧ HChain E thr (E.ini p) l e ∧ (ok = true → e = E.fin p) := by
  induction fuel generalizing p acc ok out with
  | zero => simp [recurse] at h
  | succ n ih =>
    rw [recurse] at h
    have stop : ∀ {x : List H}, x = acc → ok = false → out = x → ∃ l e, out = acc ++ l ∧ HChain E thr (E.ini p) l e ∧
        (ok = true → e = E.fin p) := by
      rintro x rfl rfl rfl
      exact ⟨[], E.ini p, by simp, .nil _, by simp⟩
    by_cases hl : E.len p < thr
    · rw [if_pos hl] at h
      simp only [Option.some.injEq, Prod.mk.injEq] at h
      obtain ⟨rfl, rfl⟩ := h
      exact ⟨[p], E.fin p, rfl, .cons hl h1 h2 (.nil _), fun _ => rfl⟩
    · rw [if_neg hl] at h
      cases hm : E.mid p with
      | none =>
        rw [hm] at h
        simp only [Option.some.injEq, Prod.mk.injEq] at h
        exact stop rfl h.1.symm h.2.symm
      | some q =>
        rw [hm] at h
        dsimp only at h
        have hq := hE.mid p q hm
        by_cases hls : decide (beta * E.len p < E.len (E.left p q)) = true
        · rw [if_pos hls] at h
          simp only [Option.some.injEq, Prod.mk.injEq] at h
          exact stop rfl h.1.symm h.2.symm
        · rw [if_neg hls] at h
          cases hr : recurse E beta thr n (E.left p q) acc with
          | none => rw [hr] at h; simp at h
          | some x =>
            obtain ⟨b, acc'⟩ := x
            rw [hr] at h
            obtain ⟨l, e, k1, k2, k3⟩ := ih (E.left p q) acc (by rw [hE.leftIni]; exact h1) (by rw [hE.leftFin]; exact hq) hr
            rw [hE.leftIni] at k2
            cases b with
            | false =>
              simp only [Option.some.injEq, Prod.mk.injEq] at h
              obtain ⟨rfl, rfl⟩ := h
              exact ⟨l, e, k1, k2, by simp⟩
            | true =>
              dsimp only at h
              have ke := k3 rfl
              rw [hE.leftFin] at ke
              subst ke
              by_cases hs : (decide (beta * E.len p < E.len (E.right p e)) || decide (beta * E.len p < E.len (E.left p e))) = true
              · rw [if_pos hs] at h
                simp only [Option.some.injEq, Prod.mk.injEq] at h
                obtain ⟨rfl, rfl⟩ := h
                exact ⟨l, e, k1, k2, by simp⟩
              · rw [if_neg hs] at h
                obtain ⟨l', e', m1, m2, m3⟩ := ih (E.right p e) acc' (by rw [hE.rightIni]; exact hq) (by rw [hE.rightFin]; exact h2) h
                rw [hE.rightIni] at m2
                rw [hE.rightFin] at m3
                exact ⟨l ++ l', e', by rw [m1, k1, List.append_assoc], k2.append m2, m3⟩

/-- Pieces given to the loop: consecutive, from `a` to `b`, ends satisfying the constraints. -/
inductive Links (E : HEnv H C K) : C → List H → C → Prop
  | nil (a : C) : Links E a [] a
  | cons {p : H} {l : List H} {b : C} (h1 : E.sat (E.ini p) = true) (h2 : E.sat (E.fin p) = true)
      (h : Links E (E.fin p) l b) : Links E (E.ini p) (p :: l) b

theorem hermiteLoop_spec (hE : HContract E) (fuel : Nat) (ps res : List H) {a m b : C} (hps : Links E m ps b) (hres : HChain E thr a res m)
    {ok : Bool} {out : List H} (h : hermiteLoop E beta thr fuel ps res = some (ok, out)) :
    ∃ e, HChain E thr a out e ∧ (ok = true → e = b) := by
  induction hps generalizing res with
  | nil m =>
    simp only [hermiteLoop, Option.some.injEq, Prod.mk.injEq] at h
    obtain ⟨rfl, rfl⟩ := h
    exact ⟨m, hres, fun _ => rfl⟩
  | @cons p l b h1 h2 _ ih =>
    rw [hermiteLoop] at h
    by_cases hl : E.len p < thr
    · rw [if_pos hl] at h
      exact ih _ (hres.append (.cons hl h1 h2 (.nil _))) h
    · rw [if_neg hl] at h
      cases hr : recurse E beta thr fuel p [] with
      | none => rw [hr] at h; simp at h
      | some x =>
        obtain ⟨c, r⟩ := x
        rw [hr] at h
        obtain ⟨l', e, k1, k2, k3⟩ := recurse_spec hE fuel p [] h1 h2 hr
        simp only [List.nil_append] at k1
        subst k1
        cases c with
        | false =>
          simp only [Option.some.injEq, Prod.mk.injEq] at h
          obtain ⟨rfl, rfl⟩ := h
          exact ⟨e, hres.append k2, by simp⟩
        | true =>
          rw [k3 rfl] at k2
          exact ih _ (hres.append k2) h

theorem between_links (hE : HContract E) (l : List C) (a b : C) (hl : ∀ q ∈ a :: l ++ [b], E.sat q = true) :
    Links E a (between E (a :: l ++ [b])) b := by
  induction l generalizing a with
  | nil =>
    have : Links E (E.ini (E.steer a b)) [E.steer a b] b :=
      .cons (by rw [hE.ini]; exact hl a (by simp)) (by rw [hE.fin]; exact hl b (by simp)) (by rw [hE.fin]; exact .nil _)
    rw [hE.ini] at this
    exact this
  | cons c l ih =>
    have : Links E (E.ini (E.steer a c)) (E.steer a c :: between E (c :: l ++ [b])) b :=
      .cons (by rw [hE.ini]; exact hl a (by simp)) (by rw [hE.fin]; exact hl c (by simp))
        (by rw [hE.fin]; exact ih c (fun q hq => hl q (by simp at hq ⊢; tauto)))
    rw [hE.ini] at this
    exact this

/-- Configurations of the input that the projection keeps. -/
def HIn.kept (E : HEnv H C K) : HIn H C → List C
  | .hermite p => [E.ini p, E.fin p]
  | .interp l => l
  | .other a b => [a, b]

/-- C71: the ends of the input, and its way points for an interpolated path, satisfy the constraints.  If the projection of a path from `a` to
`b` succeeds, the output is the input itself (no active constraint) or a sequence of consecutive paths from `a` to `b`, of Hermite length
below the threshold, whose ends satisfy the constraints.  If it fails, the output, when assigned, is the point `a` or such a sequence from
`a`. -/
theorem C71_hermite (hE : HContract E) (fuel : Nat) (active : Bool) (path : HIn H C) {a b : C} (hp : HEnds E path a b)
    (hk : ∀ q ∈ path.kept E, E.sat q = true) {ok : Bool} {out : Option (HOut H)}
    (h : hermiteProject E beta thr fuel active b path = some (ok, out)) :
    (ok = true → (active = false ∧ out = some .same) ∨ ∃ l, out = some (.vec l) ∧ HChain E thr a l b) ∧
    (ok = false → ∀ x, out = some x → x = .point ∨ ∃ l e, (x = .vec l ∨ ∃ p, x = .single p ∧ l = [p]) ∧ HChain E thr a l e) := by
  have hlinks : Links E a (hermitePieces E path) b := by
    cases hp with
    | hermite p => exact .cons (hk _ (by simp [HIn.kept])) (hk _ (by simp [HIn.kept])) (.nil _)
    | interp a b l => exact between_links hE l a b hk
    | other a b =>
      have : Links E (E.ini (E.steer a b)) [E.steer a b] b :=
        .cons (by rw [hE.ini]; exact hk a (by simp [HIn.kept])) (by rw [hE.fin]; exact hk b (by simp [HIn.kept]))
          (by rw [hE.fin]; exact .nil _)
      rw [hE.ini] at this
      exact this
  unfold hermiteProject at h
  by_cases hb : E.sat b = false
  · rw [if_pos hb] at h
    simp only [Option.some.injEq, Prod.mk.injEq] at h
    obtain ⟨rfl, rfl⟩ := h
    simp
  · rw [if_neg hb] at h
    cases active with
    | false =>
      rw [if_pos rfl] at h
      simp only [Option.some.injEq, Prod.mk.injEq] at h
      obtain ⟨rfl, rfl⟩ := h
      exact ⟨fun _ => Or.inl ⟨rfl, rfl⟩, by simp⟩
    | true =>
      rw [if_neg (by simp)] at h
      cases hr : hermiteLoop E beta thr fuel (hermitePieces E path) [] with
      | none => rw [hr] at h; simp at h
      | some x =>
        obtain ⟨c, res⟩ := x
        rw [hr] at h
        obtain ⟨e, k1, k2⟩ := hermiteLoop_spec hE fuel _ [] hlinks (.nil a) hr
        cases c with
        | true =>
          simp only [Option.some.injEq, Prod.mk.injEq] at h
          obtain ⟨rfl, rfl⟩ := h
          rw [k2 rfl] at k1
          exact ⟨fun _ => Or.inr ⟨res, rfl, k1⟩, by simp⟩
        | false =>
          match res, k1, h with
          | [], k1, h =>
            simp only [Option.some.injEq, Prod.mk.injEq] at h
            obtain ⟨rfl, rfl⟩ := h
            exact ⟨by simp, fun _ x hx => Or.inl (Option.some.inj hx).symm⟩
          | [p], k1, h =>
            simp only [Option.some.injEq, Prod.mk.injEq] at h
            obtain ⟨rfl, rfl⟩ := h
            exact ⟨by simp, fun _ x hx => Or.inr ⟨[p], e, Or.inr ⟨p, (Option.some.inj hx).symm, rfl⟩, k1⟩⟩
          | p :: p' :: l, k1, h =>
            simp only [Option.some.injEq, Prod.mk.injEq] at h
            obtain ⟨rfl, rfl⟩ := h
            exact ⟨by simp, fun _ x hx => Or.inr ⟨_, e, Or.inl (Option.some.inj hx).symm, k1⟩⟩

theorem recurse_terminates (hb : 0 ≤ beta) (n : Nat) (p : H) (acc : List H) (h : beta ^ n * E.len p < thr) :
    recurse E beta thr (n + 1) p acc ≠ none := by
  induction n generalizing p acc with
  | zero =>
    rw [recurse, if_pos (by simpa using h)]
    simp
  | succ n ih =>
    rw [recurse]
    by_cases hl : E.len p < thr
    · rw [if_pos hl]; simp
    · rw [if_neg hl]
      cases hm : E.mid p with
      | none => simp
      | some q =>
        dsimp only
        by_cases hls : decide (beta * E.len p < E.len (E.left p q)) = true
        · rw [if_pos hls]; simp
        · rw [if_neg hls]
          have hle : E.len (E.left p q) ≤ beta * E.len p := by simpa using hls
          have step : ∀ x, x ≤ beta * E.len p → beta ^ n * x < thr := by
            intro x hx
            calc beta ^ n * x ≤ beta ^ n * (beta * E.len p) := mul_le_mul_of_nonneg_left hx (pow_nonneg hb n)
              _ = beta ^ (n + 1) * E.len p := by ring
              _ < thr := h
          cases hr : recurse E beta thr (n + 1) (E.left p q) acc with
          | none => exact absurd hr (ih _ _ (step _ hle))
          | some x =>
            obtain ⟨c, acc'⟩ := x
            cases c with
            | false => simp
            | true =>
              dsimp only
              by_cases hs : (decide (beta * E.len p < E.len (E.right p q)) || decide (beta * E.len p < E.len (E.left p q))) = true
              · rw [if_pos hs]; simp
              · rw [if_neg hs]
                simp only [Bool.or_eq_true, decide_eq_true_eq, not_or, not_lt] at hs
                exact ih _ _ (step _ hs.1)

theorem recurse_mono (n k : Nat) (p : H) (acc : List H) (h : recurse E beta thr n p acc ≠ none) :
    recurse E beta thr (n + k) p acc = recurse E beta thr n p acc := by
  induction n generalizing p acc with
  | zero => simp [recurse] at h
  | succ n ih =>
    rw [show n + 1 + k = (n + k) + 1 from by omega]
    rw [recurse] at h
    rw [recurse, recurse]
    by_cases hl : E.len p < thr
    · rw [if_pos hl, if_pos hl]
    · rw [if_neg hl] at h
      rw [if_neg hl, if_neg hl]
      cases hm : E.mid p with
      | none => rfl
      | some q =>
        rw [hm] at h
        dsimp only at h ⊢
        by_cases hls : decide (beta * E.len p < E.len (E.left p q)) = true
        · rw [if_pos hls, if_pos hls]
        · rw [if_neg hls] at h
          rw [if_neg hls, if_neg hls]
          cases hr : recurse E beta thr n (E.left p q) acc with
          | none => rw [hr] at h; simp at h
          | some x =>
            obtain ⟨c, acc'⟩ := x
            rw [hr] at h
            rw [ih _ _ (by rw [hr]; simp), hr]
            cases c with
            | false => rfl
            | true =>
              dsimp only at h ⊢
              by_cases hs : (decide (beta * E.len p < E.len (E.right p q)) || decide (beta * E.len p < E.len (E.left p q))) = true
              · rw [if_pos hs, if_pos hs]
              · rw [if_neg hs] at h
                rw [if_neg hs, if_neg hs]
                exact ih _ _ h

/-- C71 (termination): with a coefficient below 1 and a positive threshold the recursion has a bounded depth. -/
theorem C71_terminates [Archimedean K] (hb : 0 ≤ beta) (hb1 : beta < 1) (ht : 0 < thr) (active : Bool) (q2 : C) (path : HIn H C) :
    ∃ N, ∀ fuel, N ≤ fuel → hermiteProject E beta thr fuel active q2 path ≠ none := by
  have each : ∀ p : H, ∃ N, ∀ fuel, N ≤ fuel → recurse E beta thr fuel p [] ≠ none := by
    intro p
    obtain ⟨n, hn⟩ := exists_pow_lt_of_lt_one (x := thr / (|E.len p| + 1)) (y := beta)
      (div_pos ht (by positivity)) hb1
    have : beta ^ n * E.len p < thr := by
      have h1 : beta ^ n * E.len p ≤ beta ^ n * (|E.len p| + 1) :=
        mul_le_mul_of_nonneg_left (by linarith [le_abs_self (E.len p)]) (pow_nonneg hb n)
      have h2 : beta ^ n * (|E.len p| + 1) < thr := by
        rw [lt_div_iff₀ (by positivity)] at hn; exact hn
      exact lt_of_le_of_lt h1 h2
    refine ⟨n + 1, fun fuel hf => ?_⟩
    have h1 := recurse_terminates (E := E) hb n p [] this
    obtain ⟨k, rfl⟩ := Nat.exists_eq_add_of_le hf
    rw [recurse_mono _ _ _ _ h1]
    exact h1
  have loop : ∀ ps : List H, ∃ N, ∀ fuel, N ≤ fuel → ∀ res, hermiteLoop E beta thr fuel ps res ≠ none := by
    intro ps
    induction ps with
    | nil => exact ⟨0, by simp [hermiteLoop]⟩
    | cons p ps ih =>
      obtain ⟨N1, h1⟩ := each p
      obtain ⟨N2, h2⟩ := ih
      refine ⟨max N1 N2, fun fuel hf res => ?_⟩
      rw [hermiteLoop]
      split
      · exact h2 fuel (le_trans (le_max_right _ _) hf) _
      · cases hr : recurse E beta thr fuel p [] with
        | none => exact absurd hr (h1 fuel (le_trans (le_max_left _ _) hf))
        | some x =>
          obtain ⟨c, r⟩ := x
          cases c with
          | false => simp
          | true => exact h2 fuel (le_trans (le_max_right _ _) hf) _
  obtain ⟨N, hN⟩ := loop (hermitePieces E path)
  refine ⟨N, fun fuel hf => ?_⟩
  unfold hermiteProject
  split
  · simp
  · split
    · simp
    · cases hr : hermiteLoop E beta thr fuel (hermitePieces E path) [] with
      | none => exact absurd hr (hN fuel hf [])
      | some x =>
        obtain ⟨c, res⟩ := x
        cases c with
        | true => simp
        | false => match res with
          | [] => simp
          | [p] => simp
          | p :: p' :: l => simp

/-! ## Witnesses -/

/-- Segments of the rational line; the Hermite length is the length, the mid point is projected on itself when not beyond 10. -/
def lineH : HEnv (ℚ × ℚ) ℚ ℚ where
  ini := Prod.fst
  fin := Prod.snd
  len p := |p.2 - p.1|
  mid p := if (p.1 + p.2) / 2 ≤ 10 then some ((p.1 + p.2) / 2) else none
  left p q := (p.1, q)
  right p q := (q, p.2)
  steer a b := (a, b)
  sat q := decide (q ≤ 10)

example : HContract lineH :=
  ⟨fun _ _ => rfl, fun _ _ => rfl, fun _ _ => rfl, fun _ _ => rfl, fun _ _ => rfl, fun _ _ => rfl, fun p q h => by
    simp only [lineH] at h ⊢
    split at h
    · rename_i hc; cases h; simpa using hc
    · simp at h⟩

example : hermiteProject lineH (3 / 4) 2 10 true 4 (.hermite (0, 4)) =
    some (true, some (.vec [(0, 1), (1, 2), (2, 3), (3, 4)])) := by decide +kernel

example : hermiteProject lineH (3 / 4) 2 10 true 4 (.interp [0, 1, 4]) =
    some (true, some (.vec [(0, 1), (1, 5 / 2), (5 / 2, 4)])) := by decide +kernel

/-- An interpolated path with only one way point (time range of length zero) is projected with success on an empty path vector, which has no
initial configuration. -/
theorem C71_empty_counterexample : hermiteProject lineH (3 / 4) 2 10 true 4 (.interp [4]) = some (true, some (.vec [])) := by decide +kernel

/-- Same as `lineH` but the length does not shrink when halving (the mid point is projected far away, on the unconstrained direction). -/
def flatH : HEnv (ℚ × ℚ) ℚ ℚ := { lineH with len := fun _ => 3, mid := fun _ => some 0 }

/-- The constructor accepts the coefficient 1 (recursive-hermite.cc:65), for which the recursion may have no end. -/
theorem C71_beta_counterexample (fuel : Nat) : hermiteProject flatH 1 2 fuel true 4 (.hermite (0, 4)) = none := by
  have key : ∀ (n : Nat) (p : ℚ × ℚ) (acc : List (ℚ × ℚ)), recurse flatH 1 2 n p acc = none := by
    intro n
    induction n with
    | zero => intro p acc; rfl
    | succ n ih =>
      intro p acc
      rw [recurse, if_neg (by simp [flatH]; norm_num)]
      rw [show flatH.mid p = some 0 from rfl]
      dsimp only
      rw [if_neg (by show ¬ decide ((1 : ℚ) * 3 < 3) = true; norm_num), ih]
  unfold hermiteProject
  rw [if_neg (by decide +kernel), if_neg (by simp)]
  simp only [hermitePieces, hermiteLoop]
  rw [if_neg (by simp [flatH]; norm_num), key]

end Verif.Proj
