import Verif.Optim.RandomShortcut
set_option linter.unusedSectionVars false

/-!
# `PartialShortcut::optimize` (C43)

The input of the model is the unpacked vector (partial-shortcut.cc:48-57, 88-90: the same traversal as `PathVector::flatten`, see C20), and a
steering path is given by its unpacked pieces (partial-shortcut.cc:144-147).
Joints are values of an arbitrary type `J`.  Random numbers are an arbitrary sequence.
-/
namespace Verif.Optim
open Verif.PathV
variable {K C P J : Type} [Field K] [LinearOrder K] [IsStrictOrderedRing K]

structure PSEnv (K C P J : Type) extends Env K C P where
  /-- the pieces of `steer(q, q')`: path-optimizer.cc:48-57 -/
  steerL : C → C → Option (List P)
  /-- `problem()->pathValidation()->validate(vector, false, ...)` -/
  validV : Vec K C P → Bool
  /-- replace the part of the last argument that belongs to the joint by the interpolation between two configurations: 131-136 -/
  interp : J → C → C → K → C → C
  /-- `constraints()->apply(q)`, the configuration itself when the path has no constraints: 137-144 -/
  applyC : P → C → Option C
  /-- whether `constraints()` is not null -/
  hasC : P → Bool
  /-- the joints that are not locked by the constraints of a path: 150-180 -/
  joints : P → List J

/-- Errors: those of the path vectors, and use of a null pointer. -/
inductive PSErr where
  | path (e : Err)
  | nullPointer
  deriving DecidableEq

/-- The loop of `generatePath`: partial-shortcut.cc:117-140; `none` when a null pointer is returned. -/
def genLoop (E : PSEnv K C P J) (path : Vec K C P) (j : J) (q1 q2 : C) (d : K) : Nat → Nat → K → C → List P → Except Err (Option (C × List P))
  | 0, _, _, qi, acc => .ok (some (qi, acc))
  | f + 1, i, t, qi, acc =>
    match pathAtRank E.O path i with
    | .error e => .error e
    | .ok p =>
      let t' := t + E.O.len p
      match E.applyC p (E.interp j q1 q2 (t' / d) (E.fin p)) with
      | none => .ok none
      | some qInter => match E.steerL qi qInter with
        | none => .ok none
        | some l => genLoop E path j q1 q2 d f (i + 1) t' qInter (acc ++ l)

/-- `generatePath`: partial-shortcut.cc:100-148. -/
def generatePath (E : PSEnv K C P J) (path : Vec K C P) (j : J) (t1 : K) (q1 : C) (t2 : K) (q2 : C) : Except Err (Option (Vec K C P)) :=
  match rankAtParam E.O path t1 with
  | .error e => .error e
  | .ok (rk1, lt1) => match rankAtParam E.O path t2 with
    | .error e => .error e
    | .ok (rk2, _) =>
      if rk2 = rk1 then .ok none
      else match genLoop E path j q1 q2 (t2 - t1) (rk2 - rk1) rk1 (-lt1) q1 [] with
        | .error e => .error e
        | .ok none => .ok none
        | .ok (some (qi, acc)) => match E.steerL qi q2 with
          | none => .ok none
          | some l => .ok (some ((acc ++ l).foldl (appendPath E.O) (create none)))

/-- A generated path that is accepted by the validation. -/
def validGen (E : PSEnv K C P J) (g : Option (Vec K C P)) : Option (Vec K C P) := match g with
  | none => none
  | some v => if E.validV v then some v else none

/-- `optimizeFullPath`: partial-shortcut.cc:182-220; the joints kept for the second step are returned too. -/
def optimizeFullPath (E : PSEnv K C P J) (q0 q3 : C) : List J → Vec K C P → List J → Except Err (Vec K C P × List J)
  | [], opted, out => .ok (opted, out)
  | j :: js, opted, out =>
    match generatePath E opted j 0 q0 opted.tr.2 q3 with
    | .error e => .error e
    | .ok g => match validGen E g with
      | none => optimizeFullPath E q0 q3 js opted (out ++ [j])
      | some v => optimizeFullPath E q0 q3 js v out

/-- Local variables of `optimizeRandom`. -/
structure PSt (K C P : Type) where
  current : Vec K C P
  result : Vec K C P
  length : K
  nbFail : Nat
  iJ : Nat

/-- One of the three parts: partial-shortcut.cc:286-301. -/
def addPart' (E : PSEnv K C P J) (current : Vec K C P) (t t' : K) (g : Option (Vec K C P)) (acc : Vec K C P) : Except Err (Vec K C P) :=
  match g with
  | some v => concatenate E.O acc v
  | none => match extractV E.O current t t' with
    | .error e => .error e
    | .ok r => concatenate E.O acc r

/-- The values of `q1`, `q2` and of `success` after `current->eval(q1, t1) && current->eval(q2, t2)`: partial-shortcut.cc:257.  When an evaluation fails the
content of its output is arbitrary (`junk`); `q2` is not written when the first one fails. -/
def evalBoth (E : PSEnv K C P J) (current : Vec K C P) (t1 t2 : K) (junk : C × C) : Except Err (C × C × Bool) :=
  match evalV E.O current t1 with
  | .error .projection => .ok (junk.1, junk.2, false)
  | .error e => .error e
  | .ok q1 => match evalV E.O current t2 with
    | .error .projection => .ok (q1, junk.2, false)
    | .error e => .error e
    | .ok q2 => .ok (q1, q2, true)

/-- An iteration of the random phase: partial-shortcut.cc:241-316.  Note the test of `success` (258). -/
def psIter (E : PSEnv K C P J) (margin : K) (jv : List J) (q0 q3 : C) (r : K × K) (junk : C × C) (st : PSt K C P) : Except Err (PSt K C P) :=
  let iJ := st.iJ % jv.length
  match jv[iJ]? with
  | none => .error .indexOutOfBounds
  | some j =>
    let t3 := st.current.tr.2
    let u2 := t3 * r.1
    let u1 := t3 * r.2
    let t1 := if u1 < u2 then u1 else u2
    let t2 := if u1 < u2 then u2 else u1
    match evalBoth E st.current t1 t2 junk with
    | .error e => .error e
    | .ok (q1, q2, success) =>
      if success then .ok { st with nbFail := st.nbFail + 1, iJ := iJ + 1 }
      else
        match generatePath E st.current j 0 q0 t1 q1 with
        | .error e => .error e
        | .ok g0 => match generatePath E st.current j t1 q1 t2 q2 with
          | .error e => .error e
          | .ok g1 => match generatePath E st.current j t2 q2 t3 q3 with
            | .error e => .error e
            | .ok g2 =>
              if (validGen E g0).isNone ∧ (validGen E g1).isNone ∧ (validGen E g2).isNone then .ok { st with nbFail := st.nbFail + 1, iJ := iJ + 1 }
              else match addPart' E st.current 0 t1 (validGen E g0) (create none) with
                | .error e => .error e
                | .ok a0 => match addPart' E st.current t1 t2 (validGen E g1) a0 with
                  | .error e => .error e
                  | .ok a1 => match addPart' E st.current t2 t3 (validGen E g2) a1 with
                    | .error e => .error e
                    | .ok res => match pathLength E.toEnv res with
                      | .error e => .error e
                      | .ok newLength =>
                        if st.length ≤ newLength then .ok { st with result := res, nbFail := st.nbFail + 1, iJ := iJ + 1 }
                        else .ok ⟨res, res, newLength, if st.length - margin ≤ newLength then st.nbFail + 1 else 0, iJ⟩

/-- The `while` loop: partial-shortcut.cc:240-317. -/
def psLoop (E : PSEnv K C P J) (margin : K) (maxFailure : Nat) (jv : List J) (q0 q3 : C) (rand : Nat → K × K) (junk : Nat → C × C) :
    Nat → Nat → PSt K C P → Out K C P
  | 0, _, _ => .running
  | fuel + 1, it, st =>
    if st.nbFail < maxFailure then
      match psIter E margin jv q0 q3 (rand it) (junk it) st with
      | .error e => .error e
      | .ok st' => psLoop E margin maxFailure jv q0 q3 rand junk fuel (it + 1) st'
    else .path st.result

/-- `optimizeRandom`: partial-shortcut.cc:222-319. -/
def optimizeRandom (E : PSEnv K C P J) (margin : K) (perJoint : Nat) (rand : Nat → K × K) (junk : Nat → C × C) (fuel : Nat)
    (pv : Vec K C P) (jv : List J) : Out K C P :=
  match vini E.toEnv pv, vfin E.toEnv pv, pathLength E.toEnv pv with
  | .ok q0, .ok q3, .ok l => psLoop E margin (jv.length * perJoint) jv q0 q3 rand junk fuel 0 ⟨pv, pv, l, 0, 0⟩
  | .error e, _, _ => .error e
  | _, .error e, _ => .error e
  | _, _, .error e => .error e

/-- Outcome of `optimize`. -/
inductive PSOut (K C P : Type) where
  | path (v : Vec K C P)
  | error (e : PSErr)
  | running

/-- `optimize`: partial-shortcut.cc:83-98; the first step (`generateJointVector`, 150-180) dereferences the constraints of the first piece. -/
def partialShortcut (E : PSEnv K C P J) (margin : K) (perJoint : Nat) (onlyFull : Bool) (rand : Nat → K × K) (junk : Nat → C × C) (fuel : Nat)
    (path : Vec K C P) : PSOut K C P :=
  match pathAtRank E.O path 0, vini E.toEnv path, vfin E.toEnv path with
  | .ok p, .ok q0, .ok q3 =>
    if E.hasC p = false then .error .nullPointer
    else match optimizeFullPath E q0 q3 (E.joints p) path [] with
      | .error e => .error (.path e)
      | .ok (result, jv) =>
        if onlyFull then .path result
        else match optimizeRandom E margin perJoint rand junk fuel result jv with
          | .path v => .path v
          | .error e => .error (.path e)
          | .running => .running
  | .error e, _, _ => .error (.path e)
  | _, .error e, _ => .error (.path e)
  | _, _, .error e => .error (.path e)

/-! ## Proofs -/

/-- Contract of the calls; `G` is the class of the pieces of validated vectors and of the input, `S` the class of the pieces made by steering. -/
structure PSContract (E : PSEnv K C P J) (S : P → Prop) : Prop where
  base : Contract E.toEnv S
  steerL : ∀ a b l, E.steerL a b = some l → Joins E.toEnv S a b l

section
variable {E : PSEnv K C P J} {G : P → Prop}

theorem genLoop_spec (hC : PSContract E G) (path : Vec K C P) (j : J) (q1 q2 : C) (d : K) (a : C) (f i : Nat) (t : K) (qi : C) (acc : List P)
    (h : (acc = [] ∧ qi = a) ∨ Joins E.toEnv G a qi acc) (qe : C) (le : List P) (ho : genLoop E path j q1 q2 d f i t qi acc = .ok (some (qe, le))) :
    (le = [] ∧ qe = a) ∨ Joins E.toEnv G a qe le := by
  induction f generalizing i t qi acc with
  | zero =>
    simp only [genLoop, Except.ok.injEq, Option.some.injEq, Prod.mk.injEq] at ho
    rw [← ho.1, ← ho.2]; exact h
  | succ f ih =>
    unfold genLoop at ho
    cases hp : pathAtRank E.O path i with
    | error e => rw [hp] at ho; simp at ho
    | ok p =>
      rw [hp] at ho
      simp only at ho
      cases hq : E.applyC p (E.interp j q1 q2 ((t + E.O.len p) / d) (E.fin p)) with
      | none => rw [hq] at ho; simp at ho
      | some qInter =>
        rw [hq] at ho
        simp only at ho
        cases hs : E.steerL qi qInter with
        | none => rw [hs] at ho; simp at ho
        | some l =>
          rw [hs] at ho
          refine ih _ _ _ _ (Or.inr ?_) ho
          have hl := hC.steerL qi qInter l hs
          rcases h with ⟨rfl, rfl⟩ | h
          · exact hl
          · exact h.append hC.base hl

theorem generatePath_spec (hC : PSContract E G) (path : Vec K C P) (j : J) (t1 : K) (q1 : C) (t2 : K) (q2 : C) (v : Vec K C P)
    (ho : generatePath E path j t1 q1 t2 q2 = .ok (some v)) : Runs' E.toEnv G q1 q2 v := by
  unfold generatePath at ho
  cases h1 : rankAtParam E.O path t1 with
  | error e => rw [h1] at ho; simp at ho
  | ok r1 =>
    obtain ⟨rk1, lt1⟩ := r1
    rw [h1] at ho
    simp only at ho
    cases h2 : rankAtParam E.O path t2 with
    | error e => rw [h2] at ho; simp at ho
    | ok r2 =>
      obtain ⟨rk2, lt2⟩ := r2
      rw [h2] at ho
      simp only at ho
      by_cases hr : rk2 = rk1
      · rw [if_pos hr] at ho; simp at ho
      · rw [if_neg hr] at ho
        cases hg : genLoop E path j q1 q2 (t2 - t1) (rk2 - rk1) rk1 (-lt1) q1 [] with
        | error e => rw [hg] at ho; simp at ho
        | ok g =>
          rw [hg] at ho
          cases g with
          | none => simp at ho
          | some ql =>
            obtain ⟨qi, acc⟩ := ql
            simp only at ho
            have hacc := genLoop_spec hC path j q1 q2 (t2 - t1) q1 _ _ _ q1 [] (Or.inl ⟨rfl, rfl⟩) qi acc hg
            cases hs : E.steerL qi q2 with
            | none => rw [hs] at ho; simp at ho
            | some l =>
              rw [hs] at ho
              simp only [Except.ok.injEq, Option.some.injEq] at ho
              rw [appendAll] at ho
              have hl := hC.steerL qi q2 l hs
              have hj : Joins E.toEnv G q1 q2 (acc ++ l) := by
                rcases hacc with ⟨rfl, rfl⟩ | h
                · simpa using hl
                · exact h.append hC.base hl
              rw [← ho]
              exact ⟨rfl, by simp [create], by simpa [create] using hj⟩

/-- Way points of a shortcut: after the part `k` of the path, the configuration is the end of this part where the joint is interpolated at the time of this end
(since the beginning of the shortcut), made consistent with the constraints of this part. -/
theorem genLoop_waypoints [hP : Nonempty P] (path : Vec K C P) (j : J) (q1 q2 : C) (d : K) (f i : Nat) (t : K) (qi : C) (acc : List P) (qe : C) (le : List P)
    (ho : genLoop E path j q1 q2 d f i t qi acc = .ok (some (qe, le))) :
    ∃ (qs : Nat → C) (ls : Nat → List P) (ps : Nat → P), qs 0 = qi ∧ qs f = qe ∧ le = acc ++ ((List.range f).map ls).flatten ∧
      ∀ k, k < f → pathAtRank E.O path (i + k) = .ok (ps k) ∧
        E.applyC (ps k) (E.interp j q1 q2 ((t + ((List.range (k + 1)).map (fun m => E.O.len (ps m))).sum) / d) (E.fin (ps k))) = some (qs (k + 1)) ∧
        E.steerL (qs k) (qs (k + 1)) = some (ls k) := by
  induction f generalizing i t qi acc with
  | zero =>
    simp only [genLoop, Except.ok.injEq, Option.some.injEq, Prod.mk.injEq] at ho
    exact ⟨fun _ => qi, fun _ => [], fun _ => hP.some, rfl, ho.1, by simp [ho.2], fun k hk => absurd hk (Nat.not_lt_zero _)⟩
  | succ f ih =>
    unfold genLoop at ho
    cases hp : pathAtRank E.O path i with
    | error e => rw [hp] at ho; simp at ho
    | ok p =>
      rw [hp] at ho
      simp only at ho
      cases hq : E.applyC p (E.interp j q1 q2 ((t + E.O.len p) / d) (E.fin p)) with
      | none => rw [hq] at ho; simp at ho
      | some qInter =>
        rw [hq] at ho
        simp only at ho
        cases hs : E.steerL qi qInter with
        | none => rw [hs] at ho; simp at ho
        | some l =>
          rw [hs] at ho
          obtain ⟨qs, ls, ps, h1, h2, h3, h4⟩ := ih _ _ _ _ ho
          refine ⟨fun k => if k = 0 then qi else qs (k - 1), fun k => if k = 0 then l else ls (k - 1), fun k => if k = 0 then p else ps (k - 1), by simp, by simpa using h2, ?_, ?_⟩
          · rw [h3, List.range_succ_eq_map, List.map_cons, List.map_map]
            simp [Function.comp_def]
          · intro k hk
            cases k with
            | zero => simp [h1, hp, hq, hs]
            | succ k =>
              obtain ⟨a1, a2, a3⟩ := h4 k (by omega)
              rw [List.range_succ_eq_map, List.map_cons, List.sum_cons, List.map_map]
              simp only [Nat.add_eq_zero_iff, one_ne_zero, and_false, if_false, Nat.add_sub_cancel, if_true, Function.comp_def, Nat.succ_eq_add_one]
              refine ⟨by rw [show i + (k + 1) = i + 1 + k by omega]; exact a1, ?_, a3⟩
              rw [← a2]
              rw [add_assoc]

/-- C43: the way points of a generated path.  Between the times `t1` and `t2`, in parts `rk1` and `rk2` of the path, the generated path joins by steering paths the
configuration `q1`, then for each part from `rk1` to `rk2 - 1` its end with the joint interpolated at its time, then `q2`. -/
theorem C43_waypoints [Nonempty P] (path : Vec K C P) (j : J) (t1 : K) (q1 : C) (t2 : K) (q2 : C) (v : Vec K C P)
    (ho : generatePath E path j t1 q1 t2 q2 = .ok (some v)) :
    ∃ rk1 lt1 rk2 lt2, rankAtParam E.O path t1 = .ok (rk1, lt1) ∧ rankAtParam E.O path t2 = .ok (rk2, lt2) ∧ rk1 ≠ rk2 ∧
      ∃ (qs : Nat → C) (ls : Nat → List P) (l : List P) (ps : Nat → P), qs 0 = q1 ∧ E.steerL (qs (rk2 - rk1)) q2 = some l ∧
        v.paths = ((List.range (rk2 - rk1)).map ls).flatten ++ l ∧
        ∀ k, k < rk2 - rk1 → pathAtRank E.O path (rk1 + k) = .ok (ps k) ∧
          E.applyC (ps k) (E.interp j q1 q2 ((((List.range (k + 1)).map (fun m => E.O.len (ps m))).sum - lt1) / (t2 - t1)) (E.fin (ps k))) = some (qs (k + 1)) ∧
          E.steerL (qs k) (qs (k + 1)) = some (ls k) := by
  unfold generatePath at ho
  cases h1 : rankAtParam E.O path t1 with
  | error e => rw [h1] at ho; simp at ho
  | ok r1 =>
    obtain ⟨rk1, lt1⟩ := r1
    rw [h1] at ho
    simp only at ho
    cases h2 : rankAtParam E.O path t2 with
    | error e => rw [h2] at ho; simp at ho
    | ok r2 =>
      obtain ⟨rk2, lt2⟩ := r2
      rw [h2] at ho
      simp only at ho
      by_cases hr : rk2 = rk1
      · rw [if_pos hr] at ho; simp at ho
      · rw [if_neg hr] at ho
        cases hg : genLoop E path j q1 q2 (t2 - t1) (rk2 - rk1) rk1 (-lt1) q1 [] with
        | error e => rw [hg] at ho; simp at ho
        | ok g =>
          rw [hg] at ho
          cases g with
          | none => simp at ho
          | some ql =>
            obtain ⟨qi, acc⟩ := ql
            simp only at ho
            obtain ⟨qs, ls, ps, a1, a2, a3, a4⟩ := genLoop_waypoints path j q1 q2 (t2 - t1) _ _ _ q1 [] qi acc hg
            cases hs : E.steerL qi q2 with
            | none => rw [hs] at ho; simp at ho
            | some l =>
              rw [hs] at ho
              simp only [Except.ok.injEq, Option.some.injEq] at ho
              rw [appendAll] at ho
              refine ⟨rk1, lt1, rk2, lt2, rfl, rfl, fun h => hr h.symm, qs, ls, l, ps, a1, by rw [a2]; exact hs, ?_, ?_⟩
              · rw [← ho, a3]; simp [create]
              · intro k hk
                obtain ⟨b1, b2, b3⟩ := a4 k hk
                exact ⟨b1, by rw [sub_eq_neg_add]; exact b2, b3⟩

/-- C43, first step: the path is always either the input or a path from the same initial to the same final configuration made of steering paths, accepted as a whole
by the validation. -/
theorem C43_full (hC : PSContract E G) (q0 q3 : C) (js : List J) (v : Vec K C P) (out : List J) (r : Vec K C P × List J)
    (ho : optimizeFullPath E q0 q3 js v out = .ok r) : r.1 = v ∨ (E.validV r.1 = true ∧ Runs' E.toEnv G q0 q3 r.1) := by
  induction js generalizing v out with
  | nil =>
    rw [← Except.ok.inj ho]
    exact Or.inl rfl
  | cons j js ih =>
    unfold optimizeFullPath at ho
    cases hg : generatePath E v j 0 q0 v.tr.2 q3 with
    | error e => rw [hg] at ho; simp at ho
    | ok g =>
      rw [hg] at ho
      simp only at ho
      cases hv : validGen E g with
      | none => rw [hv] at ho; exact ih v _ ho
      | some w =>
        rw [hv] at ho
        have : g = some w ∧ E.validV w = true := by
          unfold validGen at hv
          cases g with
          | none => simp at hv
          | some w' =>
            simp only at hv
            split at hv
            · rename_i h; rw [← Option.some.inj hv]; exact ⟨rfl, h⟩
            · simp at hv
        obtain ⟨rfl, hw⟩ := this
        rcases ih w _ ho with h | h
        · right; rw [h]; exact ⟨hw, generatePath_spec hC v j 0 q0 _ q3 w hg⟩
        · exact Or.inr h

/-- C43, partial: with the default parameters (first step only) the path returned is the unpacked input, or a continuous path with the same initial and
final configurations accepted as a whole by the validation.  Missing: the random phase (see the counterexamples). -/
theorem C43_default_partial (hC : PSContract E G) (margin : K) (perJoint : Nat) (rand : Nat → K × K) (junk : Nat → C × C) (fuel : Nat)
    (path w : Vec K C P) (hcons : path.cons = none) (hwf : WF E.O G path) (hch : Chained E.O path.paths)
    (ho : partialShortcut E margin perJoint true rand junk fuel path = .path w) :
    (w = path ∨ E.validV w = true) ∧ WF E.O G w ∧ Chained E.O w.paths ∧
      evalV E.O w w.tr.1 = evalV E.O path path.tr.1 ∧ evalV E.O w w.tr.2 = evalV E.O path path.tr.2 := by
  unfold partialShortcut at ho
  cases hp : pathAtRank E.O path 0 with
  | error e => rw [hp] at ho; simp at ho
  | ok p =>
    cases h0 : vini E.toEnv path with
    | error e => rw [hp, h0] at ho; simp at ho
    | ok q0 =>
      cases h3 : vfin E.toEnv path with
      | error e => rw [hp, h0, h3] at ho; simp at ho
      | ok q3 =>
        rw [hp, h0, h3] at ho
        simp only at ho
        by_cases hc : E.hasC p = false
        · rw [if_pos hc] at ho; simp at ho
        · rw [if_neg hc] at ho
          cases hf : optimizeFullPath E q0 q3 (E.joints p) path [] with
          | error e => rw [hf] at ho; simp at ho
          | ok r =>
            obtain ⟨result, jv⟩ := r
            rw [hf] at ho
            simp only [if_true, PSOut.path.injEq] at ho
            subst ho
            have hj : Joins E.toEnv G q0 q3 path.paths := by
              unfold vini at h0
              unfold vfin at h3
              cases hd : path.paths.head? with
              | none => rw [hd] at h0; simp at h0
              | some p =>
                cases hl : path.paths.getLast? with
                | none => rw [hl] at h3; simp at h3
                | some p' =>
                  rw [hd] at h0
                  rw [hl] at h3
                  refine ⟨fun hx => by rw [hx] at hd; simp at hd, hwf.2, hch, ?_, ?_⟩
                  · intro x hx; rw [hd] at hx; rw [← Option.some.inj hx]; exact Except.ok.inj h0
                  · intro x hx; rw [hl] at hx; rw [← Option.some.inj hx]; exact Except.ok.inj h3
            have hr : Runs' E.toEnv G q0 q3 path := ⟨hcons, hwf.1, hj⟩
            rcases C43_full hC q0 q3 _ path [] _ hf with h | ⟨h1, h2⟩
            · simp only at h
              subst h
              exact ⟨Or.inl rfl, hwf, hch, rfl, rfl⟩
            · have ends : ∀ {v : Vec K C P}, Runs' E.toEnv G q0 q3 v → evalV E.O v v.tr.1 = .ok q0 ∧ evalV E.O v v.tr.2 = .ok q3 := by
                intro v hv
                obtain ⟨a, b⟩ := hv.2.2.eval hC.base
                rw [evalV_none _ v hv.1, evalV_none _ v hv.1, hv.2.1]
                exact ⟨a, b⟩
              refine ⟨Or.inr h1, ⟨h2.2.1, h2.2.2.2.1⟩, h2.2.2.2.2.1, ?_, ?_⟩
              · rw [(ends h2).1, (ends hr).1]
              · rw [(ends h2).2, (ends hr).2]

/-- C43, random phase: whatever the problem, if the current path can be evaluated at the random parameters, the random phase counts a failure at
each iteration and returns its input: no improvement is ever found (the test of `success` is inverted). -/
theorem C43_random_idle_counterexample (margin : K) (perJoint : Nat) (rand : Nat → K × K) (junk : Nat → C × C) (pv : Vec K C P) (jv : List J)
    (q0 q3 : C) (h0 : vini E.toEnv pv = .ok q0) (h3 : vfin E.toEnv pv = .ok q3) (l : K) (hl : pathLength E.toEnv pv = .ok l)
    (hev : ∀ x, 0 ≤ x → x ≤ 1 → ∃ q, evalV E.O pv (pv.tr.2 * x) = .ok q)
    (hrand : ∀ it, 0 ≤ (rand it).1 ∧ (rand it).1 ≤ 1 ∧ 0 ≤ (rand it).2 ∧ (rand it).2 ≤ 1)
    (fuel : Nat) (hf : jv.length * perJoint < fuel) : optimizeRandom E margin perJoint rand junk fuel pv jv = .path pv := by
  unfold optimizeRandom
  rw [h0, h3, hl]
  simp only
  by_cases hjv : jv = []
  · subst hjv
    cases fuel with
    | zero => omega
    | succ fuel => simp [psLoop]
  · have hpos : 0 < jv.length := List.length_pos_iff.2 hjv
    have step : ∀ (it : Nat) (st : PSt K C P), st.current = pv →
        psIter E margin jv q0 q3 (rand it) (junk it) st = .ok { st with nbFail := st.nbFail + 1, iJ := st.iJ % jv.length + 1 } := by
      intro it st hst
      obtain ⟨r1, r2, r3, r4⟩ := hrand it
      obtain ⟨a, ha⟩ := hev _ r1 r2
      obtain ⟨b, hb⟩ := hev _ r3 r4
      have hlt : st.iJ % jv.length < jv.length := Nat.mod_lt _ hpos
      unfold psIter
      simp only
      rw [List.getElem?_eq_getElem hlt]
      simp only [hst, evalBoth]
      by_cases hlt2 : pv.tr.2 * (rand it).2 < pv.tr.2 * (rand it).1
      · simp only [if_pos hlt2, ha, hb, if_true]
      · simp only [if_neg hlt2, ha, hb, if_true]
    have loop : ∀ (fuel it : Nat) (st : PSt K C P), st.current = pv → st.result = pv → jv.length * perJoint < fuel + st.nbFail →
        psLoop E margin (jv.length * perJoint) jv q0 q3 rand junk fuel it st = .path pv ∨ fuel = 0 := by
      intro fuel
      induction fuel with
      | zero => intros; exact Or.inr rfl
      | succ fuel ih =>
        intro it st h1 h2 h3
        left
        unfold psLoop
        by_cases hn : st.nbFail < jv.length * perJoint
        · rw [if_pos hn, step it st h1]
          simp only
          rcases ih (it + 1) { st with nbFail := st.nbFail + 1, iJ := st.iJ % jv.length + 1 } h1 h2 (by simp only; omega) with h | h
          · exact h
          · simp only [h] at h3 ⊢; omega
        · rw [if_neg hn, h2]
    rcases loop fuel 0 ⟨pv, pv, l, 0, 0⟩ rfl rfl (by simpa using hf) with h | h
    · exact h
    · omega

end

/-! ## Examples and counterexamples -/

/-- The line of `lineEnv`, with one joint; every generated path is valid. -/
def psEnv : PSEnv ℚ ℚ (Lin ℚ) Unit where
  toEnv := lineEnv
  steerL a b := (lineEnv.steer a b).map (fun p => [p])
  validV _ := true
  interp _ a b u _ := a + u * (b - a)
  applyC _ q := some q
  hasC _ := true
  joints _ := [()]

theorem psEnv_contract : PSContract psEnv (fun p : Lin ℚ => p.lo ≤ p.hi ∧ p.cons = none) := by
  refine ⟨line_contract, ?_⟩
  intro a b l h
  simp only [psEnv, Option.map_eq_some_iff] at h
  obtain ⟨p, h1, rfl⟩ := h
  obtain ⟨e1, e2⟩ := line_contract.steer_ends a b p h1
  rw [← e1, ← e2]
  refine Joins.single ?_
  simp only [lineEnv] at h1
  split at h1
  · rw [← Option.some.inj h1]; exact ⟨by simp; linarith, rfl⟩
  · rw [← Option.some.inj h1]; exact ⟨by simp; linarith, rfl⟩

def psOut (r : PSOut ℚ ℚ (Lin ℚ)) : Option (List (ℚ × ℚ)) := match r with
  | .path v => some (v.paths.map (fun p => (lineEnv.ini p, lineEnv.fin p)))
  | _ => none

/-- the first step straightens the path 0, 4, 1, 3 -/
example : psOut (partialShortcut psEnv (1/1000) 5 true (fun _ => (0, 0)) (fun _ => (0, 0)) 0 lineVec) = some [(0, 4/3), (4/3, 7/3), (7/3, 3)] := by
  decide +kernel

/-- C43 (null pointer): a path whose first piece has no constraint set makes the optimizer dereference a null pointer. -/
theorem C43_null_counterexample (E : PSEnv K C P J) (margin : K) (perJoint : Nat) (onlyFull : Bool) (rand : Nat → K × K) (junk : Nat → C × C) (fuel : Nat)
    (path : Vec K C P) (p : P) (ps : List P) (hcons : path.cons = none) (hp : path.paths = p :: ps) (hc : E.hasC p = false) :
    partialShortcut E margin perJoint onlyFull rand junk fuel path = .error .nullPointer := by
  have e1 : pathAtRank E.O path 0 = .ok p := by
    rw [pathAtRank_eq E.O path 0 p (by rw [hp]; rfl), hcons]; rfl
  have e2 : vini E.toEnv path = .ok (E.ini p) := by unfold vini; rw [hp]; rfl
  obtain ⟨q, hq⟩ : ∃ q, vfin E.toEnv path = .ok q := by
    unfold vfin
    cases hl : path.paths.getLast? with
    | none => rw [List.getLast?_eq_none_iff, hp] at hl; simp at hl
    | some x => exact ⟨_, rfl⟩
  unfold partialShortcut
  rw [e1, e2, hq]
  simp only [if_pos hc]

/-- The same line, for a problem where only paths of at most two pieces are valid. -/
def psEnv2 : PSEnv ℚ ℚ (Lin ℚ) Unit := { psEnv with validV := fun v => decide (v.paths.length ≤ 2) }

/-- From 0 to 4, back to 1, to 3; the constraints cannot be applied on the second piece, except at its ends. -/
def psVec : Vec ℚ ℚ (Lin ℚ) :=
  [(⟨0, 4, 0, 1, none⟩ : Lin ℚ), ⟨0, 3, 4, -1, some (fun _ q => if q = 4 ∨ q = 1 then .ok q else .error .projection)⟩, ⟨0, 2, 1, 1, none⟩].foldl (appendPath linOps) (create none)

def psOut' (r : Out ℚ ℚ (Lin ℚ)) : Option (List (ℚ × ℚ)) := match r with
  | .path v => some (v.paths.map (fun p => (lineEnv.ini p, lineEnv.fin p)))
  | _ => none

/-- C43 (random phase, discontinuity): when the evaluation of the current path fails at a random parameter, the parts are built on the
uninitialized configurations; here the shots are 6 (failure) and 8, the configurations hold 100: the path returned jumps from 100 to 2, and it is returned
although it was rejected for being longer than the input (`result` is returned instead of `current`). -/
theorem C43_random_junk_counterexample :
    psOut' (optimizeRandom psEnv2 (1/1000) 1 (fun _ => (6/9, 8/9)) (fun _ => (100, 100)) 10 psVec [()]) =
      some [(0, 200/3), (200/3, 100), (100, 100), (100, 100), (2, 3)] ∧
    psVec.paths.map (fun p => (lineEnv.ini p, lineEnv.fin p)) = [(0, 4), (4, 1), (1, 3)] := by
  constructor <;> decide +kernel

end Verif.Optim
