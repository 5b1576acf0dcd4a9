import Verif.Projector.GlobalProps
set_option linter.unusedSectionVars false

/-!
# The global path projector with a bound on the hessian (C96)

Model of `Global::project2`: src/path-projector/global.cc:181-239, used when the parameter `PathProjection/HessianBound` is positive.

The iterator `last` cuts the list of data in two; it may also be the beginning of the list.  The answers of the solver (whether the constraints are satisfied, the new configuration and the
smallest singular value) are arbitrary; line searches (`alpha`) are not modelled.  Dereferencing the end of the list and running over it are reported as undefined behaviours.
-/
namespace Verif.Proj.Hess
open Verif.PathV
variable {K C : Type} [Field K] [LinearOrder K] [IsStrictOrderedRing K]

/-- `Data`: include/hpp/core/path-projector/global.hh:72-79. -/
structure Datum (K C : Type) where
  q : C
  l : K
  n : ℕ
  s : K
  b : Bool
  deriving DecidableEq

/-- Distance, and interpolation between two configurations. -/
structure HEnv (K C : Type) where
  dist : C → C → K
  interp : C → C → K → C

/-- What the solver does during one iteration: `step i q` for the configuration of rank `i` in `projectOneStep`, `sig q` is the smallest singular value computed by `initData`. -/
structure HAnswers (K C : Type) where
  step : ℕ → C → Bool × C × K
  sig : C → K

/-- `hessianBound_`, `thresholdMin_`, `p.maxIterations ()` and `maxCfgNum`. -/
structure HParams (K : Type) where
  hess : K
  dmin : K
  maxIter : ℕ
  maxNum : ℕ

/-- The list of data: the first one, those before `last`, those from `last` on; `atFirst` if `last` is the first one. -/
structure HSt (K C : Type) where
  first : Datum K C
  front : List (Datum K C)
  back : List (Datum K C)
  atFirst : Bool

/-- The loop of `projectOneStep`: global.cc:333-346; the data, `allAreSatisfied` and `prevUpdated`. -/
def hSweep (E : HEnv K C) (A : HAnswers K C) : ℕ → C → Bool → List (Datum K C) → List (Datum K C) × Bool × Bool
  | _, _, pu, [] => ([], true, pu)
  | i, prev, pu, d :: l =>
    if d.b then
      let r := hSweep E A (i + 1) d.q false l
      ((if pu then ⟨d.q, E.dist prev d.q, d.n, d.s, d.b⟩ else d) :: r.1, r.2.1, r.2.2)
    else
      let a := A.step i d.q
      let r := hSweep E A (i + 1) a.2.1 true l
      (⟨a.2.1, E.dist prev a.2.1, d.n + 1, a.2.2, a.1⟩ :: r.1, a.1 && r.2.1, r.2.2)

/-- The last configuration of a list after `a`. -/
def lastD (a : C) (l : List (Datum K C)) : C := (l.getLast?.map Datum.q).getD a

/-- `projectOneStep`: global.cc:325-350.  `none`: the loop runs over the end of the list, or the end of the list is written. -/
def hStep (E : HEnv K C) (A : HAnswers K C) (st : HSt K C) : Option (Bool × HSt K C) :=
  if st.atFirst then none
  else
    let r := hSweep E A 0 st.first.q false st.front
    if r.2.2 then
      match st.back with
      | [] => none
      | d :: l => some (r.2.1, ⟨st.first, r.1, ⟨d.q, E.dist (lastD st.first.q r.1) d.q, d.n, d.s, d.b⟩ :: l, false⟩)
    else some (r.2.1, ⟨st.first, r.1, st.back, false⟩)

/-- Result of `reinterpolate`: the data before and after `last`, the number of new data, and whether `last` is the datum before. -/
structure HRes (K C : Type) where
  front : List (Datum K C)
  back : List (Datum K C)
  n : ℕ
  cut : Bool
  deriving DecidableEq

/-- Put a datum before. -/
def HRes.push (d : Datum K C) (r : HRes K C) : HRes K C := if r.cut then ⟨[], d :: r.back, r.n, false⟩ else ⟨d :: r.front, r.back, r.n, false⟩

/-- `reinterpolate`: global.cc:412-459 for the data `front` after `prev`; `none` if the loop is not over. -/
def hReint (E : HEnv K C) (P : HParams K) (sig : C → K) : ℕ → Datum K C → List (Datum K C) → List (Datum K C) → ℕ → Option (HRes K C)
  | 0, _, _, _, _ => none
  | _ + 1, _, [], back, n => some ⟨[], back, n, false⟩
  | fuel + 1, prev, d :: l, back, n =>
    if prev.s < P.dmin * P.hess ∨ P.maxIter ≤ prev.n then some ⟨[], d :: (l ++ back), n, true⟩
    else if d.s < P.dmin * P.hess then some ⟨[], d :: (l ++ back), n, false⟩
    else if (prev.s + d.s) / P.hess < d.l then
      let q := E.interp prev.q d.q (prev.s / (P.hess * d.l))
      let new : Datum K C := ⟨q, E.dist prev.q q, 0, sig q, false⟩
      (hReint E P sig fuel new (⟨d.q, E.dist q d.q, d.n, d.s, d.b⟩ :: l) back (n + 1)).map (HRes.push new)
    else (hReint E P sig fuel d l back n).map (HRes.push d)

/-- Number of data. -/
def HSt.size (st : HSt K C) : ℕ := 1 + st.front.length + st.back.length

/-- State from the result of `reinterpolate`. -/
def HRes.state (first : Datum K C) (r : HRes K C) : HSt K C := ⟨first, r.front, r.back, r.cut⟩

/-- Result of the loop. -/
inductive HLoop (K C : Type)
  | ub
  | running
  | done (st : HSt K C)

/-- The loop of `project2`: global.cc:210-230. -/
def hLoop (E : HEnv K C) (P : HParams K) (A : ℕ → HAnswers K C) (fr : ℕ) : ℕ → ℕ → ℕ → HSt K C → HLoop K C
  | 0, _, _, _ => .running
  | fuel + 1, t, nb, st =>
    match hStep E (A t) st with
    | none => .ub
    | some (all, st1) =>
      if st1.size < P.maxNum ∨ all = true then
        match hReint E P (A t).sig fr st1.first st1.front st1.back 0 with
        | none => .running
        | some r =>
          if 2 * P.maxIter < (if 0 < r.n then 0 else nb) + 1 then .done (r.state st1.first)
          else if all = false ∨ 0 < r.n then hLoop E P A fr fuel (t + 1) ((if 0 < r.n then 0 else nb) + 1) (r.state st1.first)
          else .done (r.state st1.first)
      else if 2 * P.maxIter < nb + 1 then .done st1
      else hLoop E P A fr fuel (t + 1) (nb + 1) st1

/-- An item of the path. -/
def Datum.item (d : Datum K C) : Item K C := ⟨d.q, d.b, d.l⟩

/-- `createPath`: global.cc:527-573.  `last` is never the first datum there (see `C96_defined`). -/
def hCreate (cons : Option (Cst K C)) (st : HSt K C) : Bool × Ipath K C :=
  (st.back.isEmpty && st.front.all Datum.b, build cons st.first.q ((st.front.map Datum.item).takeWhile Item.b))

/-- Result of `project2`: the input path, undefined behaviour, a loop that is not over, a path. -/
inductive HOut (K C : Type)
  | same
  | ub
  | running
  | path (ok : Bool) (ip : Ipath K C)

/-- `initialConfigList`: global.cc:603-629; data after the first one, projected or not. -/
def hData (E : HEnv K C) (sig : C → K) (b : Bool) : C → List C → List (Datum K C)
  | _, [] => []
  | prev, q :: l => ⟨q, E.dist prev q, 0, sig q, b⟩ :: hData E sig b q l

/-- `project2`: global.cc:181-239.  A path that is not an interpolated path gives its ends, which are marked as projected; an interpolated path gives its way points, which are not marked. -/
def hProject (E : HEnv K C) (P : HParams K) (A : ℕ → HAnswers K C) (sig : C → K) (fr fuel : ℕ) (cons : Option (Cst K C)) (b : Bool) (a : C) (l : List C) : HOut K C :=
  match hReint E P sig fr ⟨a, 0, 0, sig a, true⟩ (hData E sig b a l) [] 0 with
  | none => .running
  | some r =>
    if (r.state ⟨a, 0, 0, sig a, true⟩).size = 2 then .same
    else
      match hLoop E P A fr fuel 0 0 (r.state ⟨a, 0, 0, sig a, true⟩) with
      | .ub => .ub
      | .running => .running
      | .done st => .path (hCreate cons st).1 (hCreate cons st).2

/-! ## Specification -/

/-- Lengths are distances. -/
def HExact (E : HEnv K C) : C → List (Datum K C) → Prop
  | _, [] => True
  | a, d :: l => d.l = E.dist a d.q ∧ HExact E d.q l

/-- Two consecutive data are as close as the bound on the hessian requires. -/
def Chk (P : HParams K) : Datum K C → List (Datum K C) → Prop
  | _, [] => True
  | p, d :: l => (P.dmin * P.hess ≤ p.s ∧ P.dmin * P.hess ≤ d.s ∧ d.l ≤ (p.s + d.s) / P.hess) ∧ Chk P d l

/-- Data that are marked satisfy the constraints. -/
def HMarked (Sat : C → Prop) (l : List (Datum K C)) : Prop := ∀ d ∈ l, d.b = true → Sat d.q

/-- The solver reports that a configuration satisfies the constraints only if it does. -/
def HSound (Sat : C → Prop) (A : HAnswers K C) : Prop := ∀ i q, (A.step i q).1 = true → Sat (A.step i q).2.1

theorem HExact.item {E : HEnv K C} (f : C → C → C) {a : C} {l : List (Datum K C)} (h : HExact E a l) : Exact ⟨E.dist, f⟩ a (l.map Datum.item) := by
  induction l generalizing a with
  | nil => trivial
  | cons d l ih => exact ⟨h.1, ih h.2⟩

theorem hexact_append {E : HEnv K C} {a : C} {l l' : List (Datum K C)} (h : HExact E a (l ++ l')) : HExact E a l := by
  induction l generalizing a with
  | nil => trivial
  | cons d l ih => exact ⟨h.1, ih h.2⟩

/-! ## `projectOneStep` -/

theorem hSweep_spec {E : HEnv K C} {A : HAnswers K C} (l : List (Datum K C)) (i : ℕ) (prev prev' : C) (pu : Bool) (hex : HExact E prev' l) (hpu : pu = false → prev' = prev) :
    HExact E prev (hSweep E A i prev pu l).1 ∧ (hSweep E A i prev pu l).1.length = l.length ∧ ((hSweep E A i prev pu l).2.1 = true ↔ ∀ d ∈ (hSweep E A i prev pu l).1, d.b = true) := by
  induction l generalizing i prev prev' pu with
  | nil => exact ⟨trivial, rfl, by simp [hSweep]⟩
  | cons d l ih =>
    obtain ⟨h1, h2⟩ := hex
    rw [hSweep]
    by_cases hb : d.b = true
    · rw [if_pos hb]
      obtain ⟨k1, k3, k4⟩ := ih (i + 1) d.q d.q false h2 (fun _ => rfl)
      refine ⟨?_, by simp only [List.length_cons, k3], ?_⟩
      · cases pu with
        | true => exact ⟨rfl, k1⟩
        | false => exact ⟨by rw [← hpu rfl]; exact h1, k1⟩
      · simp only [List.mem_cons, forall_eq_or_imp, k4]
        cases pu <;> simp [hb]
    · rw [if_neg hb]
      obtain ⟨k1, k3, k4⟩ := ih (i + 1) (A.step i d.q).2.1 d.q true h2 (fun h => by cases h)
      refine ⟨⟨rfl, k1⟩, by simp only [List.length_cons, k3], ?_⟩
      simp only [List.mem_cons, forall_eq_or_imp, Bool.and_eq_true, k4]

theorem hSweep_elem {E : HEnv K C} {A : HAnswers K C} {Sat : C → Prop} (hA : HSound Sat A) (l : List (Datum K C)) (i : ℕ) (prev : C) (pu : Bool) (k : ℕ) (d' : Datum K C)
    (h : (hSweep E A i prev pu l).1[k]? = some d') (hb : d'.b = true) : Sat d'.q ∨ ∃ d, l[k]? = some d ∧ d.b = true ∧ d.q = d'.q := by
  induction l generalizing i prev pu k with
  | nil => simp [hSweep] at h
  | cons d l ih =>
    rw [hSweep] at h
    by_cases hd : d.b = true
    · rw [if_pos hd] at h
      cases k with
      | zero =>
        simp only [List.getElem?_cons_zero, Option.some.injEq] at h
        refine Or.inr ⟨d, rfl, hd, ?_⟩
        rw [← h]
        cases pu <;> rfl
      | succ k => exact ih _ _ _ _ h
    · rw [if_neg hd] at h
      cases k with
      | zero =>
        simp only [List.getElem?_cons_zero, Option.some.injEq] at h
        subst h
        exact Or.inl (hA i d.q hb)
      | succ k => exact ih _ _ _ _ h

/-- The last datum is not touched if it is marked. -/
theorem hSweep_last {E : HEnv K C} {A : HAnswers K C} (l : List (Datum K C)) (i : ℕ) (prev : C) (pu : Bool) (z : Datum K C) (hz : z.b = true) :
    (hSweep E A i prev pu (l ++ [z])).2.2 = false ∧ ∃ l' x, (hSweep E A i prev pu (l ++ [z])).1 = l' ++ [⟨z.q, x, z.n, z.s, true⟩] ∧ l'.length = l.length := by
  induction l generalizing i prev pu with
  | nil =>
    rw [List.nil_append, hSweep, if_pos hz]
    refine ⟨rfl, [], if pu then E.dist prev z.q else z.l, ?_, rfl⟩
    cases pu
    · cases z; cases hz; rfl
    · cases z; cases hz; rfl
  | cons d l ih =>
    rw [List.cons_append, hSweep]
    by_cases hb : d.b = true
    · rw [if_pos hb]
      obtain ⟨k1, l', x, k2, k3⟩ := ih (i + 1) d.q false
      exact ⟨k1, _ :: l', x, congrArg (List.cons _) k2, by simp [k3]⟩
    · rw [if_neg hb]
      obtain ⟨k1, l', x, k2, k3⟩ := ih (i + 1) (A.step i d.q).2.1 true
      exact ⟨k1, _ :: l', x, congrArg (List.cons _) k2, by simp [k3]⟩

/-! ## `reinterpolate` -/

theorem HRes.push_all (d : Datum K C) (r : HRes K C) (h : r.cut = true → r.front = []) : (r.push d).front ++ (r.push d).back = d :: (r.front ++ r.back) := by
  unfold HRes.push
  by_cases hc : r.cut = true
  · rw [if_pos hc, h hc]; rfl
  · rw [if_neg hc]; rfl

/-- What `reinterpolate` does, for any list. -/
theorem hReint_spec {E : HEnv K C} {P : HParams K} {sig : C → K} {Sat : C → Prop} (fuel : ℕ) (prev : Datum K C) (front back : List (Datum K C)) (n : ℕ) (r : HRes K C)
    (h : hReint E P sig fuel prev front back n = some r) :
    (r.cut = true → r.front = [] ∧ (prev.s < P.dmin * P.hess ∨ P.maxIter ≤ prev.n)) ∧ n ≤ r.n ∧ (r.front ++ r.back).length + n = (front ++ back).length + r.n ∧
    (HExact E prev.q front → HExact E prev.q r.front) ∧ (HMarked Sat (front ++ back).dropLast → HMarked Sat (r.front ++ r.back).dropLast) ∧
    (r.n = n → r.front ++ r.back = front ++ back) ∧ (r.n = n → r.cut = false → r.back = [] → Chk P prev front) ∧
    (∀ z, (front ++ back).getLast? = some z → ∃ x, (r.front ++ r.back).getLast? = some ⟨z.q, x, z.n, z.s, z.b⟩) := by
  induction fuel generalizing prev front n r with
  | zero => cases h
  | succ fuel ih =>
    cases front with
    | nil =>
      rw [hReint] at h
      cases h
      exact ⟨fun h => (by cases h), le_rfl, rfl, id, id, fun _ => rfl, fun _ _ _ => trivial, fun z hz => ⟨z.l, hz⟩⟩
    | cons d l =>
      rw [hReint] at h
      by_cases c1 : prev.s < P.dmin * P.hess ∨ P.maxIter ≤ prev.n
      · rw [if_pos c1] at h
        cases h
        exact ⟨fun _ => ⟨rfl, c1⟩, le_rfl, rfl, fun _ => trivial, id, fun _ => rfl, fun _ h => (by cases h), fun z hz => ⟨z.l, hz⟩⟩
      · rw [if_neg c1] at h
        by_cases c2 : d.s < P.dmin * P.hess
        · rw [if_pos c2] at h
          cases h
          exact ⟨fun h => (by cases h), le_rfl, rfl, fun _ => trivial, id, fun _ => rfl, fun _ _ h => (by cases h), fun z hz => ⟨z.l, hz⟩⟩
        · rw [if_neg c2] at h
          push Not at c1 c2
          by_cases c3 : (prev.s + d.s) / P.hess < d.l
          · rw [if_pos c3] at h
            simp only [Option.map_eq_some_iff] at h
            obtain ⟨r', h, rfl⟩ := h
            obtain ⟨k1, k2, k3, k4, k5, k6, k7, k8⟩ := ih _ _ _ _ h
            have hall := HRes.push_all ⟨E.interp prev.q d.q (prev.s / (P.hess * d.l)), E.dist prev.q (E.interp prev.q d.q (prev.s / (P.hess * d.l))), 0, sig (E.interp prev.q d.q (prev.s / (P.hess * d.l))), false⟩ r' (fun h => (k1 h).1)
            have hn : ∀ x, (r'.push x).n = r'.n := by intro x; unfold HRes.push; by_cases hc : r'.cut = true <;> simp [hc]
            have hcut : ∀ x, (r'.push x).cut = false := by intro x; unfold HRes.push; by_cases hc : r'.cut = true <;> simp [hc]
            rw [hall, hn, hcut]
            refine ⟨fun h => (by cases h), by omega, ?_, ?_, ?_, fun h => by omega, fun h => by omega, ?_⟩
            · simp only [List.cons_append, List.length_cons] at k3 ⊢; omega
            · intro hx
              unfold HRes.push
              by_cases hc : r'.cut = true
              · rw [if_pos hc]; trivial
              · rw [if_neg hc]; exact ⟨rfl, k4 ⟨rfl, hx.2⟩⟩
            · intro hm
              have hne : r'.front ++ r'.back ≠ [] := by
                intro e
                rw [e] at k3
                simp only [List.cons_append, List.length_cons, List.length_nil] at k3
                omega
              rw [List.dropLast_cons_of_ne_nil hne]
              have hm' := k5 (by
                rw [List.cons_append] at hm ⊢
                cases hlb : l ++ back with
                | nil => intro w hw; cases hw
                | cons y m =>
                  rw [hlb, List.dropLast_cons_cons] at hm
                  rw [List.dropLast_cons_cons]
                  intro w hw hwb
                  rcases List.mem_cons.1 hw with rfl | hw
                  · exact hm d List.mem_cons_self hwb
                  · exact hm w (List.mem_cons_of_mem _ hw) hwb)
              intro y hy hyb
              rcases List.mem_cons.1 hy with rfl | hy
              · cases hyb
              · exact hm' y hy hyb
            · intro z hz
              have : ∃ x, ((⟨d.q, E.dist (E.interp prev.q d.q (prev.s / (P.hess * d.l))) d.q, d.n, d.s, d.b⟩ : Datum K C) :: l ++ back).getLast? = some ⟨z.q, x, z.n, z.s, z.b⟩ := by
                rw [List.cons_append] at hz ⊢
                cases hlb : l ++ back with
                | nil => rw [hlb] at hz; cases hz; exact ⟨_, rfl⟩
                | cons y m => rw [hlb, List.getLast?_cons_cons] at hz; exact ⟨z.l, by rw [List.getLast?_cons_cons, hz]⟩
              obtain ⟨x, hx⟩ := this
              obtain ⟨x', hx'⟩ := k8 _ hx
              refine ⟨x', ?_⟩
              rw [List.getLast?_cons, hx']; rfl
          · rw [if_neg c3] at h
            simp only [Option.map_eq_some_iff] at h
            obtain ⟨r', h, rfl⟩ := h
            obtain ⟨k1, k2, k3, k4, k5, k6, k7, k8⟩ := ih _ _ _ _ h
            have hall := HRes.push_all d r' (fun h => (k1 h).1)
            have hn : ∀ x, (r'.push x).n = r'.n := by intro x; unfold HRes.push; by_cases hc : r'.cut = true <;> simp [hc]
            have hcut : ∀ x, (r'.push x).cut = false := by intro x; unfold HRes.push; by_cases hc : r'.cut = true <;> simp [hc]
            rw [hall, hn, hcut]
            refine ⟨fun h => (by cases h), k2, ?_, ?_, ?_, ?_, ?_, ?_⟩
            · simp only [List.cons_append, List.length_cons] at k3 ⊢; omega
            · intro hx
              unfold HRes.push
              by_cases hc : r'.cut = true
              · rw [if_pos hc]; trivial
              · rw [if_neg hc]; exact ⟨hx.1, k4 hx.2⟩
            · intro hm
              by_cases hlb : l ++ back = []
              · have : r'.front ++ r'.back = [] := by
                  have hl : l = [] := (List.append_eq_nil_iff.1 hlb).1
                  have hb : back = [] := (List.append_eq_nil_iff.1 hlb).2
                  subst hl hb
                  cases fuel with
                  | zero => cases h
                  | succ fuel => rw [hReint] at h; cases h; rfl
                rw [this]
                intro w hw; cases hw
              · rw [List.cons_append, List.dropLast_cons_of_ne_nil hlb] at hm
                have hne : r'.front ++ r'.back ≠ [] := by
                  intro e
                  rw [e] at k3
                  have := List.length_pos_iff.2 hlb
                  simp only [List.length_nil] at k3
                  omega
                rw [List.dropLast_cons_of_ne_nil hne]
                intro y hy hyb
                rcases List.mem_cons.1 hy with rfl | hy
                · exact hm y List.mem_cons_self hyb
                · exact k5 (fun w hw => hm w (List.mem_cons_of_mem _ hw)) y hy hyb
            · intro e; rw [k6 e]; rfl
            · intro e _ hb
              refine ⟨⟨c1.1, c2, not_lt.1 c3⟩, ?_⟩
              unfold HRes.push at hb
              by_cases hc : r'.cut = true
              · rw [if_pos hc] at hb; cases hb
              · rw [if_neg hc] at hb; exact k7 e (by simpa using hc) hb
            · intro z hz
              rw [List.cons_append] at hz
              cases hlb : l ++ back with
              | nil =>
                rw [hlb] at hz
                cases hz
                have hl : l = [] := (List.append_eq_nil_iff.1 hlb).1
                have hb : back = [] := (List.append_eq_nil_iff.1 hlb).2
                subst hl hb
                cases fuel with
                | zero => cases h
                | succ fuel => rw [hReint] at h; cases h; exact ⟨d.l, rfl⟩
              | cons y m =>
                rw [hlb, List.getLast?_cons_cons, ← hlb] at hz
                obtain ⟨x', hx'⟩ := k8 _ hz
                refine ⟨x', ?_⟩
                rw [List.getLast?_cons, hx']; rfl

end Verif.Proj.Hess
