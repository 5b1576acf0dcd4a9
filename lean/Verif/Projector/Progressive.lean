import Verif.Projector.Dichotomy
import Verif.Path.Interpolated
set_option linter.unusedSectionVars false

/-!
# `pathProjector::Progressive` (C48)
-/
namespace Verif.Proj
open Verif.PathV (Ipath insertPt)
variable {P C K : Type} [Field K] [LinearOrder K] [IsStrictOrderedRing K]

/-- What the projection uses.
* `ini`, `fin`, `len`, `steer`: as in `DEnv`;
* `at p t`: configuration of the straight path `p` at time `t` (`toSplit->eval (qi, curStep)`, paths start at time 0);
* `d`: the distance of the projector;
* `sat`, `project`: `ConstraintSet::isSatisfied` and `apply`; the latter also changes the configuration when it returns `false`;
* `thr c q`: the threshold at iteration `c`, `q` being the initial configuration of `toSplit`: the step, or `sigma / K` with a bound of the
Hessian (progressive.cc:160-166, 197-202); it may be any value. -/
structure GEnv (P C K : Type) where
  ini : P → C
  fin : P → C
  len : P → K
  at_ : P → K → C
  d : C → C → K
  steer : C → C → P
  sat : C → Bool
  project : C → Bool × C
  thr : Nat → C → K

/-- Constants: `thresholdMin_`, `Eigen::NumTraits::epsilon`, the minimal length `1e-3`, `maxDichotomyTries` and `maxPathSplit`
(progressive.cc:138-141, 171-188). -/
structure GParams (K : Type) where
  thrMin : K
  eps : K
  minLen : K
  tries : Nat
  maxSplit : Nat

/-- The loop `do { ... } while (curLength > threshold || curLength < 1e-3)`: progressive.cc:183-190.  `cur` is `curLength`, `none` for the
maximal value of the type.  Returns `dicC` and `qi`. -/
def tryLoop (E : GEnv P C K) (G : GParams K) (threshold : K) (toSplit : P) (qb : C) : Nat → Nat → K → Option K → C → Nat × C
  | 0, dicC, _, _, qi => (dicC, qi)
  | n + 1, dicC, curStep, cur, _ =>
    let r := E.project (E.at_ toSplit curStep)
    let cur' := if r.1 = true then some (E.d qb r.2) else cur
    let again := match cur' with
      | none => true
      | some l => decide (threshold < l ∨ l < G.minLen)
    if again = true then tryLoop E G threshold toSplit qb n (dicC + 1) (curStep / 2) cur' r.2 else (dicC + 1, r.2)

/-- The main loop: progressive.cc:160-214.  `qi` is the variable of this name; returns `pathIsFullyProjected`, the queue `paths` and
`totalLength`, `none` when the loop is not finished. -/
def progLoop (E : GEnv P C K) (G : GParams K) (q2 : C) : Nat → Nat → P → C → List P → K → Option (Bool × List P × K)
  | 0, _, _, _, _, _ => none
  | n + 1, c, toSplit, qi, paths, total =>
    let qb := E.ini toSplit
    let threshold := E.thr c qb
    if E.len toSplit < threshold then some (true, paths ++ [toSplit], total + E.len toSplit)
    else if threshold < G.thrMin then some (false, paths, total)
    else
      let r := tryLoop E G threshold toSplit qb G.tries 0 (threshold - G.eps) none qi
      if G.tries ≤ r.1 ∨ G.maxSplit < c then some (false, paths, total)
      else if E.sat r.2 = false then some (false, paths, total)
      else
        let part := E.steer qb r.2
        progLoop E G q2 n (c + 1) (E.steer r.2 q2) r.2 (paths ++ [part]) (total + E.len part)

/-- The loop building the interpolated path: progressive.cc:238-247; `t` is the variable of this name. -/
def insertAll (E : GEnv P C K) : List P → K → Ipath K C → Ipath K C
  | [], _, ip => ip
  | p :: ps, t, ip => insertAll E ps (t + E.len p) (ip.insert t (E.ini p))

/-- The output of `project`. -/
inductive GOut (P C K : Type) where
  /-- the input path -/
  | same
  /-- the input path extracted on its initial time -/
  | point
  | single (p : P)
  | interp (ip : Ipath K C)

/-- `project`: progressive.cc:125-273, for a path with a constraint set; `active`: there is a projector with positive dimension.  Returns the
Boolean and the output, `none` if not assigned; the whole is `none` when the loop is not finished (see `C48_terminates`). -/
def progressive (E : GEnv P C K) (G : GParams K) (fuel : Nat) (active : Bool) (path : P) : Option (Bool × Option (GOut P C K)) :=
  let q1 := E.ini path
  let q2 := E.fin path
  if E.sat q2 = false then some (false, none)
  else if active = false then some (true, some .same)
  else match progLoop E G q2 fuel 0 (E.steer q1 q2) q1 [] 0 with
    | none => none
    | some (b, paths, total) => match paths with
      | [] => some (false, some .point)
      | [p] => some (b, some (.single p))
      | p :: p' :: ps =>
        some (b, some (.interp (insertAll E (p' :: ps) (E.len p)
          (Ipath.create q1 (E.fin ((p :: p' :: ps).getLast (by simp))) (0, total) none))))

/-! ## Specification -/

/-- Assumptions: the steering method joins its arguments by a path whose length is their distance, the distance is not negative and separates
configurations, a projected configuration satisfies the constraints. -/
structure GContract (E : GEnv P C K) : Prop where
  ini : ∀ a b, E.ini (E.steer a b) = a
  fin : ∀ a b, E.fin (E.steer a b) = b
  len : ∀ a b, E.len (E.steer a b) = E.d a b
  pos : ∀ a b, 0 ≤ E.d a b
  sep : ∀ a b, E.d a b = 0 → a = b

/-- The way points `l`: from configuration `a` at time `t` to configuration `e` at time `T`; all of them satisfy the constraints, consecutive
ones are at most `B` apart, and the difference of their times is their distance. -/
inductive Way (E : GEnv P C K) (B : K) : K → C → List (K × C) → K → C → Prop
  | last {t : K} {a : C} (h : E.sat a = true) : Way E B t a [(t, a)] t a
  | cons {t T : K} {a b e : C} {l : List (K × C)} (ha : E.sat a = true) (h0 : 0 < E.d a b) (hB : E.d a b ≤ B)
      (hl : Way E B (t + E.d a b) b l T e) : Way E B t a ((t, a) :: l) T e

/-- Result of the projection of a path from `q1`: a path reduced to `q1`, one path, or an interpolated path. -/
inductive Result (E : GEnv P C K) (B : K) (q1 : C) : GOut P C K → C → Prop
  | point : Result E B q1 .point q1
  | single {e : C} (h1 : E.sat q1 = true) (h2 : E.sat e = true) (h3 : E.d q1 e ≤ B) : Result E B q1 (.single (E.steer q1 e)) e
  | interp {e : C} {ip : Ipath K C} (h0 : ip.pr.1 = 0) (h : Way E B 0 q1 ip.pts ip.pr.2 e) : Result E B q1 (.interp ip) e

variable {E : GEnv P C K} {G : GParams K}

theorem tryLoop_spec (threshold : K) (toSplit : P) (qb : C) (n dicC : Nat) (curStep : K) (cur : Option K) (qi : C)
    (hcur : ∀ l, cur = some l → threshold < l ∨ l < G.minLen)
    (h : (tryLoop E G threshold toSplit qb n dicC curStep cur qi).1 < n + dicC) :
    G.minLen ≤ E.d qb (tryLoop E G threshold toSplit qb n dicC curStep cur qi).2 ∧
    E.d qb (tryLoop E G threshold toSplit qb n dicC curStep cur qi).2 ≤ threshold ∧
    ∃ q, E.project q = (true, (tryLoop E G threshold toSplit qb n dicC curStep cur qi).2) := by
  induction n generalizing dicC curStep cur qi with
  | zero => simp [tryLoop] at h
  | succ n ih =>
    rw [tryLoop] at h ⊢
    cases hr : E.project (E.at_ toSplit curStep) with
    | mk ok q =>
      rw [hr] at h
      cases ok with
      | true =>
        simp only [if_true] at h ⊢
        by_cases hc : threshold < E.d qb q ∨ E.d qb q < G.minLen
        · rw [if_pos (by simpa using hc)] at h ⊢
          exact ih _ _ _ _ (by intro l hl; cases hl; exact hc) (by omega)
        · rw [if_neg (by simpa using hc)] at h ⊢
          push Not at hc
          exact ⟨hc.2, hc.1, _, hr⟩
      | false =>
        simp only [Bool.false_eq_true, if_false] at h ⊢
        cases cur with
        | none =>
          simp only [if_true] at h ⊢
          exact ih _ _ _ _ (by simp) (by omega)
        | some l =>
          have := hcur l rfl
          simp only at h ⊢
          rw [if_pos (by simpa using this)] at h ⊢
          exact ih _ _ _ _ hcur (by omega)

/-- Consecutive pieces made by the steering method. -/
def GChain (E : GEnv P C K) (B : K) : C → List P → C → Prop
  | a, [], b => a = b
  | a, p :: l, b => ∃ c, p = E.steer a c ∧ E.sat a = true ∧ E.sat c = true ∧ E.d a c ≤ B ∧ GChain E B c l b

theorem GChain.append {B : K} {a b c : C} {l l' : List P} (h : GChain E B a l b) (h' : GChain E B b l' c) : GChain E B a (l ++ l') c := by
  induction l generalizing a with
  | nil => obtain rfl : a = b := h; exact h'
  | cons p l ih => obtain ⟨x, h1, h2, h3, h4, h5⟩ := h; exact ⟨x, h1, h2, h3, h4, ih h5⟩

theorem progLoop_spec (hE : GContract E) (hG : 0 < G.minLen) {B : K} (hB : ∀ c q, E.thr c q ≤ B) {q1 q2 : C} (hq2 : E.sat q2 = true)
    (fuel c : Nat) {b : C} (qi : C) {paths : List P} {total : K} (hb : E.sat b = true)
    (hc : GChain E B q1 paths b) (hp : ∀ p ∈ paths, 0 < E.len p) (ht : total = (paths.map E.len).sum)
    {ok : Bool} {res : List P} {T : K} (h : progLoop E G q2 fuel c (E.steer b q2) qi paths total = some (ok, res, T)) :
    (∃ e, GChain E B q1 res e ∧ (ok = true → e = q2)) ∧ (∀ p ∈ res.dropLast, 0 < E.len p) ∧ (ok = false → ∀ p ∈ res, 0 < E.len p) ∧
      T = (res.map E.len).sum := by
  induction fuel generalizing c b qi paths total with
  | zero => simp [progLoop] at h
  | succ n ih =>
    rw [progLoop] at h
    simp only [hE.ini, hE.len] at h
    have stop : some (false, paths, total) = some (ok, res, T) → (∃ e, GChain E B q1 res e ∧ (ok = true → e = q2)) ∧
        (∀ p ∈ res.dropLast, 0 < E.len p) ∧ (ok = false → ∀ p ∈ res, 0 < E.len p) ∧ T = (res.map E.len).sum := by
      intro h
      simp only [Option.some.injEq, Prod.mk.injEq] at h
      obtain ⟨rfl, rfl, rfl⟩ := h
      exact ⟨⟨b, hc, by simp⟩, fun p hp' => hp p (List.mem_of_mem_dropLast hp'), fun _ => hp, ht⟩
    by_cases h1 : E.d b q2 < E.thr c b
    · rw [if_pos h1] at h
      simp only [Option.some.injEq, Prod.mk.injEq] at h
      obtain ⟨rfl, rfl, rfl⟩ := h
      refine ⟨⟨q2, hc.append ?_, fun _ => rfl⟩, ?_, by simp, ?_⟩
      · exact ⟨q2, rfl, hb, hq2, le_trans (le_of_lt h1) (hB c b), rfl⟩
      · rw [List.dropLast_concat]; exact hp
      · rw [ht]; simp [hE.len]
    · rw [if_neg h1] at h
      by_cases h2 : E.thr c b < G.thrMin
      · rw [if_pos h2] at h; exact stop h
      · rw [if_neg h2] at h
        set r := tryLoop E G (E.thr c b) (E.steer b q2) b G.tries 0 (E.thr c b - G.eps) none qi with hr
        by_cases h3 : G.tries ≤ r.1 ∨ G.maxSplit < c
        · rw [if_pos h3] at h; exact stop h
        · rw [if_neg h3] at h
          by_cases h4 : E.sat r.2 = false
          · rw [if_pos h4] at h; exact stop h
          · rw [if_neg h4] at h
            simp only [Bool.not_eq_false] at h4
            push Not at h3
            obtain ⟨k1, k2, -⟩ := tryLoop_spec (E := E) (G := G) (E.thr c b) (E.steer b q2) b G.tries 0 (E.thr c b - G.eps) none qi
              (by simp) (by rw [← hr]; simpa using h3.1)
            rw [← hr] at k1 k2
            refine ih (c + 1) (b := r.2) r.2 h4 (hc.append ?_) ?_ ?_ h
            · exact ⟨r.2, rfl, hb, h4, le_trans k2 (hB c b), rfl⟩
            · intro p hp'
              rcases List.mem_append.1 hp' with hp' | hp'
              · exact hp p hp'
              · rw [List.mem_singleton.1 hp', hE.len]; exact lt_of_lt_of_le hG k1
            · rw [ht]; simp [hE.len]

theorem insertPt_mid (l : List (K × C)) (t T : K) (q e : C) (hl : ∀ x ∈ l, x.1 < t) :
    (t < T → insertPt (l ++ [(T, e)]) t q = l ++ [(t, q), (T, e)]) ∧ (t = T → insertPt (l ++ [(T, e)]) t q = l ++ [(T, e)]) := by
  induction l with
  | nil =>
    refine ⟨fun h => ?_, fun h => ?_⟩
    · simp [insertPt, h]
    · simp [insertPt, h]
  | cons x l ih =>
    have hx := hl x (by simp)
    obtain ⟨i1, i2⟩ := ih (fun y hy => hl y (by simp [hy]))
    refine ⟨fun h => ?_, fun h => ?_⟩
    · simp only [List.cons_append, insertPt]
      rw [if_neg (not_lt.2 (le_of_lt hx)), if_pos hx, i1 h]
    · simp only [List.cons_append, insertPt]
      rw [if_neg (not_lt.2 (le_of_lt hx)), if_pos hx, i2 h]

/-- The way points of the interpolated path, when the last piece is not reduced to a point. -/
def wps (E : GEnv P C K) : List P → K → C → List (K × C)
  | [], t, e => [(t, e)]
  | p :: ps, t, e => (t, E.ini p) :: wps E ps (t + E.len p) e

theorem insertAll_pr (ps : List P) (t : K) (ip : Ipath K C) : (insertAll E ps t ip).pr = ip.pr := by
  induction ps generalizing t ip with
  | nil => rfl
  | cons p ps ih => rw [insertAll, ih]; rfl

theorem insertAll_pts (hE : GContract E) {B : K} (ps : List P) (hne : ps ≠ []) {a e : C} (hch : GChain E B a ps e) (t T : K)
    (hT : T = t + (ps.map E.len).sum)
    (hpos : ∀ p ∈ ps.dropLast, 0 < E.len p) (l : List (K × C)) (hl : ∀ x ∈ l, x.1 < t) (ip : Ipath K C) (hip : ip.pts = l ++ [(T, e)]) :
    ∃ w, (insertAll E ps t ip).pts = l ++ w ∧ Way E B t a w T e := by
  induction ps generalizing t l ip a with
  | nil => exact absurd rfl hne
  | cons p ps ih =>
    obtain ⟨c, rfl, h1, h2, h3, h4⟩ := hch
    rw [insertAll, hE.ini, hE.len]
    cases ps with
    | nil =>
      obtain rfl : c = e := h4
      simp only [List.map_cons, List.map_nil, List.sum_cons, List.sum_nil, add_zero, hE.len] at hT
      obtain ⟨m1, m2⟩ := insertPt_mid l t T a c hl
      by_cases h0 : E.d a c = 0
      · have hac := hE.sep a c h0
        subst hac
        refine ⟨[(t, a)], ?_, ?_⟩
        · show insertPt ip.pts t a = _
          rw [hip, m2 (by rw [hT, h0, add_zero]), hT, h0, add_zero]
        · rw [hT, h0, add_zero]; exact .last h1
      · have hp : 0 < E.d a c := lt_of_le_of_ne (hE.pos a c) (Ne.symm h0)
        refine ⟨[(t, a), (T, c)], ?_, ?_⟩
        · show insertPt ip.pts t a = _
          rw [hip, m1 (by rw [hT]; linarith)]
        · refine .cons h1 hp h3 ?_
          rw [hT]; exact .last h2
    | cons p' ps =>
      have hlen : 0 < E.d a c := by
        have := hpos (E.steer a c) (by simp)
        rwa [hE.len] at this
      have hnn : 0 ≤ ((p' :: ps).map E.len).sum := by
        have : ∀ (ps : List P) (a e : C), GChain E B a ps e → 0 ≤ (ps.map E.len).sum := by
          intro ps
          induction ps with
          | nil => intro a e _; simp
          | cons p ps ih =>
            rintro a e ⟨c, rfl, _, _, _, h⟩
            simp only [List.map_cons, List.sum_cons, hE.len]
            exact add_nonneg (hE.pos _ _) (ih c e h)
        exact this _ _ _ h4
      have htT : t < T := by
        rw [hT]
        simp only [List.map_cons, List.sum_cons, hE.len] at hnn ⊢
        linarith
      obtain ⟨m1, -⟩ := insertPt_mid l t T a e hl
      obtain ⟨w, k1, k2⟩ := ih (by simp) h4 (t + E.d a c) (by rw [hT, List.map_cons, List.sum_cons, hE.len]; ring)
        (fun q hq => hpos q (by simp only [List.dropLast_cons_cons, List.mem_cons]; exact Or.inr hq)) (l ++ [(t, a)])
        (by
          intro x hx
          rcases List.mem_append.1 hx with hx | hx
          · exact lt_trans (hl x hx) (by linarith)
          · rw [List.mem_singleton.1 hx]; show t < t + E.d a c; linarith)
        (ip.insert t a) (by show insertPt ip.pts t a = _; rw [hip, m1 htT]; simp)
      exact ⟨(t, a) :: w, by rw [k1]; simp, .cons h1 hlen h3 k2⟩

/-- C48: the initial configuration is assumed to satisfy the constraints (the code only asserts it).  When the projection of a path with active
constraints succeeds, the output is a path of the steering method or an interpolated path, from the initial to the final configuration; all
its way points satisfy the constraints and consecutive way points are at distance at most the largest threshold `B`.  When it fails, the
output, if assigned, is the same from the initial configuration to some configuration.  Without active constraints the output is the path. -/
theorem C48_progressive (hE : GContract E) (hG : 0 < G.minLen) {B : K} (hB : ∀ c q, E.thr c q ≤ B) (fuel : Nat) (active : Bool) (path : P)
    (hq1 : E.sat (E.ini path) = true) {ok : Bool} {out : Option (GOut P C K)} (h : progressive E G fuel active path = some (ok, out)) :
    (ok = true → (active = false ∧ out = some .same) ∨ ∃ x, out = some x ∧ Result E B (E.ini path) x (E.fin path)) ∧
    (ok = false → ∀ x, out = some x → ∃ e, Result E B (E.ini path) x e) := by
  unfold progressive at h
  dsimp only at h
  by_cases hq2 : E.sat (E.fin path) = false
  · rw [if_pos hq2] at h
    simp only [Option.some.injEq, Prod.mk.injEq] at h
    obtain ⟨rfl, rfl⟩ := h
    simp
  · rw [if_neg hq2] at h
    simp only [Bool.not_eq_false] at hq2
    cases active with
    | false =>
      rw [if_pos rfl] at h
      simp only [Option.some.injEq, Prod.mk.injEq] at h
      obtain ⟨rfl, rfl⟩ := h
      exact ⟨fun _ => Or.inl ⟨rfl, rfl⟩, by simp⟩
    | true =>
      rw [if_neg (by simp)] at h
      cases hp : progLoop E G (E.fin path) fuel 0 (E.steer (E.ini path) (E.fin path)) (E.ini path) [] 0 with
      | none => rw [hp] at h; simp at h
      | some x =>
        obtain ⟨b, paths, total⟩ := x
        rw [hp] at h
        dsimp only at h
        obtain ⟨⟨e, k1, k2⟩, k3, k4, k5⟩ := progLoop_spec hE hG hB hq2 fuel 0 (E.ini path) hq1
          (show GChain E B (E.ini path) [] (E.ini path) from rfl) (by simp) (by simp) hp
        match paths, k1, k3, k4, k5, h, hp with
        | [], k1, k3, k4, k5, h, hp =>
          simp only [Option.some.injEq, Prod.mk.injEq] at h
          obtain ⟨rfl, rfl⟩ := h
          refine ⟨by simp, ?_⟩
          intro _ x hx
          cases hx
          exact ⟨_, .point⟩
        | [p], k1, k3, k4, k5, h, hp =>
          simp only [Option.some.injEq, Prod.mk.injEq] at h
          obtain ⟨rfl, rfl⟩ := h
          obtain ⟨c, rfl, h1, h2, h3, rfl⟩ := k1
          refine ⟨fun hh => Or.inr ⟨_, rfl, ?_⟩, ?_⟩
          · rw [← k2 hh]; exact .single h1 h2 h3
          · intro _ x hx
            cases hx
            exact ⟨c, .single h1 h2 h3⟩
        | p :: p' :: ps, k1, k3, k4, k5, h, hp =>
          simp only [Option.some.injEq, Prod.mk.injEq] at h
          obtain ⟨rfl, rfl⟩ := h
          have hlast : ∀ (ps : List P) (hne : ps ≠ []) (a e : C), GChain E B a ps e → E.fin (ps.getLast hne) = e := by
            intro ps
            induction ps with
            | nil => intro hne; exact absurd rfl hne
            | cons p ps ih =>
              intro hne a e hc
              obtain ⟨c, rfl, _, _, _, hc⟩ := hc
              cases ps with
              | nil => obtain rfl : c = e := hc; simp [hE.fin]
              | cons p' ps => rw [List.getLast_cons (by simp)]; exact ih (by simp) c e hc
          have hl := hlast _ (by simp) _ _ k1
          rw [hl]
          obtain ⟨c, rfl, h1, h2, h3, h4⟩ := k1
          have hlen : 0 < E.d (E.ini path) c := by
            have := k3 (E.steer (E.ini path) c) (by simp)
            rwa [hE.len] at this
          have hnn : ∀ (ps : List P) (a e : C), GChain E B a ps e → 0 ≤ (ps.map E.len).sum := by
            intro ps
            induction ps with
            | nil => intro a e _; simp
            | cons p ps ih =>
              rintro a e ⟨c, rfl, _, _, _, h⟩
              simp only [List.map_cons, List.sum_cons, hE.len]
              exact add_nonneg (hE.pos _ _) (ih c e h)
          have hn4 := hnn _ _ _ h4
          have htot : total = E.d (E.ini path) c + ((p' :: ps).map E.len).sum := by rw [k5]; simp [hE.len]
          have hpts : (Ipath.create (E.ini path) e (0, total) none : Ipath K C).pts = [(0, E.ini path)] ++ [(total, e)] := by
            have : (0 : K) < total := by rw [htot]; linarith
            show insertPt (insertPt [] 0 (E.ini path)) total e = _
            simp only [insertPt]
            rw [if_neg (not_lt.2 (le_of_lt this)), if_pos this]
            rfl
          obtain ⟨w, m1, m2⟩ := insertAll_pts hE (p' :: ps) (by simp) h4 (E.d (E.ini path) c) total htot
            (fun q hq => k3 q (by simp only [List.dropLast_cons_cons, List.mem_cons]; exact Or.inr hq)) [(0, E.ini path)]
            (by intro x hx; rw [List.mem_singleton.1 hx]; exact hlen) _ hpts
          have hres : Result E B (E.ini path) (.interp (insertAll E (p' :: ps) (E.len (E.steer (E.ini path) c))
              (Ipath.create (E.ini path) e (0, total) none))) e := by
            refine .interp ?_ ?_
            · rw [insertAll_pr]; rfl
            · rw [insertAll_pr, hE.len, m1]
              refine .cons h1 hlen h3 ?_
              rw [zero_add]
              exact m2
          refine ⟨fun hh => Or.inr ⟨_, rfl, ?_⟩, ?_⟩
          · rw [← k2 hh]; exact hres
          · intro _ x hx
            cases hx
            exact ⟨e, hres⟩

/-- C48 (termination): the loop ends after at most `maxPathSplit + 3` iterations. -/
theorem C48_terminates (active : Bool) (path : P) : progressive E G (G.maxSplit + 3) active path ≠ none := by
  have key : ∀ (n c : Nat), G.maxSplit + 2 < c + n → 0 < n → ∀ (s : P) (qi q2 : C) (paths : List P) (total : K),
      progLoop E G q2 n c s qi paths total ≠ none := by
    intro n
    induction n with
    | zero => intro c _ h; omega
    | succ n ih =>
      intro c hc _ s qi q2 paths total
      rw [progLoop]
      dsimp only
      split
      · simp
      · split
        · simp
        · split
          · simp
          · rename_i h3
            split
            · simp
            · push Not at h3
              exact ih (c + 1) (by omega) (by omega) _ _ _ _ _
  unfold progressive
  dsimp only
  split
  · simp
  · split
    · simp
    · cases hp : progLoop E G (E.fin path) (G.maxSplit + 3) 0 (E.steer (E.ini path) (E.fin path)) (E.ini path) [] 0 with
      | none => exact absurd hp (key _ 0 (by omega) (by omega) _ _ _ _ _)
      | some x =>
        obtain ⟨b, paths, total⟩ := x
        dsimp only
        split <;> simp

/-! ## Witness -/

/-- Segments of the rational line, the constraint is "not beyond 10". -/
def lineG (step : ℚ) : GEnv (ℚ × ℚ) ℚ ℚ where
  ini := Prod.fst
  fin := Prod.snd
  len p := |p.2 - p.1|
  at_ p t := if p.1 ≤ p.2 then p.1 + t else p.1 - t
  d a b := |b - a|
  steer a b := (a, b)
  sat q := decide (q ≤ 10)
  project q := (decide (q ≤ 10), q)
  thr _ _ := step

def lineGP : GParams ℚ := ⟨1 / 1000, 1 / 1000000, 1 / 1000, 10, 100⟩

example : GContract (lineG 1) :=
  ⟨fun _ _ => rfl, fun _ _ => rfl, fun _ _ => rfl, fun _ _ => abs_nonneg _, fun a b h => by
    have : b - a = 0 := abs_eq_zero.1 h
    linarith⟩

/-- three way points between 0 and 5/2 -/
example : (match progressive (lineG 1) lineGP 103 true (0, 5 / 2) with
    | some (b, some (.interp ip)) => some (b, ip.pts) | _ => none) =
    some (true, [(0, 0), (1 - 1 / 1000000, 1 - 1 / 1000000), (2 - 2 / 1000000, 2 - 2 / 1000000), (5 / 2, 5 / 2)]) := by decide +kernel

end Verif.Proj
