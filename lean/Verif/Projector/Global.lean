import Verif.Path.InterpolatedProps
set_option linter.unusedSectionVars false

/-!
# The global path projector without bound on the hessian (C95)

Model of `Global::project`: src/path-projector/global.cc:129-179, used when the parameter `PathProjection/HessianBound` is not positive (the default).

The lists `q`, `b`, `l` and `a` of the code are modified together: an element of `b` and `a` goes with a configuration that is neither the first nor the last one, an
element of `l` with a configuration that is not the first one.  They are modelled by one list of items; the item of the last configuration has a
Boolean that is not used.  The iterator `last` cuts the list in two.  The answers of the solver are arbitrary, and so is the detection of discontinuities
(global.cc:269-308), which reads a column of `oldQ` which has not been initialized.
-/
namespace Verif.Proj
open Verif.PathV
variable {K C : Type} [Field K] [LinearOrder K] [IsStrictOrderedRing K]

/-- A configuration but the first one: whether it is projected, and the length recorded from the previous one. -/
structure Item (K C : Type) where
  q : C
  b : Bool
  l : K
  deriving DecidableEq

/-- Distance and middle of two configurations. -/
structure GlEnv (K C : Type) where
  dist : C → C → K
  mid : C → C → C

/-- What happens during one call to `projectOneStep`: `step i q` is the result of `oneStep` for configuration `i`, `jump i` is whether a discontinuity is detected
between configurations `i - 1` and `i`. -/
structure Answers (C : Type) where
  step : ℕ → C → Bool × C
  jump : ℕ → Bool

/-- The state: first configuration, the items before `last`, the items from `last` on. -/
structure GlSt (K C : Type) where
  first : C
  front : List (Item K C)
  back : List (Item K C)

/-- Result of the loop of `projectOneStep`: items that were handled, the others if the loop was left, `allAreSatisfied` and `prevUpdated`. -/
structure Swept (K C : Type) where
  done : List (Item K C)
  rest : Option (List (Item K C))
  all : Bool
  upd : Bool

/-- The loop of `projectOneStep`: global.cc:261-319; `pu` is `prevUpdated`. -/
def sweep (E : GlEnv K C) (A : Answers C) : ℕ → C → Bool → List (Item K C) → Swept K C
  | _, _, pu, [] => ⟨[], none, true, pu⟩
  | i, prev, pu, it :: l =>
    if it.b then
      let r := sweep E A (i + 1) it.q false l
      ⟨(if pu then ⟨it.q, it.b, E.dist prev it.q⟩ else it) :: r.done, r.rest, r.all, r.upd⟩
    else if pu && A.jump i then ⟨[], some (⟨(A.step i it.q).2, (A.step i it.q).1, it.l⟩ :: l), false, true⟩
    else
      let r := sweep E A (i + 1) (A.step i it.q).2 true l
      ⟨⟨(A.step i it.q).2, (A.step i it.q).1, E.dist prev (A.step i it.q).2⟩ :: r.done, r.rest, (A.step i it.q).1 && r.all, r.upd⟩

/-- Assign the length of the first item. -/
def setHead (x : K) : List (Item K C) → List (Item K C)
  | [] => []
  | it :: l => ⟨it.q, it.b, x⟩ :: l

/-- The last configuration of a list of items, after `a`. -/
def lastQ (a : C) (l : List (Item K C)) : C := (l.getLast?.map Item.q).getD a

/-- `projectOneStep`: global.cc:241-323.  At the end the distance to the last configuration (`*end`) is computed, instead of the distance to `*last`. -/
def projectOneStep (E : GlEnv K C) (A : Answers C) (st : GlSt K C) : Bool × GlSt K C :=
  let r := sweep E A 0 st.first false st.front
  match r.rest with
  | some rest => (false, ⟨st.first, r.done.dropLast, r.done.getLast?.toList ++ rest ++ st.back⟩)
  | none => (r.all, ⟨st.first, r.done, if r.upd then setHead (E.dist (lastQ st.first r.done) (lastQ st.first st.back)) st.back else st.back⟩)

/-- `reinterpolate`: global.cc:352-410, for the items `front` after `prev`; `n` is `nbNewC`.  `none` if the loop is not over after `fuel` iterations. -/
def reinterpolate (E : GlEnv K C) (maxDist : K) : ℕ → C → List (Item K C) → List (Item K C) → ℤ → Option (List (Item K C) × List (Item K C) × ℤ)
  | 0, _, _, _, _ => none
  | _ + 1, _, [], back, n => some ([], back, n)
  | fuel + 1, prev, it :: l, back, n =>
    if maxDist < it.l then
      reinterpolate E maxDist fuel prev (⟨E.mid prev it.q, false, E.dist prev (E.mid prev it.q)⟩ :: ⟨it.q, it.b, E.dist (E.mid prev it.q) it.q⟩ :: l) back (n + 1)
    else if it.l < maxDist / 100 then
      match l with
      | nx :: l => reinterpolate E maxDist fuel prev (⟨nx.q, nx.b, E.dist prev nx.q⟩ :: l) back (n - 1)
      | [] => some ([], setHead (E.dist prev (lastQ prev (back.take 1))) back, n - 1)
    else (reinterpolate E maxDist fuel it.q l back n).map fun r => (it :: r.1, r.2.1, r.2.2)

/-- Number of configurations. -/
def GlSt.size (st : GlSt K C) : ℕ := 1 + st.front.length + st.back.length

/-- Parameters: `step_`, `p.maxIterations ()` and `maxCfgNum`. -/
structure GlParams (K : Type) where
  step : K
  maxIter : ℕ
  maxNum : ℕ

/-- The loop of `project`: global.cc:151-169; `none` if it is not over (`fuel` for this loop, `fr` for the one of `reinterpolate`). -/
def globalLoop (E : GlEnv K C) (G : GlParams K) (A : ℕ → Answers C) (fr : ℕ) : ℕ → ℕ → ℕ → GlSt K C → Option (GlSt K C)
  | 0, _, _, _ => none
  | fuel + 1, t, nbIter, st =>
    let r := projectOneStep E (A t) st
    if r.1 then some r.2
    else if r.2.size < G.maxNum then
      match reinterpolate E G.step fr r.2.first r.2.front r.2.back 0 with
      | none => none
      | some (front, back, n) =>
        let nbIter := (if 0 < n then 0 else nbIter) + 1
        if G.maxIter < nbIter then some ⟨r.2.first, front, back⟩ else globalLoop E G A fr fuel (t + 1) nbIter ⟨r.2.first, front, back⟩
    else if G.maxIter < nbIter + 1 then some r.2 else globalLoop E G A fr fuel (t + 1) (nbIter + 1) r.2

/-- The first loop of `createPath`: global.cc:474-487, on the configurations but the first and the last ones; the items kept, and `fullyProjected`. -/
def scan (step : K) : List (Item K C) → List (Item K C) × Bool
  | [] => ([], true)
  | it :: l => if it.b = false ∨ step < it.l then ([], false) else (it :: (scan step l).1, (scan step l).2)

/-- The second loop of `createPath`: global.cc:513-517. -/
def insertItems : K → List (Item K C) → Ipath K C → Ipath K C
  | _, [], ip => ip
  | t, it :: l, ip => insertItems (t + it.l) l (ip.insert (t + it.l) it.q)

/-- The path through the items `wp` after `a`: global.cc:506-521. -/
def build (cons : Option (Cst K C)) (a : C) (wp : List (Item K C)) : Ipath K C :=
  insertItems 0 wp.dropLast (Ipath.create a (lastQ a wp) (0, (wp.map Item.l).sum) cons)

/-- `createPath`: global.cc:461-525 (`last` is not used). -/
def createPath (cons : Option (Cst K C)) (step : K) (st : GlSt K C) : Bool × Ipath K C :=
  let items := st.front ++ st.back
  let r := scan step items.dropLast
  (r.2, build cons st.first (if r.2 then r.1 ++ items.getLast?.toList else r.1))

/-- Result of `project`: the input path, an exception (`projected` is built with size `-2` or `-1`), a loop that is not over, a path. -/
inductive GlOut (K C : Type)
  | same
  | lengthError
  | running
  | path (ok : Bool) (ip : Ipath K C)

/-- `project`: global.cc:129-179, from the initial list of configurations. -/
def global (E : GlEnv K C) (G : GlParams K) (A : ℕ → Answers C) (fr fuel : ℕ) (cons : Option (Cst K C)) : List C → GlOut K C
  | a :: q :: q' :: l =>
    match globalLoop E G A fr fuel 0 0 ⟨a, ((q :: q' :: l).dropLast).map fun q => ⟨q, false, 0⟩, ((q :: q' :: l).getLast?.toList).map fun q => ⟨q, true, 0⟩⟩ with
    | none => .running
    | some st => .path (createPath cons G.step st).1 (createPath cons G.step st).2
  | [_, _] => .same
  | _ => .lengthError

/-- The loop of `initialConfigList`: global.cc:592-598. -/
def samples (at_ : K → C) (step L : K) : ℕ → K → Option (List C)
  | 0, _ => none
  | fuel + 1, t => if t < L then (samples at_ step L fuel (t + step * (99 / 100))).map (at_ t :: ·) else some []

/-- `initialConfigList`: global.cc:575-601 for a path which is not an interpolated path (for the latter, its way points). -/
def initialConfigs (at_ : K → C) (ini fin : C) (step L : K) (fuel : ℕ) : Option (List C) :=
  (samples at_ step L fuel step).map fun l => ini :: (l ++ [fin])

/-! ## Specification -/

/-- Assumptions: the distance is not negative and separates configurations. -/
structure GlContract (E : GlEnv K C) : Prop where
  pos : ∀ a b, 0 ≤ E.dist a b
  sep : ∀ a b, E.dist a b = 0 → a = b

/-- The solver reports that a configuration satisfies the constraints only if it does. -/
def Sound (Sat : C → Prop) (A : Answers C) : Prop := ∀ i q, (A.step i q).1 = true → Sat (A.step i q).2

/-- The recorded lengths are the distances. -/
def Exact (E : GlEnv K C) : C → List (Item K C) → Prop
  | _, [] => True
  | a, it :: l => it.l = E.dist a it.q ∧ Exact E it.q l

/-- Way points of a path: consecutive ones are separated by a positive time which is their distance. -/
def Timed (E : GlEnv K C) (pts : List (K × C)) : Prop :=
  ∀ (i : ℕ) (x y : K × C), pts[i]? = some x → pts[i + 1]? = some y → x.1 < y.1 ∧ y.1 - x.1 = E.dist x.2 y.2

/-! ## The path -/

/-- The way points: those with a null length are dropped. -/
def comp : K → List (Item K C) → List (K × C)
  | _, [] => []
  | t, it :: l => if it.l = 0 then comp t l else (t + it.l, it.q) :: comp (t + it.l) l

theorem insertPt_has {l : List (K × C)} (hs : l.Pairwise (fun x y => x.1 < y.1)) {t : K} (h : ∃ x ∈ l, x.1 = t) (q : C) : insertPt l t q = l := by
  induction l with
  | nil => obtain ⟨x, hx, _⟩ := h; cases hx
  | cons y l ih =>
    obtain ⟨h1, h2⟩ := List.pairwise_cons.1 hs
    obtain ⟨x, hx, rfl⟩ := h
    rw [insertPt]
    rcases List.mem_cons.1 hx with rfl | hx
    · rw [if_neg (lt_irrefl _), if_neg (lt_irrefl _)]
    · rw [if_neg (not_lt.2 (h1 x hx).le), if_pos (h1 x hx), ih h2 ⟨x, hx, rfl⟩]

theorem insertPt_before {l : List (K × C)} {t T : K} (q e : C) (hl : ∀ x ∈ l, x.1 < t) (h : t < T) : insertPt (l ++ [(T, e)]) t q = l ++ [(t, q), (T, e)] := by
  induction l with
  | nil => simp [insertPt, h]
  | cons x l ih =>
    have hx := hl x (by simp)
    rw [List.cons_append, insertPt, if_neg (not_lt.2 hx.le), if_pos hx, ih (fun y hy => hl y (by simp [hy]))]
    rfl

theorem sum_nonneg_of {E : GlEnv K C} (hE : GlContract E) {a : C} {l : List (Item K C)} (h : Exact E a l) : 0 ≤ (l.map Item.l).sum := by
  induction l generalizing a with
  | nil => simp
  | cons it l ih =>
    rw [List.map_cons, List.sum_cons, h.1]
    exact add_nonneg (hE.pos _ _) (ih h.2)

theorem lastQ_cons (a : C) (it : Item K C) (l : List (Item K C)) : lastQ a (it :: l) = lastQ it.q l := by
  unfold lastQ
  cases l with
  | nil => rfl
  | cons x l =>
    rw [List.getLast?_cons_cons]
    cases h : (x :: l).getLast? with
    | none => simp at h
    | some y => rfl

theorem lastQ_of_zero {E : GlEnv K C} (hE : GlContract E) {a : C} {l : List (Item K C)} (h : Exact E a l) (h0 : (l.map Item.l).sum = 0) : lastQ a l = a := by
  induction l generalizing a with
  | nil => rfl
  | cons it l ih =>
    rw [List.map_cons, List.sum_cons] at h0
    have h1 : 0 ≤ it.l := by rw [h.1]; exact hE.pos _ _
    have h2 := sum_nonneg_of hE h.2
    have e1 : it.l = 0 := by linarith
    have e2 : (l.map Item.l).sum = 0 := by linarith
    rw [lastQ_cons, ih h.2 e2]
    exact (hE.sep _ _ (by rw [← h.1, e1])).symm

theorem insertItems_pr (l : List (Item K C)) (t : K) (ip : Ipath K C) : (insertItems t l ip).pr = ip.pr ∧ (insertItems t l ip).cons = ip.cons := by
  induction l generalizing t ip with
  | nil => exact ⟨rfl, rfl⟩
  | cons it l ih => rw [insertItems]; exact ih _ _

theorem insertItems_pts {E : GlEnv K C} (hE : GlContract E) (it : Item K C) (l : List (Item K C)) (t T : K) (cur : C) (hex : Exact E cur (it :: l)) (hT : T = t + ((it :: l).map Item.l).sum)
    (L : List (K × C)) (hL : L.Pairwise (fun x y => x.1 < y.1)) (hLt : ∀ x ∈ L, x.1 < t) (ip : Ipath K C)
    (hip : ip.pts = L ++ [(t, cur)] ++ if t < T then [(T, lastQ cur (it :: l))] else []) :
    (insertItems t (it :: l).dropLast ip).pts = L ++ [(t, cur)] ++ comp t (it :: l) := by
  induction l generalizing it t cur L ip with
  | nil =>
    obtain ⟨h1, -⟩ := hex
    have hTe : T = t + it.l := by rw [hT]; simp
    show ip.pts = _
    rw [hip]
    congr 1
    by_cases h0 : it.l = 0
    · rw [if_neg (by rw [hTe, h0]; simp), comp, if_pos h0]; rfl
    · have : 0 < it.l := lt_of_le_of_ne (by rw [h1]; exact hE.pos _ _) (Ne.symm h0)
      rw [if_pos (by rw [hTe]; linarith), comp, if_neg h0, hTe]; rfl
  | cons it2 l ih =>
    obtain ⟨h1, h2⟩ := hex
    rw [List.dropLast_cons_cons, insertItems]
    have hpos : 0 ≤ it.l := by rw [h1]; exact hE.pos _ _
    have hsum := sum_nonneg_of hE h2
    have hT' : T = t + it.l + ((it2 :: l).map Item.l).sum := by rw [hT]; simp only [List.map_cons, List.sum_cons]; ring
    have hsort : (L ++ [(t, cur)] ++ if t < T then [(T, lastQ cur (it :: it2 :: l))] else []).Pairwise (fun x y => x.1 < y.1) := by
      rw [List.pairwise_append, List.pairwise_append]
      refine ⟨⟨hL, List.pairwise_singleton _ _, ?_⟩, ?_, ?_⟩
      · intro x hx y hy; rw [List.mem_singleton.1 hy]; exact hLt x hx
      · by_cases h : t < T
        · rw [if_pos h]; exact List.pairwise_singleton _ _
        · rw [if_neg h]; exact List.Pairwise.nil
      · intro x hx y hy
        by_cases h : t < T
        · rw [if_pos h] at hy
          rw [List.mem_singleton.1 hy]
          rcases List.mem_append.1 hx with hx | hx
          · exact (hLt x hx).trans h
          · rw [List.mem_singleton.1 hx]; exact h
        · rw [if_neg h] at hy; cases hy
    rw [lastQ_cons] at hip hsort
    by_cases h0 : it.l = 0
    · have hq : cur = it.q := hE.sep _ _ (by rw [← h1, h0])
      have : (ip.insert (t + it.l) it.q).pts = ip.pts := by
        show insertPt ip.pts (t + it.l) it.q = ip.pts
        rw [hip]
        exact insertPt_has hsort ⟨(t, cur), by simp, by simp [h0]⟩ _
      rw [show comp t (it :: it2 :: l) = comp t (it2 :: l) by rw [comp, if_pos h0], hq]
      rw [h0, add_zero] at hT' this ⊢
      exact ih it2 t it.q h2 hT' L hL hLt _ (by rw [this, hip, hq])
    · have hlt : 0 < it.l := lt_of_le_of_ne hpos (Ne.symm h0)
      have htT : t < T := by rw [hT']; linarith
      rw [show comp t (it :: it2 :: l) = (t + it.l, it.q) :: comp (t + it.l) (it2 :: l) by rw [comp, if_neg h0]]
      have hL' : (L ++ [(t, cur)]).Pairwise (fun x y => x.1 < y.1) := by
        rw [List.pairwise_append]
        refine ⟨hL, List.pairwise_singleton _ _, ?_⟩
        intro x hx y hy; rw [List.mem_singleton.1 hy]; exact hLt x hx
      have hLt' : ∀ x ∈ L ++ [(t, cur)], x.1 < t + it.l := by
        intro x hx
        rcases List.mem_append.1 hx with hx | hx
        · have := hLt x hx; linarith
        · rw [List.mem_singleton.1 hx]; show t < t + it.l; linarith
      have := ih it2 (t + it.l) it.q h2 hT' (L ++ [(t, cur)]) hL' hLt' (ip.insert (t + it.l) it.q) (by
        show insertPt ip.pts (t + it.l) it.q = _
        rw [if_pos htT] at hip hsort
        rw [hip]
        by_cases hlt2 : t + it.l < T
        · rw [if_pos hlt2, insertPt_before _ _ hLt' hlt2]; simp
        · have he : t + it.l = T := le_antisymm (by rw [hT']; linarith) (not_lt.1 hlt2)
          have hz : ((it2 :: l).map Item.l).sum = 0 := by rw [hT'] at he; linarith
          rw [if_neg hlt2, insertPt_has hsort ⟨(T, lastQ it.q (it2 :: l)), by simp, he.symm⟩, lastQ_of_zero hE h2 hz, he]
          simp)
      rw [this]; simp

/-- The path built from exact items. -/
theorem build_pts {E : GlEnv K C} (hE : GlContract E) (cons : Option (Cst K C)) (a : C) (wp : List (Item K C)) (hex : Exact E a wp) :
    (build cons a wp).pts = (0, a) :: comp 0 wp ∧ (build cons a wp).pr = (0, (wp.map Item.l).sum) ∧ (build cons a wp).cons = cons := by
  refine ⟨?_, (insertItems_pr _ _ _).1, (insertItems_pr _ _ _).2⟩
  cases wp with
  | nil => simp [build, insertItems, Ipath.create, insertPt, comp]
  | cons it l =>
    have hs := sum_nonneg_of hE hex
    unfold build
    rw [insertItems_pts hE it l 0 _ a hex (by rw [zero_add]) [] List.Pairwise.nil (fun x hx => by cases hx)]
    · rfl
    · unfold Ipath.create
      by_cases h : 0 < ((it :: l).map Item.l).sum
      · rw [if_pos h]
        simp only [insertPt]
        rw [if_neg (not_lt.2 hs), if_pos h]; rfl
      · rw [if_neg h]
        simp only [insertPt]
        rw [if_neg (not_lt.2 hs), if_neg h]; rfl

theorem comp_mem {l : List (Item K C)} {t : K} {x : K × C} (h : x ∈ comp t l) : ∃ it ∈ l, x.2 = it.q := by
  induction l generalizing t with
  | nil => cases h
  | cons it l ih =>
    rw [comp] at h
    by_cases h0 : it.l = 0
    · rw [if_pos h0] at h
      obtain ⟨y, hy, e⟩ := ih h
      exact ⟨y, List.mem_cons_of_mem _ hy, e⟩
    · rw [if_neg h0] at h
      rcases List.mem_cons.1 h with rfl | h
      · exact ⟨it, List.mem_cons_self, rfl⟩
      · obtain ⟨y, hy, e⟩ := ih h
        exact ⟨y, List.mem_cons_of_mem _ hy, e⟩

theorem comp_last {E : GlEnv K C} (hE : GlContract E) {l : List (Item K C)} {t : K} {a : C} (hex : Exact E a l) :
    ((t, a) :: comp t l).getLast? = some (t + (l.map Item.l).sum, lastQ a l) := by
  induction l generalizing t a with
  | nil => simp [comp, lastQ]
  | cons it l ih =>
    rw [comp, lastQ_cons, List.map_cons, List.sum_cons]
    by_cases h0 : it.l = 0
    · have hq : a = it.q := hE.sep _ _ (by rw [← hex.1, h0])
      rw [if_pos h0, h0, zero_add, hq]
      exact ih hex.2
    · rw [if_neg h0, List.getLast?_cons_cons, ih hex.2, add_assoc]

theorem comp_timed {E : GlEnv K C} (hE : GlContract E) {l : List (Item K C)} {t : K} {a : C} (hex : Exact E a l) : Timed E ((t, a) :: comp t l) := by
  induction l generalizing t a with
  | nil => intro i x y _ hy; simp [comp] at hy
  | cons it l ih =>
    rw [comp]
    by_cases h0 : it.l = 0
    · have hq : a = it.q := hE.sep _ _ (by rw [← hex.1, h0])
      rw [if_pos h0, hq]
      exact ih hex.2
    · rw [if_neg h0]
      intro i x y hx hy
      cases i with
      | zero =>
        cases hx
        cases hy
        have : 0 < it.l := lt_of_le_of_ne (by rw [hex.1]; exact hE.pos _ _) (Ne.symm h0)
        refine ⟨by show t < t + it.l; linarith, ?_⟩
        show t + it.l - t = E.dist a it.q
        rw [← hex.1]; ring
      | succ i => exact ih hex.2 i x y hx hy

theorem comp_bound {E : GlEnv K C} (hE : GlContract E) {B : K} {l : List (Item K C)} {t : K} {a : C} (hex : Exact E a l) (hB : ∀ it ∈ l, it.l ≤ B) :
    ∀ (i : ℕ) (x y : K × C), ((t, a) :: comp t l)[i]? = some x → ((t, a) :: comp t l)[i + 1]? = some y → E.dist x.2 y.2 ≤ B := by
  induction l generalizing t a with
  | nil => intro i x y _ hy; simp [comp] at hy
  | cons it l ih =>
    have h1 := hB it List.mem_cons_self
    have h2 : ∀ it ∈ l, it.l ≤ B := fun y hy => hB y (List.mem_cons_of_mem _ hy)
    rw [comp]
    by_cases h0 : it.l = 0
    · have hq : a = it.q := hE.sep _ _ (by rw [← hex.1, h0])
      rw [if_pos h0, hq]
      exact ih hex.2 h2
    · rw [if_neg h0]
      intro i x y hx hy
      cases i with
      | zero =>
        cases hx
        cases hy
        rw [hex.1] at h1; exact h1
      | succ i => exact ih hex.2 h2 i x y hx hy

theorem comp_append (l l' : List (Item K C)) (t : K) : comp t (l ++ l') = comp t l ++ comp (t + (l.map Item.l).sum) l' := by
  induction l generalizing t with
  | nil => simp [comp]
  | cons it l ih =>
    rw [List.cons_append, comp, comp, List.map_cons, List.sum_cons]
    by_cases h0 : it.l = 0
    · rw [if_pos h0, if_pos h0, ih, h0, zero_add]
    · rw [if_neg h0, if_neg h0, ih, List.cons_append, add_assoc]

theorem exact_append {E : GlEnv K C} {a : C} {l l' : List (Item K C)} : Exact E a (l ++ l') ↔ Exact E a l ∧ Exact E (lastQ a l) l' := by
  induction l generalizing a with
  | nil => simp [Exact, lastQ]
  | cons it l ih => rw [List.cons_append, Exact, Exact, ih, lastQ_cons, and_assoc]

/-! ## `projectOneStep` -/

/-- Lengths are exact except around the configurations that are not projected. -/
def Semi (E : GlEnv K C) : Bool → C → List (Item K C) → Prop
  | _, _, [] => True
  | pu, prev, it :: l => (pu = true ∨ it.b = false ∨ it.l = E.dist prev it.q) ∧ Semi E (!it.b) it.q l

theorem Semi.any {E : GlEnv K C} {prev prev' : C} {l : List (Item K C)} (h : Semi E true prev l) : Semi E true prev' l := by
  cases l with
  | nil => trivial
  | cons it l => exact ⟨Or.inl rfl, h.2⟩

theorem Exact.semi {E : GlEnv K C} {prev : C} {l : List (Item K C)} (pu : Bool) (h : Exact E prev l) : Semi E pu prev l := by
  induction l generalizing prev pu with
  | nil => trivial
  | cons it l ih => exact ⟨Or.inr (Or.inr h.1), ih _ h.2⟩

theorem sweep_exact {E : GlEnv K C} {A : Answers C} (hj : ∀ i, A.jump i = false) (l back : List (Item K C)) (i : ℕ) (prev : C) (pu : Bool) (h : Semi E pu prev (l ++ back)) :
    (sweep E A i prev pu l).rest = none ∧ Exact E prev (sweep E A i prev pu l).done ∧
      Semi E (sweep E A i prev pu l).upd (lastQ prev (sweep E A i prev pu l).done) back := by
  induction l generalizing i prev pu with
  | nil => exact ⟨rfl, trivial, h⟩
  | cons it l ih =>
    obtain ⟨h1, h2⟩ := h
    rw [sweep]
    by_cases hb : it.b = true
    · rw [if_pos hb]
      rw [hb] at h2
      obtain ⟨k1, k2, k3⟩ := ih (i + 1) it.q false h2
      cases pu with
      | true => exact ⟨k1, ⟨rfl, k2⟩, by rw [lastQ_cons]; exact k3⟩
      | false =>
        have : it.l = E.dist prev it.q := by
          rcases h1 with h1 | h1 | h1
          · cases h1
          · rw [hb] at h1; cases h1
          · exact h1
        exact ⟨k1, ⟨this, k2⟩, by rw [lastQ_cons]; exact k3⟩
    · have hb' : it.b = false := by simpa using hb
      rw [if_neg hb, hj i, Bool.and_false, if_neg (by simp)]
      rw [hb'] at h2
      obtain ⟨k1, k2, k3⟩ := ih (i + 1) (A.step i it.q).2 true (Semi.any h2)
      exact ⟨k1, ⟨rfl, k2⟩, by rw [lastQ_cons]; exact k3⟩

/-- Items that are projected satisfy the constraints. -/
def Marked (Sat : C → Prop) (l : List (Item K C)) : Prop := ∀ it ∈ l, it.b = true → Sat it.q

theorem sweep_proj {E : GlEnv K C} {A : Answers C} {Sat : C → Prop} (hA : Sound Sat A) (l : List (Item K C)) (i : ℕ) (prev : C) (pu : Bool) (h : Marked Sat l) :
    Marked Sat ((sweep E A i prev pu l).done ++ (sweep E A i prev pu l).rest.getD []) ∧ ((sweep E A i prev pu l).all = true → ∀ it ∈ (sweep E A i prev pu l).done, it.b = true) := by
  induction l generalizing i prev pu with
  | nil => exact ⟨fun it hit => by simp [sweep] at hit, fun _ it hit => by simp [sweep] at hit⟩
  | cons it l ih =>
    have hl : Marked Sat l := fun y hy => h y (List.mem_cons_of_mem _ hy)
    rw [sweep]
    by_cases hb : it.b = true
    · rw [if_pos hb]
      obtain ⟨k1, k2⟩ := ih (i + 1) it.q false hl
      have hq : ∀ x : K, Sat (Item.mk it.q it.b x).q := fun x => h it List.mem_cons_self hb
      constructor
      · intro y hy hyb
        rcases List.mem_cons.1 hy with rfl | hy
        · cases pu <;> exact hq 0
        · exact k1 y hy hyb
      · intro ha y hy
        rcases List.mem_cons.1 hy with rfl | hy
        · cases pu <;> exact hb
        · exact k2 ha y hy
    · rw [if_neg hb]
      by_cases hj : (pu && A.jump i) = true
      · rw [if_pos hj]
        constructor
        · intro y hy hyb
          rcases List.mem_cons.1 hy with rfl | hy
          · exact hA i it.q hyb
          · exact hl y hy hyb
        · intro ha; cases ha
      · rw [if_neg hj]
        obtain ⟨k1, k2⟩ := ih (i + 1) (A.step i it.q).2 true hl
        constructor
        · intro y hy hyb
          rcases List.mem_cons.1 hy with rfl | hy
          · exact hA i it.q hyb
          · exact k1 y hy hyb
        · intro ha y hy
          have ha' := Bool.and_eq_true_iff.1 ha
          rcases List.mem_cons.1 hy with rfl | hy
          · exact ha'.1
          · exact k2 ha'.2 y hy

theorem sweep_nonneg {E : GlEnv K C} (hE : GlContract E) (A : Answers C) (l : List (Item K C)) (i : ℕ) (prev : C) (pu : Bool) (h : ∀ it ∈ l, 0 ≤ it.l) :
    ∀ it ∈ (sweep E A i prev pu l).done ++ (sweep E A i prev pu l).rest.getD [], 0 ≤ it.l := by
  induction l generalizing i prev pu with
  | nil => intro it hit; simp [sweep] at hit
  | cons it l ih =>
    have hl : ∀ it ∈ l, 0 ≤ it.l := fun y hy => h y (List.mem_cons_of_mem _ hy)
    rw [sweep]
    by_cases hb : it.b = true
    · rw [if_pos hb]
      intro y hy
      rcases List.mem_cons.1 hy with rfl | hy
      · cases pu
        · exact h it List.mem_cons_self
        · exact hE.pos _ _
      · exact ih _ _ _ hl y hy
    · rw [if_neg hb]
      by_cases hj : (pu && A.jump i) = true
      · rw [if_pos hj]
        intro y hy
        rcases List.mem_cons.1 hy with rfl | hy
        · exact h it List.mem_cons_self
        · exact hl y hy
      · rw [if_neg hj]
        intro y hy
        rcases List.mem_cons.1 hy with rfl | hy
        · exact hE.pos _ _
        · exact ih _ _ _ hl y hy

/-! ## Invariant -/

/-- State of the loop: the last configuration is `fin`, configurations which are marked satisfy the constraints. -/
structure GlInv (Sat : C → Prop) (a fin : C) (st : GlSt K C) : Prop where
  first : st.first = a
  back : st.back ≠ []
  fin : lastQ a st.back = fin
  proj : Marked Sat (st.front ++ st.back.dropLast)
  nonneg : ∀ it ∈ st.front ++ st.back, 0 ≤ it.l

theorem setHead_facts (x : K) (l : List (Item K C)) (a : C) : lastQ a (setHead x l) = lastQ a l ∧ (setHead x l = [] ↔ l = []) := by
  cases l with
  | nil => exact ⟨rfl, by simp [setHead]⟩
  | cons it l => exact ⟨by rw [setHead, lastQ_cons, lastQ_cons], by simp [setHead]⟩

theorem setHead_dropLast (x : K) (l : List (Item K C)) : (setHead x l).dropLast = setHead x l.dropLast := by
  cases l with
  | nil => rfl
  | cons it l => cases l <;> rfl

theorem setHead_mem {x : K} {l : List (Item K C)} {y : Item K C} (h : y ∈ setHead x l) : y.l = x ∨ y ∈ l := by
  cases l with
  | nil => cases h
  | cons it l =>
    rcases List.mem_cons.1 h with rfl | h
    · exact Or.inl rfl
    · exact Or.inr (List.mem_cons_of_mem _ h)

theorem setHead_proj {Sat : C → Prop} {x : K} {l : List (Item K C)} (h : Marked Sat l) : Marked Sat (setHead x l) := by
  cases l with
  | nil => exact h
  | cons it l =>
    intro y hy hb
    rcases List.mem_cons.1 hy with rfl | hy
    · exact h it List.mem_cons_self hb
    · exact h y (List.mem_cons_of_mem _ hy) hb

theorem lastQ_append {a : C} {l l' : List (Item K C)} (h : l' ≠ []) : lastQ a (l ++ l') = lastQ a l' := by
  unfold lastQ
  rw [List.getLast?_append_of_ne_nil _ h]

theorem inv_step {E : GlEnv K C} (hE : GlContract E) {A : Answers C} {Sat : C → Prop} (hA : Sound Sat A) {a fin : C} {st : GlSt K C} (h : GlInv Sat a fin st) :
    GlInv Sat a fin (projectOneStep E A st).2 := by
  obtain ⟨k1, -⟩ := sweep_proj (E := E) hA st.front 0 st.first false (fun y hy => h.proj y (List.mem_append_left _ hy))
  have k2 := sweep_nonneg hE A st.front 0 st.first false (fun y hy => h.nonneg y (List.mem_append_left _ hy))
  unfold projectOneStep
  simp only
  cases hr : (sweep E A 0 st.first false st.front).rest with
  | some rest =>
    rw [hr] at k1 k2
    simp only [Option.getD_some] at k1 k2
    have hd : ∀ y, y ∈ (sweep E A 0 st.first false st.front).done.dropLast ++ ((sweep E A 0 st.first false st.front).done.getLast?.toList ++ rest) →
        y ∈ (sweep E A 0 st.first false st.front).done ++ rest := by
      intro y hy
      rw [← List.append_assoc] at hy
      have e : (sweep E A 0 st.first false st.front).done.dropLast ++ (sweep E A 0 st.first false st.front).done.getLast?.toList = (sweep E A 0 st.first false st.front).done := by
        cases hd : (sweep E A 0 st.first false st.front).done with
        | nil => rfl
        | cons z zs => rw [List.getLast?_eq_some_getLast (by simp)]; exact List.dropLast_append_getLast (by simp)
      rwa [e] at hy
    refine ⟨h.first, by simp [h.back], ?_, ?_, ?_⟩
    · show lastQ a (_ ++ st.back) = fin
      rw [lastQ_append h.back, h.fin]
    · show Marked Sat (_ ++ (_ ++ st.back).dropLast)
      rw [List.dropLast_append_of_ne_nil h.back]
      intro y hy hb
      rw [← List.append_assoc] at hy
      rcases List.mem_append.1 hy with hy | hy
      · exact k1 y (hd y hy) hb
      · exact h.proj y (List.mem_append_right _ hy) hb
    · intro y hy
      rw [← List.append_assoc] at hy
      rcases List.mem_append.1 hy with hy | hy
      · exact k2 y (hd y hy)
      · exact h.nonneg y (List.mem_append_right _ hy)
  | none =>
    rw [hr] at k1 k2
    simp only [Option.getD_none, List.append_nil] at k1 k2
    simp only
    by_cases hu : (sweep E A 0 st.first false st.front).upd = true
    · rw [if_pos hu]
      refine ⟨h.first, ?_, ?_, ?_, ?_⟩
      · exact fun hc => h.back ((setHead_facts _ _ a).2.1 hc)
      · exact ((setHead_facts _ _ a).1).trans h.fin
      · show Marked Sat (_ ++ (setHead _ st.back).dropLast)
        rw [setHead_dropLast]
        intro y hy hb
        rcases List.mem_append.1 hy with hy | hy
        · exact k1 y hy hb
        · exact setHead_proj (fun y hy => h.proj y (List.mem_append_right _ hy)) y hy hb
      · intro y hy
        rcases List.mem_append.1 hy with hy | hy
        · exact k2 y hy
        · rcases setHead_mem hy with e | hy
          · rw [e]; exact hE.pos _ _
          · exact h.nonneg y (List.mem_append_right _ hy)
    · rw [if_neg hu]
      refine ⟨h.first, h.back, h.fin, ?_, ?_⟩
      · intro y hy hb
        rcases List.mem_append.1 hy with hy | hy
        · exact k1 y hy hb
        · exact h.proj y (List.mem_append_right _ hy) hb
      · intro y hy
        rcases List.mem_append.1 hy with hy | hy
        · exact k2 y hy
        · exact h.nonneg y (List.mem_append_right _ hy)

theorem reinterpolate_spec {E : GlEnv K C} (hE : GlContract E) {Sat : C → Prop} {M : K} {fuel : ℕ} {prev : C} {front back : List (Item K C)} {n : ℤ} {front' back' : List (Item K C)} {n' : ℤ}
    (h : reinterpolate E M fuel prev front back n = some (front', back', n')) :
    (Marked Sat front → Marked Sat front') ∧ ((∀ it ∈ front ++ back, 0 ≤ it.l) → ∀ it ∈ front' ++ back', 0 ≤ it.l) ∧ (back' = back ∨ ∃ x, 0 ≤ x ∧ back' = setHead x back) ∧
      (back ≠ [] → Exact E prev (front ++ back) → Exact E prev (front' ++ back')) := by
  induction fuel generalizing prev front n front' n' with
  | zero => cases h
  | succ fuel ih =>
    cases front with
    | nil =>
      rw [reinterpolate] at h
      cases h
      exact ⟨id, id, Or.inl rfl, fun _ => id⟩
    | cons it l =>
      rw [reinterpolate.eq_def] at h
      simp only at h
      by_cases h1 : M < it.l
      · rw [if_pos h1] at h
        obtain ⟨k1, k2, k3, k4⟩ := ih h
        refine ⟨fun hp => k1 ?_, fun hp => k2 ?_, k3, fun hb hx => k4 hb ?_⟩
        · intro y hy hyb
          rcases List.mem_cons.1 hy with rfl | hy
          · cases hyb
          · rcases List.mem_cons.1 hy with rfl | hy
            · exact hp it List.mem_cons_self hyb
            · exact hp y (List.mem_cons_of_mem _ hy) hyb
        · intro y hy
          rcases List.mem_cons.1 hy with rfl | hy
          · exact hE.pos _ _
          · rcases List.mem_cons.1 hy with rfl | hy
            · exact hE.pos _ _
            · exact hp y (List.mem_cons_of_mem _ hy)
        · exact ⟨rfl, rfl, hx.2⟩
      · rw [if_neg h1] at h
        by_cases h2 : it.l < M / 100
        · rw [if_pos h2] at h
          cases l with
          | nil =>
            simp only [Option.some.injEq, Prod.mk.injEq] at h
            obtain ⟨rfl, rfl, rfl⟩ := h
            refine ⟨fun _ y hy => (by cases hy), fun hp y hy => ?_, Or.inr ⟨_, hE.pos _ _, rfl⟩, fun hb hx => ?_⟩
            · rcases setHead_mem hy with e | hy
              · rw [e]; exact hE.pos _ _
              · exact hp y (List.mem_cons_of_mem _ hy)
            · cases back with
              | nil => exact absurd rfl hb
              | cons nx bk => exact ⟨rfl, hx.2.2⟩
          | cons nx l =>
            simp only at h
            obtain ⟨k1, k2, k3, k4⟩ := ih h
            refine ⟨fun hp => k1 ?_, fun hp => k2 ?_, k3, fun hb hx => k4 hb ?_⟩
            · intro y hy hyb
              rcases List.mem_cons.1 hy with rfl | hy
              · exact hp nx (by simp) hyb
              · exact hp y (by simp [hy]) hyb
            · intro y hy
              rcases List.mem_cons.1 hy with rfl | hy
              · exact hE.pos _ _
              · exact hp y (by simp only [List.cons_append, List.mem_cons]; exact Or.inr (Or.inr hy))
            · exact ⟨rfl, hx.2.2⟩
        · rw [if_neg h2] at h
          cases hr : reinterpolate E M fuel it.q l back n with
          | none => rw [hr] at h; cases h
          | some r =>
            rw [hr] at h
            simp only [Option.map_some, Option.some.injEq, Prod.mk.injEq] at h
            obtain ⟨rfl, rfl, rfl⟩ := h
            obtain ⟨k1, k2, k3, k4⟩ := ih hr
            refine ⟨fun hp => ?_, fun hp => ?_, k3, fun hb hx => ⟨hx.1, k4 hb hx.2⟩⟩
            · intro y hy hyb
              rcases List.mem_cons.1 hy with rfl | hy
              · exact hp y List.mem_cons_self hyb
              · exact k1 (fun z hz => hp z (List.mem_cons_of_mem _ hz)) y hy hyb
            · intro y hy
              rcases List.mem_cons.1 hy with rfl | hy
              · exact hp y List.mem_cons_self
              · exact k2 (fun z hz => hp z (List.mem_cons_of_mem _ hz)) y hy

theorem inv_reinterpolate {E : GlEnv K C} (hE : GlContract E) {Sat : C → Prop} {M : K} {fuel : ℕ} {a fin : C} {st : GlSt K C} (h : GlInv Sat a fin st) {front' back' : List (Item K C)} {n' : ℤ}
    (hr : reinterpolate E M fuel st.first st.front st.back 0 = some (front', back', n')) : GlInv Sat a fin ⟨st.first, front', back'⟩ := by
  obtain ⟨k1, k2, k3, -⟩ := reinterpolate_spec (Sat := Sat) hE hr
  have hf : Marked Sat front' := k1 fun y hy => h.proj y (List.mem_append_left _ hy)
  have hb : Marked Sat st.back.dropLast := fun y hy => h.proj y (List.mem_append_right _ hy)
  rcases k3 with rfl | ⟨x, _, rfl⟩
  · exact ⟨h.first, h.back, h.fin, fun y hy => (List.mem_append.1 hy).elim (hf y) (hb y), k2 h.nonneg⟩
  · refine ⟨h.first, fun hc => h.back ((setHead_facts _ _ a).2.1 hc), ((setHead_facts _ _ a).1).trans h.fin, fun y hy => ?_, k2 h.nonneg⟩
    rcases List.mem_append.1 hy with hy | hy
    · exact hf y hy
    · rw [show (GlSt.mk st.first front' (setHead x st.back)).back = setHead x st.back from rfl, setHead_dropLast] at hy
      exact setHead_proj hb y hy

/-- Induction on the iterations. -/
theorem globalLoop_ind {E : GlEnv K C} {G : GlParams K} {A : ℕ → Answers C} {fr : ℕ} (I J : GlSt K C → Prop) (hstep : ∀ t st, I st → J (projectOneStep E (A t) st).2)
    (hre : ∀ st front back n, J st → reinterpolate E G.step fr st.first st.front st.back 0 = some (front, back, n) → J ⟨st.first, front, back⟩) (hJI : ∀ st, J st → I st) :
    ∀ (fuel t nbIter : ℕ) (st out : GlSt K C), I st → globalLoop E G A fr fuel t nbIter st = some out → J out := by
  intro fuel
  induction fuel with
  | zero => intro t nbIter st out _ h; cases h
  | succ fuel ih =>
    intro t nbIter st out hI h
    rw [globalLoop] at h
    simp only at h
    have hJ := hstep t st hI
    by_cases h1 : (projectOneStep E (A t) st).1 = true
    · rw [if_pos h1] at h; cases h; exact hJ
    · rw [if_neg h1] at h
      by_cases h2 : (projectOneStep E (A t) st).2.size < G.maxNum
      · rw [if_pos h2] at h
        cases hr : reinterpolate E G.step fr (projectOneStep E (A t) st).2.first (projectOneStep E (A t) st).2.front (projectOneStep E (A t) st).2.back 0 with
        | none => rw [hr] at h; cases h
        | some r =>
          obtain ⟨front, back, n⟩ := r
          rw [hr] at h
          simp only at h
          have hJ' := hre _ _ _ _ hJ hr
          by_cases h3 : G.maxIter < (if 0 < n then 0 else nbIter) + 1
          · rw [if_pos h3] at h; cases h; exact hJ'
          · rw [if_neg h3] at h; exact ih _ _ _ _ (hJI _ hJ') h
      · rw [if_neg h2] at h
        by_cases h3 : G.maxIter < nbIter + 1
        · rw [if_pos h3] at h; cases h; exact hJ
        · rw [if_neg h3] at h; exact ih _ _ _ _ (hJI _ hJ) h

/-! ## `createPath` -/

theorem scan_spec (step : K) (l : List (Item K C)) :
    (∃ r, l = (scan step l).1 ++ r) ∧ (∀ it ∈ (scan step l).1, it.b = true ∧ it.l ≤ step) ∧ ((scan step l).2 = true → (scan step l).1 = l) := by
  induction l with
  | nil => exact ⟨⟨[], rfl⟩, fun it h => (by cases h), fun _ => rfl⟩
  | cons it l ih =>
    rw [scan]
    by_cases h : it.b = false ∨ step < it.l
    · rw [if_pos h]; exact ⟨⟨_, rfl⟩, fun it h => (by cases h), fun h => (by cases h)⟩
    · rw [if_neg h]
      push Not at h
      obtain ⟨⟨r, k1⟩, k2, k3⟩ := ih
      refine ⟨⟨r, by rw [List.cons_append, ← k1]⟩, ?_, fun hs => by rw [k3 hs]⟩
      intro y hy
      rcases List.mem_cons.1 hy with rfl | hy
      · exact ⟨by simpa using h.1, h.2⟩
      · exact k2 y hy

theorem insertItems_good (l : List (Item K C)) (t : K) (ip : Ipath K C) (h : GoodPts ip) (hl : ∀ it ∈ l, 0 ≤ it.l) (h0 : ip.pr.1 ≤ t) (hT : t + (l.map Item.l).sum ≤ ip.pr.2) :
    GoodPts (insertItems t l ip) ∧ (∀ x ∈ ip.pts, x ∈ (insertItems t l ip).pts) ∧ ∀ x ∈ (insertItems t l ip).pts, x ∈ ip.pts ∨ ∃ it ∈ l, x.2 = it.q := by
  induction l generalizing t ip with
  | nil => exact ⟨h, fun x hx => hx, fun x hx => Or.inl hx⟩
  | cons it l ih =>
    rw [insertItems]
    rw [List.map_cons, List.sum_cons] at hT
    have h1 := hl it List.mem_cons_self
    have h2 : ∀ it ∈ l, 0 ≤ it.l := fun y hy => hl y (List.mem_cons_of_mem _ hy)
    have h3 : 0 ≤ (l.map Item.l).sum := List.sum_nonneg (by simpa using h2)
    obtain ⟨k1, k2, k3⟩ := ih (t + it.l) (ip.insert (t + it.l) it.q) (h.insert _ _ ⟨by linarith, by linarith⟩) h2 (by show ip.pr.1 ≤ _; linarith) (by show _ ≤ ip.pr.2; linarith)
    refine ⟨k1, fun x hx => k2 x ((mem_insertPt h.sorted _ _ _).2 (Or.inl hx)), fun x hx => ?_⟩
    rcases k3 x hx with hx | ⟨y, hy, e⟩
    · rcases (mem_insertPt h.sorted _ _ _).1 hx with hx | ⟨rfl, -⟩
      · exact Or.inl hx
      · exact Or.inr ⟨it, List.mem_cons_self, rfl⟩
    · exact Or.inr ⟨y, List.mem_cons_of_mem _ hy, e⟩

theorem lastQ_mem (a : C) (l : List (Item K C)) : lastQ a l = a ∨ ∃ it ∈ l, lastQ a l = it.q := by
  unfold lastQ
  cases h : l.getLast? with
  | none => exact Or.inl rfl
  | some x => exact Or.inr ⟨x, List.mem_of_getLast? h, rfl⟩

theorem build_good (cons : Option (Cst K C)) (a : C) (wp : List (Item K C)) (hl : ∀ it ∈ wp, 0 ≤ it.l) :
    GoodPts (build cons a wp) ∧ (0, a) ∈ (build cons a wp).pts ∧ (0 < (wp.map Item.l).sum → ((wp.map Item.l).sum, lastQ a wp) ∈ (build cons a wp).pts) ∧
      ∀ x ∈ (build cons a wp).pts, x.2 = a ∨ ∃ it ∈ wp, x.2 = it.q := by
  have hs : 0 ≤ (wp.map Item.l).sum := List.sum_nonneg (by simpa using hl)
  have hd : (wp.dropLast.map Item.l).sum ≤ (wp.map Item.l).sum := by
    rcases List.eq_nil_or_concat wp with rfl | ⟨l, x, rfl⟩
    · simp
    · simp only [List.concat_eq_append, List.dropLast_concat, List.map_append, List.sum_append, List.map_cons, List.map_nil, List.sum_cons, List.sum_nil, add_zero]
      have := hl x (by simp)
      linarith
  have hc := Ipath.create_good a (lastQ a wp) (0, (wp.map Item.l).sum) cons hs
  have hcp : ∀ x, x ∈ (Ipath.create a (lastQ a wp) (0, (wp.map Item.l).sum) cons).pts ↔ x = (0, a) ∨ (x = ((wp.map Item.l).sum, lastQ a wp) ∧ (wp.map Item.l).sum ≠ 0) := by
    intro x
    unfold Ipath.create
    simp only
    rw [insertPt, mem_insertPt (List.pairwise_singleton _ _)]
    simp only [List.mem_singleton, forall_eq]
    rw [ne_comm]
  obtain ⟨k1, k2, k3⟩ := insertItems_good wp.dropLast 0 _ hc (fun y hy => hl y (List.mem_of_mem_dropLast hy)) le_rfl (by rw [zero_add]; exact hd)
  refine ⟨k1, k2 _ ((hcp _).2 (Or.inl rfl)), fun hp => k2 _ ((hcp _).2 (Or.inr ⟨rfl, hp.ne'⟩)), fun x hx => ?_⟩
  rcases k3 x hx with hx | ⟨y, hy, e⟩
  · rcases (hcp x).1 hx with rfl | ⟨rfl, -⟩
    · exact Or.inl rfl
    · exact lastQ_mem a wp
  · exact Or.inr ⟨y, List.mem_of_mem_dropLast hy, e⟩

theorem front_back {a fin : C} {Sat : C → Prop} {st : GlSt K C} (h : GlInv Sat a fin st) :
    ∃ z, (st.front ++ st.back).getLast? = some z ∧ z.q = fin ∧ st.front ++ st.back = (st.front ++ st.back).dropLast ++ [z] ∧ (st.front ++ st.back).dropLast = st.front ++ st.back.dropLast := by
  refine ⟨st.back.getLast h.back, ?_, ?_, ?_, List.dropLast_append_of_ne_nil h.back⟩
  · rw [List.getLast?_append_of_ne_nil _ h.back, List.getLast?_eq_some_getLast h.back]
  · have e := h.fin
    unfold lastQ at e; rw [List.getLast?_eq_some_getLast h.back] at e; exact e
  · rw [List.dropLast_append_of_ne_nil h.back, List.append_assoc, List.dropLast_append_getLast]

/-- The initial state. -/
theorem global_path {E : GlEnv K C} {G : GlParams K} {A : ℕ → Answers C} {fr fuel : ℕ} {cons : Option (Cst K C)} {a fin : C} {mids : List C} {ok : Bool} {ip : Ipath K C}
    (h : global E G A fr fuel cons (a :: (mids ++ [fin])) = .path ok ip) :
    ∃ st, globalLoop E G A fr fuel 0 0 ⟨a, mids.map fun q => ⟨q, false, 0⟩, [⟨fin, true, 0⟩]⟩ = some st ∧ createPath cons G.step st = (ok, ip) := by
  cases mids with
  | nil => cases h
  | cons q l =>
    obtain ⟨q', l', e⟩ : ∃ q' l', l ++ [fin] = q' :: l' := by cases l <;> exact ⟨_, _, rfl⟩
    rw [List.cons_append, e, global, ← e, ← List.cons_append] at h
    rw [List.dropLast_concat, List.getLast?_concat] at h
    simp only [Option.toList_some, List.map_cons, List.map_nil] at h
    cases hl : globalLoop E G A fr fuel 0 0 ⟨a, (q :: l).map fun q => ⟨q, false, 0⟩, [⟨fin, true, 0⟩]⟩ with
    | none => simp only [List.map_cons] at hl; rw [hl] at h; cases h
    | some st =>
      refine ⟨st, rfl, ?_⟩
      simp only [List.map_cons] at hl
      rw [hl] at h
      cases h
      rfl

theorem inv_init (Sat : C → Prop) (a fin : C) (mids : List C) : GlInv (K := K) Sat a fin ⟨a, mids.map fun q => ⟨q, false, 0⟩, [⟨fin, true, 0⟩]⟩ := by
  refine ⟨rfl, by simp, rfl, ?_, ?_⟩
  · intro it hit hb
    simp only [List.dropLast_singleton, List.append_nil, List.mem_map] at hit
    obtain ⟨q, _, rfl⟩ := hit
    cases hb
  · intro it hit
    simp only [List.mem_append, List.mem_map, List.mem_singleton] at hit
    rcases hit with ⟨q, _, rfl⟩ | rfl <;> exact le_rfl

/-- C95: whatever the solver answers, and whether or not a discontinuity is detected, the path starts from the initial configuration, all its way points after that satisfy the constraints
but the last one in case of success, which is the last configuration of the input. -/
theorem C95_waypoints {E : GlEnv K C} (hE : GlContract E) (G : GlParams K) (A : ℕ → Answers C) (Sat : C → Prop) (hA : ∀ t, Sound Sat (A t)) (fr fuel : ℕ) (cons : Option (Cst K C)) (a fin : C)
    (mids : List C) (ok : Bool) (ip : Ipath K C) (h : global E G A fr fuel cons (a :: (mids ++ [fin])) = .path ok ip) :
    GoodPts ip ∧ ip.pr.1 = 0 ∧ ip.cons = cons ∧ (0, a) ∈ ip.pts ∧ (∀ x ∈ ip.pts, x.2 = a ∨ Sat x.2 ∨ (ok = true ∧ x.2 = fin)) ∧
      (ok = true → 0 < ip.pr.2 → (ip.pr.2, fin) ∈ ip.pts) := by
  obtain ⟨st, h1, h2⟩ := global_path h
  have hI : GlInv Sat a fin st := globalLoop_ind (GlInv Sat a fin) (GlInv Sat a fin) (fun t st hI => inv_step hE (hA t) hI) (fun st front back n hI hr => inv_reinterpolate hE hI hr) (fun _ h => h)
    fuel 0 0 _ st (inv_init Sat a fin mids) h1
  obtain ⟨z, z1, z2, z3, z4⟩ := front_back hI
  obtain ⟨⟨r, s1⟩, s2, s3⟩ := scan_spec G.step (st.front ++ st.back).dropLast
  unfold createPath at h2
  simp only [hI.first, z1, Option.toList_some] at h2
  cases h2
  have hmem : ∀ it ∈ (scan G.step (st.front ++ st.back).dropLast).1, it ∈ (st.front ++ st.back).dropLast := by
    intro it hit; rw [s1]; exact List.mem_append_left _ hit
  have hsat : ∀ it ∈ (scan G.step (st.front ++ st.back).dropLast).1, Sat it.q := by
    intro it hit
    have := hmem it hit
    rw [z4] at this
    exact hI.proj it this (s2 it hit).1
  have hnn : ∀ it ∈ (scan G.step (st.front ++ st.back).dropLast).1, 0 ≤ it.l := fun it hit => hI.nonneg it (List.mem_of_mem_dropLast (hmem it hit))
  by_cases hok : (scan G.step (st.front ++ st.back).dropLast).2 = true
  · rw [if_pos hok]
    obtain ⟨g1, g2, g3, g4⟩ := build_good cons a ((scan G.step (st.front ++ st.back).dropLast).1 ++ [z]) (by
      intro it hit
      rcases List.mem_append.1 hit with hit | hit
      · exact hnn it hit
      · rw [List.mem_singleton.1 hit]; exact hI.nonneg z (List.mem_of_getLast? z1))
    have hpr := (insertItems_pr ((scan G.step (st.front ++ st.back).dropLast).1 ++ [z]).dropLast 0
      (Ipath.create a (lastQ a ((scan G.step (st.front ++ st.back).dropLast).1 ++ [z])) (0, (((scan G.step (st.front ++ st.back).dropLast).1 ++ [z]).map Item.l).sum) cons))
    have hfin : lastQ a ((scan G.step (st.front ++ st.back).dropLast).1 ++ [z]) = fin := by rw [lastQ_append (by simp)]; exact z2
    refine ⟨g1, by unfold build; rw [hpr.1]; rfl, hpr.2, g2, ?_, ?_⟩
    · intro x hx
      rcases g4 x hx with e | ⟨it, hit, e⟩
      · exact Or.inl e
      · rcases List.mem_append.1 hit with hit | hit
        · exact Or.inr (Or.inl (by rw [e]; exact hsat it hit))
        · rw [List.mem_singleton.1 hit, z2] at e
          exact Or.inr (Or.inr ⟨hok, e⟩)
    · intro _ hp
      have e : (build cons a ((scan G.step (st.front ++ st.back).dropLast).1 ++ [z])).pr.2 = (((scan G.step (st.front ++ st.back).dropLast).1 ++ [z]).map Item.l).sum := by
        unfold build; rw [hpr.1]; rfl
      rw [e] at hp ⊢
      rw [← hfin]
      exact g3 hp
  · rw [if_neg hok]
    obtain ⟨g1, g2, g3, g4⟩ := build_good cons a (scan G.step (st.front ++ st.back).dropLast).1 hnn
    have hpr := (insertItems_pr ((scan G.step (st.front ++ st.back).dropLast).1).dropLast 0
      (Ipath.create a (lastQ a (scan G.step (st.front ++ st.back).dropLast).1) (0, ((scan G.step (st.front ++ st.back).dropLast).1.map Item.l).sum) cons))
    refine ⟨g1, by unfold build; rw [hpr.1]; rfl, hpr.2, g2, ?_, fun h => absurd h hok⟩
    intro x hx
    rcases g4 x hx with e | ⟨it, hit, e⟩
    · exact Or.inl e
    · exact Or.inr (Or.inl (by rw [e]; exact hsat it hit))

/-- Nothing was detected: `last` is the last configuration. -/
structure GlExact (E : GlEnv K C) (a fin : C) (st : GlSt K C) : Prop where
  first : st.first = a
  back : ∃ z, st.back = [z] ∧ z.q = fin ∧ z.b = true
  exact : Exact E a (st.front ++ st.back)

/-- C95, when no discontinuity is detected: consecutive way points are separated by their distance, which is at most the step, except for the last two ones in case of success.
Missing: the last segment, and what happens when a discontinuity is detected (see the counterexamples). -/
theorem C95_distances_partial {E : GlEnv K C} (hE : GlContract E) (G : GlParams K) (A : ℕ → Answers C) (hj : ∀ t i, (A t).jump i = false) (fr fuel : ℕ) (cons : Option (Cst K C)) (a fin : C)
    (mids : List C) (ok : Bool) (ip : Ipath K C) (h : global E G A fr fuel cons (a :: (mids ++ [fin])) = .path ok ip) :
    Timed E ip.pts ∧ (∃ q, ip.pts.getLast? = some (ip.pr.2, q) ∧ (ok = true → q = fin)) ∧
      ∀ (i : ℕ) (x y : K × C), ip.pts[i]? = some x → ip.pts[i + 1]? = some y → ok = false ∨ i + 2 < ip.pts.length → E.dist x.2 y.2 ≤ G.step := by
  obtain ⟨st, h1, h2⟩ := global_path h
  have hI : GlExact E a fin st := by
    refine globalLoop_ind (fun st => st.first = a ∧ (∃ z, st.back = [z] ∧ z.q = fin ∧ z.b = true) ∧ Semi E false a (st.front ++ st.back)) (GlExact E a fin) ?_ ?_ ?_ fuel 0 0 _ st ?_ h1
    · rintro t st ⟨i1, ⟨z, i2, i3, i4⟩, i5⟩
      obtain ⟨k1, k2, k3⟩ := sweep_exact (hj t) st.front st.back 0 a false i5
      unfold projectOneStep
      simp only [i1, k1]
      by_cases hu : (sweep E (A t) 0 a false st.front).upd = true
      · rw [if_pos hu, i2]
        refine ⟨rfl, ⟨⟨z.q, z.b, E.dist (lastQ a (sweep E (A t) 0 a false st.front).done) (lastQ a [z])⟩, rfl, i3, i4⟩, ?_⟩
        refine exact_append.2 ⟨k2, ⟨?_, trivial⟩⟩
        rfl
      · rw [if_neg hu]
        refine ⟨rfl, ⟨z, i2, i3, i4⟩, exact_append.2 ⟨k2, ?_⟩⟩
        rw [i2] at k3 ⊢
        have hu' : (sweep E (A t) 0 a false st.front).upd = false := by simpa using hu
        rw [hu'] at k3
        rcases k3.1 with e | e | e
        · cases e
        · rw [i4] at e; cases e
        · exact ⟨e, trivial⟩
    · rintro st front back n ⟨i1, ⟨z, i2, i3, i4⟩, i5⟩ hr
      obtain ⟨-, -, k3, k4⟩ := reinterpolate_spec (Sat := fun _ => True) hE hr
      rw [i1] at k4
      refine ⟨i1, ?_, k4 (by rw [i2]; simp) i5⟩
      rcases k3 with e | ⟨x, _, e⟩
      · exact ⟨z, by rw [e]; exact i2, i3, i4⟩
      · exact ⟨⟨z.q, z.b, x⟩, by show back = _; rw [e, i2]; rfl, i3, i4⟩
    · rintro st ⟨i1, i2, i3⟩
      exact ⟨i1, i2, i3.semi false⟩
    · refine ⟨rfl, ⟨_, rfl, rfl, rfl⟩, ?_⟩
      have : ∀ (l : List C) (pu : Bool) (prev : C), (pu = true ∨ l ≠ []) → Semi (K := K) E pu prev ((l.map fun q => ⟨q, false, 0⟩) ++ [⟨fin, true, 0⟩]) := by
        intro l
        induction l with
        | nil => intro pu prev hp; rcases hp with hp | hp
                 · exact ⟨Or.inl hp, trivial⟩
                 · exact absurd rfl hp
        | cons q l ih => intro pu prev _; exact ⟨Or.inr (Or.inl rfl), ih _ _ (Or.inl rfl)⟩
      refine this mids false a (Or.inr ?_)
      rintro rfl
      cases h
  obtain ⟨z, b1, b2, b3⟩ := hI.back
  obtain ⟨⟨r, s1⟩, s2, s3⟩ := scan_spec G.step (st.front ++ st.back).dropLast
  have hd : (st.front ++ st.back).dropLast = st.front := by rw [b1, List.dropLast_concat]
  have hl : (st.front ++ st.back).getLast? = some z := by rw [b1, List.getLast?_concat]
  rw [hd] at s1 s2 s3
  unfold createPath at h2
  simp only [hI.first, hl, hd, Option.toList_some] at h2
  have hf : Exact E a st.front ∧ Exact E (lastQ a st.front) st.back := exact_append.1 hI.exact
  cases h2
  by_cases hok : (scan G.step st.front).2 = true
  · rw [if_pos hok, s3 hok, ← b1]
    obtain ⟨p1, p2, p3⟩ := build_pts hE cons a (st.front ++ st.back) hI.exact
    rw [p1, p2]
    refine ⟨comp_timed hE hI.exact, ⟨lastQ a (st.front ++ st.back), ?_, ?_⟩, ?_⟩
    · rw [comp_last hE hI.exact, zero_add]
    · intro _
      rw [b1, lastQ_append (by simp)]; exact b2
    · intro i x y hx hy hlen
      rcases hlen with hlen | hlen
      · rw [hok] at hlen; cases hlen
      · rw [comp_append] at hx hy hlen
        have h2 : (comp (0 + (st.front.map Item.l).sum) st.back).length ≤ 1 := by
          rw [b1, comp]
          by_cases h0 : z.l = 0
          · rw [if_pos h0]; simp [comp]
          · rw [if_neg h0]; simp [comp]
        have h3 : i + 1 < ((0, a) :: comp 0 st.front).length := by
          simp only [List.length_cons, List.length_append] at hlen ⊢
          omega
        rw [← List.cons_append, List.getElem?_append_left (by omega)] at hx
        rw [← List.cons_append, List.getElem?_append_left h3] at hy
        exact comp_bound hE hf.1 (fun it hit => (s2 it (by rw [s3 hok]; exact hit)).2) i x y hx hy
  · rw [if_neg hok]
    have he : Exact E a (scan G.step st.front).1 := by
      have := hf.1
      rw [s1] at this
      exact (exact_append.1 this).1
    obtain ⟨p1, p2, p3⟩ := build_pts hE cons a (scan G.step st.front).1 he
    rw [p1, p2]
    refine ⟨comp_timed hE he, ⟨lastQ a (scan G.step st.front).1, ?_, fun h => absurd h hok⟩, ?_⟩
    · rw [comp_last hE he, zero_add]
    · intro i x y hx hy _
      exact comp_bound hE he (fun it hit => (s2 it hit).2) i x y hx hy

end Verif.Proj
