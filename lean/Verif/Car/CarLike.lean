import Verif.Car.Dubins
import Verif.Path.VectorExtract
set_option linter.unusedSectionVars false

/-!
# Cars that go backward only: `steeringMethod::Snibud` (C110); parameters of the steering methods of cars: `steeringMethod::CarLike` (C111)
-/
namespace Verif.Car
open Complex

variable {E W : Type} [AddCommGroup E] [Module ℝ E]

/-- `Snibud::impl_compute`: steering-method/snibud.cc:39-59: the path of Dubins from `q2` to `q1`, reversed (`PathVector::reverse`: the reversed paths from the last one to the
first one, path-vector.cc:197-204). -/
noncomputable def snibudSteer (interp : Cfg E W → Cfg E W → ℝ → Cfg E W) (wheel : ℝ → W) (dist : Cfg E W → Cfg E W → ℝ) (rho : ℝ) (q1 q2 : Cfg E W) :
    Except DErr (List (CC E W)) := match dubinsPath interp wheel rho (dist q1 (extraEnd q1 q2)) q2 q1 with
  | .error e => .error e
  | .ok l => .ok (l.reverse.map CC.reverse)

/-- Specification: driving backward along three segments of radius `rho` and lengths `rho * l`. -/
noncomputable def driveBack (rho : ℝ) (T : Seg × Seg × Seg) (l : Lens) (p : Pose) : Pose :=
  move (T.2.2.curv / rho) (-(rho * l.q)) (move (T.2.1.curv / rho) (-(rho * l.p)) (move (T.1.curv / rho) (-(rho * l.t)) p))

/-- Driving backward and forward. -/
theorem drive_back (rho : ℝ) (T : Seg × Seg × Seg) (l : Lens) (p q : Pose) : driveBack rho T l p = q → drive rho (T.2.2, T.2.1, T.1) ⟨l.q, l.p, l.t⟩ q = p := by
  intro h
  subst h
  unfold drive driveBack
  have key : ∀ k a (p : Pose), move k a (move k (-a) p) = p := by
    intro k a p
    rw [move_add, neg_add_cancel, move_zero]
  simp only
  rw [key, key, key]

theorem word_rev {T : Seg × Seg × Seg} {l : Lens} (h : DubinsWord T l) : DubinsWord (T.2.2, T.2.1, T.1) ⟨l.q, l.p, l.t⟩ := by
  obtain ⟨ht, hp, hq, h⟩ := h
  refine ⟨hq, hp, ht, ?_⟩
  rcases h with ⟨a, b, c⟩ | ⟨a, b⟩
  · exact Or.inl ⟨c, b, a⟩
  · right
    refine ⟨?_, b⟩
    rcases a with rfl | rfl
    · exact Or.inl rfl
    · exact Or.inr rfl

theorem reverse_coherent {K : CC E W} (hK : K.Coherent) : K.reverse.Coherent := by
  rcases lt_or_ge K.t0 K.t1 with h | h
  · exact (C85_reverse hK h).1
  · have h01 : K.t0 = K.t1 := le_antisymm hK.range h
    refine ⟨?_, ?_⟩
    · show (0 : ℝ) ≤ K.t1 - K.t0
      rw [h01, sub_self]
    · have e := hK.fin
      have e' : K.reverse.t1 = K.reverse.t0 := by show K.t1 - K.t0 = 0; rw [h01, sub_self]
      rw [e', eval_start]
      rw [← h01, eval_start] at e
      exact ⟨e.1.symm, e.2.symm⟩

/-- C110: between two different poses, the path is made of three paths of constant curvature, on the minimal radius or straight, along which the car goes backward only, each one
starting where the previous one ends; it goes from the first configuration to the second one (up to the wheels); the length is the distance driven plus the extra length, and no
word of Dubins driven backward is shorter.  Missing: as for C87. -/
theorem C110_snibud_partial {rho : ℝ} (hr : 0 < rho) {dist : Cfg E W → Cfg E W → ℝ} (hdist : ∀ a b, 0 ≤ dist a b) {q1 q2 : Cfg E W} (h1 : q1.Unit) (h2 : q2.Unit)
    (hne : q1.pose ≠ q2.pose) {interp : Cfg E W → Cfg E W → ℝ → Cfg E W} (hi : ∀ a b u, (interp a b u).o = lerp a.o b.o u) (wheel : ℝ → W) :
    ∃ K1 K2 K3 : CC E W, snibudSteer interp wheel dist rho q1 q2 = .ok [K1, K2, K3] ∧ Same K1.init q1 ∧ K1.fin = K2.init ∧ K2.fin = K3.init ∧ K3.fin = q2 ∧
      (∀ K ∈ [K1, K2, K3], K.Coherent ∧ K.t0 = 0 ∧ K.curveLength ≤ 0 ∧ (K.curvature = 0 ∨ |K.curvature| = 1 / rho)) ∧
      (∀ K ∈ [K1, K2, K3], K.t0 < K.t1 → ∀ t, ∃ v ≤ 0, HasDerivAt (fun t => (K.eval t).x) (v * (K.eval t).c) t ∧ HasDerivAt (fun t => (K.eval t).y) (v * (K.eval t).s) t) ∧
      K1.t1 + K2.t1 + K3.t1 = -(K1.curveLength + K2.curveLength + K3.curveLength) + dist q1 (extraEnd q1 q2) ∧
      ∀ T l, DubinsWord T l → driveBack rho T l q1.pose = q2.pose → -(K1.curveLength + K2.curveLength + K3.curveLength) ≤ rho * l.cost := by
  obtain ⟨K1, K2, K3, e, e1, e2, e3, e4, hall, hlen, hmin⟩ := C87_dubins_partial (extra := dist q1 (extraEnd q1 q2)) hr (hdist _ _) h2 h1 hne.symm hi wheel
  have hall' : ∀ K ∈ [K3.reverse, K2.reverse, K1.reverse], K.Coherent ∧ K.t0 = 0 ∧ K.curveLength ≤ 0 ∧ (K.curvature = 0 ∨ |K.curvature| = 1 / rho) := by
    have one : ∀ K ∈ [K1, K2, K3], K.reverse.Coherent ∧ K.reverse.t0 = 0 ∧ K.reverse.curveLength ≤ 0 ∧ (K.reverse.curvature = 0 ∨ |K.reverse.curvature| = 1 / rho) := by
      intro K hK
      obtain ⟨a, _, c, d⟩ := hall K hK
      refine ⟨reverse_coherent a, rfl, ?_, d⟩
      show -K.curveLength ≤ 0
      linarith
    intro K hK
    simp only [List.mem_cons, List.not_mem_nil, or_false] at hK
    rcases hK with rfl | rfl | rfl
    · exact one K3 (by simp)
    · exact one K2 (by simp)
    · exact one K1 (by simp)
  refine ⟨K3.reverse, K2.reverse, K1.reverse, ?_, e4, e3, e2, e1, hall', ?_, ?_, ?_⟩
  · simp only [snibudSteer, e]; rfl
  · intro K hK hlt t
    obtain ⟨_, ht0, hcl, _⟩ := hall' K hK
    obtain ⟨a, b, _⟩ := C85_rolling K hlt t
    exact ⟨K.curveLength / (K.t1 - K.t0), div_nonpos_of_nonpos_of_nonneg hcl (by linarith), a, b⟩
  · have z : ∀ K ∈ [K1, K2, K3], K.reverse.t1 = K.t1 := by
      intro K hK
      show K.t1 - K.t0 = K.t1
      rw [(hall K hK).2.1, sub_zero]
    rw [z K1 (by simp), z K2 (by simp), z K3 (by simp)]
    show K3.t1 + K2.t1 + K1.t1 = -(-K3.curveLength + -K2.curveLength + -K1.curveLength) + _
    linarith
  · intro T l hw hd
    have := hmin _ _ (word_rev hw) (drive_back rho T l _ _ hd)
    show -(-K3.curveLength + -K2.curveLength + -K1.curveLength) ≤ _
    have hc : Lens.cost ⟨l.q, l.p, l.t⟩ = l.cost := by unfold Lens.cost; ring
    rw [hc] at this
    linarith

/-- C110: as with Dubins, two configurations with the same pose give lengths 0 / 0. -/
theorem C110_still_counterexample {rho : ℝ} (hr : 0 < rho) (dist : Cfg E W → Cfg E W → ℝ) {q1 q2 : Cfg E W} (h1 : q1.Unit) (h2 : q2.Unit) (heq : q1.pose = q2.pose)
    (interp : Cfg E W → Cfg E W → ℝ → Cfg E W) (wheel : ℝ → W) : snibudSteer interp wheel dist rho q1 q2 = .error .nan := by
  simp only [snibudSteer, C87_still_counterexample hr h2 h1 heq.symm]

/-- C110 (finding): the constraints of the steering method, which are those of the vector of paths (dubins-path.cc:122) and not of its pieces (dubins-path.cc:264), are lost: the
reverse of a vector never has constraints. -/
theorem C110_constraints_counterexample {K C P : Type} [Field K] [LinearOrder K] (O : PathV.Ops K C P) (v r : PathV.Vec K C P) (h : PathV.reverseV O v = .ok r) :
    r.cons = none := by
  have key : ∀ (l : List P) (a : PathV.Vec K C P), a.cons = none → l.foldlM (fun acc p => match O.reverse p with
      | .error e => (Except.error e : Except PathV.Err (PathV.Vec K C P))
      | .ok p' => .ok (PathV.appendPath O acc p')) a = .ok r → r.cons = none := by
    intro l
    induction l with
    | nil =>
      intro a ha h
      cases h
      exact ha
    | cons p l ih =>
      intro a ha h
      cases hp : O.reverse p with
      | error e =>
        rw [List.foldlM_cons, hp] at h
        cases h
      | ok p' =>
        rw [List.foldlM_cons, hp] at h
        exact ih (PathV.appendPath O a p') ha h
  exact key _ _ rfl h

/-- Going backward along the axis of the car by 1. -/
example : ∃ q1 q2 : Cfg ℝ ℝ, q1.Unit ∧ q2.Unit ∧ q1.pose ≠ q2.pose ∧ driveBack 1 (.L, .S, .L) ⟨0, 1, 0⟩ q1.pose = q2.pose ∧ DubinsWord (.L, .S, .L) ⟨0, 1, 0⟩ := by
  refine ⟨⟨0, 0, 1, 0, 0, 0⟩, ⟨-1, 0, 1, 0, 0, 0⟩, by simp [Cfg.Unit], by simp [Cfg.Unit], ?_, ?_, ?_⟩
  · intro h
    have := congrArg (fun p : Pose => p.1.re) h
    norm_num [Cfg.pose] at this
  · simp only [driveBack, mul_zero, neg_zero, move_zero, mul_one]
    simp only [move, disp, cis, Cfg.pose, Seg.curv]
    simp [Complex.ext_iff]
  · refine ⟨by norm_num, by norm_num, by norm_num, Or.inl ⟨by decide, rfl, by decide⟩⟩

/-! ## C111: parameters -/

/-- A joint: name, rank in the configuration, size. -/
structure Jnt where
  name : List Char
  rank : ℕ
  size : ℕ
  deriving DecidableEq

/-- Exceptions. -/
inductive CErr
  /-- std::invalid_argument: car-like.cc:85 -/
  | radius
  /-- std::runtime_error: car-like.cc:105 -/
  | dimension
  /-- std::runtime_error: car-like.cc:113-115 -/
  | notFound
  deriving DecidableEq

/-- `boost::split` with `,` as separator, without compression of adjacent separators (external). -/
def splitComma : List Char → List (List Char)
  | [] => [[]]
  | ',' :: s => [] :: splitComma s
  | c :: s => match splitComma s with
    | [] => [[c]]
    | w :: ws => (c :: w) :: ws

/-- Children of `rz` with a given name: car-like.cc:100-110. -/
def wheelsNamed (name : List Char) : List Jnt → Except CErr (Bool × List Jnt)
  | [] => .ok (false, [])
  | j :: js => if j.name = name then
      if j.size ≠ 1 then .error .dimension
      else match wheelsNamed name js with
        | .error e => .error e
        | .ok (_, ws) => .ok (true, j :: ws)
    else wheelsNamed name js

/-- Loop over the names: car-like.cc:97-117. -/
def wheelsOf (children : List Jnt) : List (List Char) → Except CErr (List Jnt)
  | [] => .ok []
  | n :: ns => if n = [] then wheelsOf children ns
    else match wheelsNamed n children with
      | .error e => .error e
      | .ok (false, _) => .error .notFound
      | .ok (true, ws) => match wheelsOf children ns with
        | .error e => .error e
        | .ok r => .ok (ws ++ r)

/-- `getWheelsFromParameter`: car-like.cc:89-120. -/
def getWheels (param : List Char) (children : List Jnt) : Except CErr (List Jnt) := wheelsOf children (splitComma param)

/-- Members of `CarLike`. -/
structure CarLike where
  rho : ℚ
  xyId : ℕ
  rzId : ℕ
  wheels : List Jnt

/-- `turningRadius (rho)`: car-like.cc:83-87. -/
def CarLike.setRadius (c : CarLike) (r : ℚ) : Except CErr CarLike := if r ≤ 0 then .error .radius else .ok { c with rho := r }

/-- Constructor from a problem: car-like.cc:41-53. -/
def CarLike.ofProblem (radius : ℚ) (wheels : List Char) (children : List Jnt) : Except CErr CarLike := match getWheels wheels children with
  | .error e => .error e
  | .ok ws => CarLike.setRadius ⟨1, 0, 2, ws⟩ radius

/-- Constructor with parameters: car-like.cc:55-71; `planar`: the joint `rz` is planar. -/
def CarLike.make (radius : ℚ) (xyRank rzRank : ℕ) (planar : Bool) (wheels : List Jnt) : CarLike := ⟨radius, xyRank, if planar then rzRank + 2 else rzRank, wheels⟩

/-- Copy constructor: car-like.cc:74-81. -/
def CarLike.copy (c : CarLike) : CarLike := { c with wheels := [] }

/-- Configuration the extra length is computed with, variable by variable: dubins.cc:41-49, snibud.cc:41-49. -/
def CarLike.extra (c : CarLike) (q1 q2 : ℕ → ℚ) : ℕ → ℚ :=
  c.wheels.foldl (fun q j => Function.update q j.rank (q1 j.rank))
    (Function.update (Function.update (Function.update (Function.update q2 c.xyId (q1 c.xyId)) (c.xyId + 1) (q1 (c.xyId + 1))) c.rzId (q1 c.rzId)) (c.rzId + 1) (q1 (c.rzId + 1)))

/-! ### Specification -/

/-- Names separated by commas. -/
def joinComma : List (List Char) → List Char
  | [] => []
  | [n] => n
  | n :: m :: ns => n ++ ',' :: joinComma (m :: ns)

theorem split_ne (s : List Char) : splitComma s ≠ [] := by
  induction s with
  | nil => simp [splitComma]
  | cons c s ih =>
    by_cases hc : c = ','
    · subst hc; simp [splitComma]
    · rw [splitComma]
      · cases splitComma s <;> simp
      · exact hc

theorem split_cons {c : Char} (hc : c ≠ ',') (s w : List Char) (ws : List (List Char)) (h : splitComma s = w :: ws) : splitComma (c :: s) = (c :: w) :: ws := by
  rw [splitComma]
  · rw [h]
  · exact hc

theorem split_word {n : List Char} (hn : ',' ∉ n) (s w : List Char) (ws : List (List Char)) (h : splitComma s = w :: ws) : splitComma (n ++ s) = (n ++ w) :: ws := by
  induction n with
  | nil => exact h
  | cons c n ih =>
    simp only [List.mem_cons, not_or] at hn
    exact split_cons (fun e => hn.1 e.symm) _ _ _ (ih hn.2)

/-- C111: splitting gives back the names (without comma) that were separated by commas. -/
theorem C111_split (ns : List (List Char)) (hne : ns ≠ []) (h : ∀ n ∈ ns, ',' ∉ n) : splitComma (joinComma ns) = ns := by
  induction ns with
  | nil => exact (hne rfl).elim
  | cons n ns ih =>
    cases ns with
    | nil =>
      have := split_word (h n (by simp)) [] [] [] rfl
      simpa [joinComma] using this
    | cons m ns =>
      have hi := ih (by simp) (fun n' hn' => h n' (by simp [hn']))
      have e : splitComma (',' :: joinComma (m :: ns)) = [] :: (m :: ns) := by rw [splitComma, hi]
      have := split_word (h n (by simp)) _ _ _ e
      simpa [joinComma] using this

/-- All joints with a name are found, in the order of the children. -/
theorem named_spec (name : List Char) (js : List Jnt) :
    wheelsNamed name js = if ∀ j ∈ js, j.name = name → j.size = 1 then .ok (decide (∃ j ∈ js, j.name = name), js.filter (fun j => j.name = name)) else .error .dimension := by
  induction js with
  | nil => simp [wheelsNamed]
  | cons j js ih =>
    by_cases hn : j.name = name
    · by_cases hs : j.size = 1
      · rw [wheelsNamed, if_pos hn, if_neg (by simp [hs]), ih]
        by_cases ha : ∀ j ∈ js, j.name = name → j.size = 1
        · rw [if_pos ha, if_pos (by intro j' hj'; rcases List.mem_cons.1 hj' with rfl | h; exacts [fun _ => hs, ha j' h])]
          simp [hn]
        · rw [if_neg ha, if_neg (by intro h; exact ha (fun j' hj' => h j' (by simp [hj'])))]
      · rw [wheelsNamed, if_pos hn, if_pos hs, if_neg (by intro h; exact hs (h j (by simp) hn))]
    · rw [wheelsNamed, if_neg hn, ih]
      by_cases ha : ∀ j ∈ js, j.name = name → j.size = 1
      · rw [if_pos ha, if_pos (by intro j' hj' h'; rcases List.mem_cons.1 hj' with rfl | h; exacts [(hn h').elim, ha j' h h'])]
        simp [hn]
      · rw [if_neg ha, if_neg (by intro h; exact ha (fun j' hj' => h j' (by simp [hj'])))]

/-- C111: the wheels are, name after name, the children of the joint that have this name; this succeeds if and only if each name that is not empty is that of a child, and all
children with these names have dimension 1. -/
theorem C111_wheels (ns : List (List Char)) (children : List Jnt) :
    ((∃ ws, wheelsOf children ns = .ok ws) ↔ ∀ n ∈ ns, n ≠ [] → (∃ j ∈ children, j.name = n) ∧ ∀ j ∈ children, j.name = n → j.size = 1) ∧
    ∀ ws, wheelsOf children ns = .ok ws → ws = (ns.filter (fun n => n ≠ [])).flatMap (fun n => children.filter (fun j => j.name = n)) := by
  induction ns with
  | nil =>
    refine ⟨⟨fun _ => by simp, fun _ => ⟨[], rfl⟩⟩, ?_⟩
    intro ws h
    simp only [wheelsOf, Except.ok.injEq] at h
    rw [← h]; rfl
  | cons n ns ih =>
    obtain ⟨ih1, ih2⟩ := ih
    by_cases hn : n = []
    · have e : wheelsOf children (n :: ns) = wheelsOf children ns := by rw [wheelsOf, if_pos hn]
      rw [e]
      refine ⟨⟨fun h n' hn' hne => ?_, fun h => ih1.2 (fun n' hn' => h n' (by simp [hn']))⟩, ?_⟩
      · rcases List.mem_cons.1 hn' with rfl | h'
        · exact (hne hn).elim
        · exact ih1.1 h n' h' hne
      · intro ws h
        rw [ih2 ws h]; simp [hn]
    · have e : wheelsOf children (n :: ns) = match wheelsNamed n children with
          | .error e => .error e
          | .ok (false, _) => .error .notFound
          | .ok (true, ws) => match wheelsOf children ns with
            | .error e => .error e
            | .ok r => .ok (ws ++ r) := by rw [wheelsOf, if_neg hn]
      rw [e, named_spec]
      by_cases ha : ∀ j ∈ children, j.name = n → j.size = 1
      · rw [if_pos ha]
        by_cases hx : ∃ j ∈ children, j.name = n
        · rw [decide_eq_true hx]
          cases hw : wheelsOf children ns with
          | error er =>
            simp only
            refine ⟨⟨(fun ⟨_, h⟩ => by cases h), fun h => ?_⟩, fun ws h => by cases h⟩
            obtain ⟨ws, hws⟩ := ih1.2 (fun n' hn' => h n' (by simp [hn']))
            rw [hw] at hws; cases hws
          | ok r =>
            simp only
            refine ⟨⟨fun _ n' hn' hne => ?_, fun _ => ⟨_, rfl⟩⟩, ?_⟩
            · rcases List.mem_cons.1 hn' with rfl | h'
              · exact ⟨hx, ha⟩
              · exact ih1.1 ⟨r, hw⟩ n' h' hne
            · intro ws h
              simp only [Except.ok.injEq] at h
              rw [← h, ih2 r hw]
              simp [hn]
        · rw [decide_eq_false hx]
          refine ⟨⟨(fun ⟨_, h⟩ => by cases h), fun h => (hx (h n (by simp) hn).1).elim⟩, fun ws h => by cases h⟩
      · rw [if_neg ha]
        refine ⟨⟨(fun ⟨_, h⟩ => by cases h), fun h => (ha (h n (by simp) hn).2).elim⟩, fun ws h => by cases h⟩

/-- C111: a steering method built from a problem has the radius of the parameter, strictly positive, and wheels of dimension 1 among the children with the names given by the
parameter; a parameter that is not strictly positive is rejected; the setter keeps the radius strictly positive. -/
theorem C111_radius_partial (radius : ℚ) (names : List (List Char)) (hne : names ≠ []) (hc : ∀ n ∈ names, ',' ∉ n) (children : List Jnt) :
    (∀ c, CarLike.ofProblem radius (joinComma names) children = .ok c → 0 < radius ∧ c.rho = radius ∧ c.xyId = 0 ∧ c.rzId = 2 ∧
      c.wheels = (names.filter (fun n => n ≠ [])).flatMap (fun n => children.filter (fun j => j.name = n)) ∧ ∀ j ∈ c.wheels, j.size = 1) ∧
    (radius ≤ 0 → ∃ e, CarLike.ofProblem radius (joinComma names) children = .error e) ∧
    ∀ c c' r, CarLike.setRadius c r = .ok c' → 0 < c'.rho ∧ c'.rho = r ∧ c'.wheels = c.wheels := by
  refine ⟨?_, ?_, ?_⟩
  · intro c h
    unfold CarLike.ofProblem getWheels at h
    rw [C111_split names hne hc] at h
    cases hw : wheelsOf children names with
    | error e => rw [hw] at h; cases h
    | ok ws =>
      rw [hw] at h
      simp only [CarLike.setRadius] at h
      by_cases hr : radius ≤ 0
      · rw [if_pos hr] at h; cases h
      · rw [if_neg hr] at h
        simp only [Except.ok.injEq] at h
        subst h
        have hws := (C111_wheels names children).2 ws hw
        refine ⟨not_le.1 hr, rfl, rfl, rfl, hws, ?_⟩
        intro j hj
        rw [hws] at hj
        simp only [List.mem_flatMap, List.mem_filter, decide_eq_true_eq] at hj
        obtain ⟨n, ⟨hn1, hn2⟩, hj1, hj2⟩ := hj
        exact ((C111_wheels names children).1.1 ⟨ws, hw⟩ n hn1 hn2).2 j hj1 hj2
  · intro hr
    unfold CarLike.ofProblem
    cases getWheels (joinComma names) children with
    | error e => exact ⟨e, rfl⟩
    | ok ws => exact ⟨.radius, by simp only [CarLike.setRadius, if_pos hr]⟩
  · intro c c' r h
    unfold CarLike.setRadius at h
    by_cases hr : r ≤ 0
    · rw [if_pos hr] at h; cases h
    · rw [if_neg hr] at h
      simp only [Except.ok.injEq] at h
      subst h
      exact ⟨not_le.1 hr, rfl, rfl⟩

/-- C111: the extra length does not take into account the variables of the position, of the heading and of the wheels: they are those of the first configuration; the other
ones are those of the second one. -/
theorem C111_extra (c : CarLike) (q1 q2 : ℕ → ℚ) (i : ℕ) :
    c.extra q1 q2 i = if i = c.xyId ∨ i = c.xyId + 1 ∨ i = c.rzId ∨ i = c.rzId + 1 ∨ ∃ j ∈ c.wheels, j.rank = i then q1 i else q2 i := by
  have key : ∀ (ws : List Jnt) (q : ℕ → ℚ), (ws.foldl (fun q j => Function.update q j.rank (q1 j.rank)) q) i = if ∃ j ∈ ws, j.rank = i then q1 i else q i := by
    intro ws
    induction ws with
    | nil => intro q; simp
    | cons j ws ih =>
      intro q
      rw [List.foldl_cons, ih]
      by_cases hj : j.rank = i
      · subst hj; simp
      · have : ¬ i = j.rank := fun e => hj e.symm
        simp [Function.update, hj, this]
  unfold CarLike.extra
  rw [key]
  by_cases hw : ∃ j ∈ c.wheels, j.rank = i
  · rw [if_pos hw, if_pos (Or.inr (Or.inr (Or.inr (Or.inr hw))))]
  · rw [if_neg hw]
    simp only [hw, or_false, Function.update_apply]
    by_cases h1 : i = c.rzId + 1
    · subst h1; simp
    · by_cases h2 : i = c.rzId
      · subst h2; simp
      · by_cases h3 : i = c.xyId + 1
        · subst h3; simp [h2]; intro e; rw [e]
        · by_cases h4 : i = c.xyId
          · subst h4; simp [h1, h2]
          · simp [h1, h2, h3, h4]

/-- C111: a car whose position and heading are those of one planar joint: the extra length ignores the four variables of this joint and the wheels, and only these; with a joint for the heading that is not planar, it ignores
the two variables of this joint from its rank. -/
theorem C111_joints (radius : ℚ) (r r' : ℕ) (wheels : List Jnt) (q1 q2 : ℕ → ℚ) (i : ℕ) :
    (CarLike.make radius r r true wheels).extra q1 q2 i = (if (r ≤ i ∧ i < r + 4) ∨ ∃ j ∈ wheels, j.rank = i then q1 i else q2 i) ∧
    (CarLike.make radius r r' false wheels).extra q1 q2 i = (if (r ≤ i ∧ i < r + 2) ∨ (r' ≤ i ∧ i < r' + 2) ∨ ∃ j ∈ wheels, j.rank = i then q1 i else q2 i) := by
  rw [C111_extra, C111_extra]
  simp only [CarLike.make, if_true, Bool.false_eq_true, if_false]
  by_cases hw : ∃ j ∈ wheels, j.rank = i
  · simp only [hw, or_true, if_true, and_self]
  · simp only [hw, or_false]
    exact ⟨if_congr (by omega) rfl rfl, if_congr (by omega) rfl rfl⟩

/-- C111: the copy has the same radius and the same ranks. -/
theorem C111_copy_partial (c : CarLike) : c.copy.rho = c.rho ∧ c.copy.xyId = c.xyId ∧ c.copy.rzId = c.rzId ∧ (c.wheels = [] → c.copy = c) := by
  refine ⟨rfl, rfl, rfl, ?_⟩
  intro h
  cases c
  simp only [CarLike.copy] at *
  rw [h]

/-- C111 (finding): the copy of a steering method with wheels has none: the variables of the wheels count in the extra length (and the wheels do not turn). -/
theorem C111_copy_counterexample : let c := CarLike.make 1 0 2 false [⟨['w'], 4, 1⟩]
    c.copy ≠ c ∧ c.extra (fun _ => 0) (fun _ => 1) 4 = 0 ∧ c.copy.extra (fun _ => 0) (fun _ => 1) 4 = 1 := by
  refine ⟨?_, by decide, by decide⟩
  intro h
  have := congrArg (fun c => c.wheels.length) h
  simp [CarLike.copy, CarLike.make] at this

/-- C111 (finding): the constructor with parameters accepts a radius that is not positive, contrary to the setter. -/
theorem C111_radius_counterexample : (CarLike.make (-1) 0 2 false []).rho = -1 ∧ ∃ e, CarLike.setRadius (CarLike.make 1 0 2 false []) (-1) = .error e :=
  ⟨rfl, .radius, rfl⟩

/-- Two wheels given by their names; a name given twice gives the joint twice. -/
example : getWheels "a,,b".toList [⟨['b'], 5, 1⟩, ⟨['a'], 4, 1⟩] = .ok [⟨['a'], 4, 1⟩, ⟨['b'], 5, 1⟩] ∧
    getWheels "a, b".toList [⟨['b'], 5, 1⟩, ⟨['a'], 4, 1⟩] = .error .notFound ∧ getWheels "a,a".toList [⟨['a'], 4, 1⟩] = .ok [⟨['a'], 4, 1⟩, ⟨['a'], 4, 1⟩] := by
  decide

end Verif.Car
