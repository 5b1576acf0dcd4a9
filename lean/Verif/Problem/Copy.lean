import Mathlib.Data.List.Basic
import Mathlib.Tactic.Common
set_option linter.unusedSectionVars false

/-!
# Copies of a problem (C115), plugins (C116), distances between objects (C117)

`Problem::createCopy` (src/problem.cc:84-88) calls the copy constructor of the compiler, then `init` as for a new problem.
-/
namespace Verif.ProblemCopy
variable {C O : Type}

/-! ## Problems -/

/-- Members of `Problem` (problem.hh): `distance`, `steering`, `shooter`, `constraints` are the objects set by the user, `none` for those built by `init`; `goals` is `none` if the target is not
`GoalConfigurations`; `cv` and `pv` are references to the objects `configValidations_` and `pathValidation_`. -/
structure Prob (C O : Type) where
  robot : ℕ
  initConf : Option C
  goals : Option (List C)
  distance : Option ℕ
  steering : Option ℕ
  shooter : Option ℕ
  constraints : Option ℕ
  projector : Option ℕ
  params : List (String × ℕ)
  obstacles : List O
  cv : ℕ
  pv : ℕ

/-- Memory: obstacles given to each object of configuration validations and to each path validation (what these do with them is the subject of C58 and following); the next free references; the problems built so far. -/
structure St (C O : Type) where
  cvObs : ℕ → List O
  pvObs : ℕ → List O
  nextCv : ℕ
  nextPv : ℕ
  probs : List (Prob C O)

/-- No problem yet. -/
def St.empty : St C O := ⟨fun _ => [], fun _ => [], 0, 0, []⟩

/-- Assignment in a memory. -/
def upd {α : Type} (f : ℕ → α) (i : ℕ) (v : α) : ℕ → α := fun j => if j = i then v else f j

/-- `Problem::init` (problem.cc:96-106): objects by default, a new path validation without obstacles. -/
def initP (p : Prob C O) (pv : ℕ) : Prob C O :=
  { p with distance := none, goals := some [], steering := none, shooter := none, constraints := none, pv := pv }

/-- Calls. -/
inductive Op (C O : Type) where
  | create (robot : ℕ)
  | createCopy (k : ℕ)
  | initConfig (k : ℕ) (q : C)
  | addGoalConfig (k : ℕ) (q : C)
  | resetGoalConfigs (k : ℕ)
  | addObstacle (k : ℕ) (o : O)
  | setParameter (k : ℕ) (name : String) (v : ℕ)
  | distance (k d : ℕ)
  | steeringMethod (k d : ℕ)
  | configurationShooter (k d : ℕ)
  | constraints (k d : ℕ)
  | pathProjector (k d : ℕ)

/-- Change problem number `k`. -/
def St.mod (s : St C O) (k : ℕ) (f : Prob C O → Prob C O) : St C O := { s with probs := s.probs.modify k f }

/-- Effect of a call: problem.cc:78-106 (create, createCopy), 127, 143-167 (initial and goal configurations), 192-203 (addObstacle), setters of problem.hh.  A call on a problem that does not exist has no
effect.  An obstacle is given to the path validation (those built by `init` take obstacles) and to the configuration validations. -/
def step (s : St C O) : Op C O → St C O
  | .create robot => { s with
      cvObs := upd s.cvObs s.nextCv [], pvObs := upd s.pvObs s.nextPv [], nextCv := s.nextCv + 1, nextPv := s.nextPv + 1,
      probs := s.probs ++ [initP ⟨robot, none, none, none, none, none, none, none, [], [], s.nextCv, 0⟩ s.nextPv] }
  | .createCopy k => match s.probs[k]? with
    | none => s
    | some p => { s with pvObs := upd s.pvObs s.nextPv [], nextPv := s.nextPv + 1, probs := s.probs ++ [initP p s.nextPv] }
  | .initConfig k q => s.mod k fun p => { p with initConf := some q }
  | .addGoalConfig k q => s.mod k fun p => { p with goals := some ((p.goals.getD []) ++ [q]) }
  | .resetGoalConfigs k => s.mod k fun p => { p with goals := some [] }
  | .addObstacle k o => match s.probs[k]? with
    | none => s
    | some p => { (s.mod k fun p => { p with obstacles := p.obstacles ++ [o] }) with
        pvObs := upd s.pvObs p.pv (s.pvObs p.pv ++ [o]), cvObs := upd s.cvObs p.cv (s.cvObs p.cv ++ [o]) }
  | .setParameter k name v => s.mod k fun p => { p with params := (name, v) :: p.params.filter (fun x => x.1 ≠ name) }
  | .distance k d => s.mod k fun p => { p with distance := some d }
  | .steeringMethod k d => s.mod k fun p => { p with steering := some d }
  | .configurationShooter k d => s.mod k fun p => { p with shooter := some d }
  | .constraints k d => s.mod k fun p => { p with constraints := some d }
  | .pathProjector k d => s.mod k fun p => { p with projector := some d }

/-- A history of calls. -/
def run (s : St C O) (os : List (Op C O)) : St C O := os.foldl step s

/-- The problem on which a call is made, if it exists before. -/
def Op.target : Op C O → Option ℕ
  | .create _ => none
  | .createCopy _ => none
  | .initConfig k _ => some k
  | .addGoalConfig k _ => some k
  | .resetGoalConfigs k => some k
  | .addObstacle k _ => some k
  | .setParameter k _ _ => some k
  | .distance k _ => some k
  | .steeringMethod k _ => some k
  | .configurationShooter k _ => some k
  | .constraints k _ => some k
  | .pathProjector k _ => some k

/-- Not a copy. -/
def Op.noCopy : Op C O → Prop
  | .createCopy _ => False
  | _ => True

/-! ## C115 -/

/-- C115: a copy has the robot, the initial configuration, the obstacles, the parameters and the projector of the problem; it has no goal and the objects of a new problem; the problem itself does not
change. -/
theorem C115_copy_partial (s : St C O) (k : ℕ) (p : Prob C O) (hk : s.probs[k]? = some p) :
    ∃ c, (step s (.createCopy k)).probs = s.probs ++ [c] ∧ c.robot = p.robot ∧ c.initConf = p.initConf ∧ c.obstacles = p.obstacles ∧ c.params = p.params ∧ c.projector = p.projector ∧
      c.goals = some [] ∧ c.distance = none ∧ c.steering = none ∧ c.shooter = none ∧ c.constraints = none ∧ c.cv = p.cv ∧
      (step s (.createCopy k)).cvObs = s.cvObs ∧ (step s (.createCopy k)).pvObs c.pv = [] := by
  refine ⟨initP p s.nextPv, ?_, rfl, rfl, rfl, rfl, rfl, rfl, rfl, rfl, rfl, rfl, rfl, ?_, ?_⟩
  · simp only [step, hk]
  · simp only [step, hk]
  · simp only [step, hk, initP, upd, if_true]

/-- References are those of objects that exist. -/
structure Ok (s : St C O) : Prop where
  cv : ∀ p ∈ s.probs, p.cv < s.nextCv
  pv : ∀ p ∈ s.probs, p.pv < s.nextPv
  /-- path validations are never shared -/
  own : ∀ (i j : ℕ) (p q : Prob C O), s.probs[i]? = some p → s.probs[j]? = some q → i ≠ j → p.pv ≠ q.pv
  /-- obstacles of a problem are given to its configuration validations -/
  known : ∀ p ∈ s.probs, ∀ o ∈ p.obstacles, o ∈ s.cvObs p.cv
  /-- the path validation of a problem knows only obstacles of this problem -/
  only : ∀ p ∈ s.probs, ∀ o ∈ s.pvObs p.pv, o ∈ p.obstacles

theorem mod_mem {s : St C O} {k : ℕ} {f : Prob C O → Prob C O} {q : Prob C O} (h : q ∈ (s.mod k f).probs) :
    ∃ i p, s.probs[i]? = some p ∧ q = if i = k then f p else p := by
  obtain ⟨i, hi⟩ := List.mem_iff_getElem?.1 h
  simp only [St.mod, List.getElem?_modify] at hi
  cases hp : s.probs[i]? with
  | none => rw [hp] at hi; simp at hi
  | some p =>
    rw [hp] at hi
    simp only [Option.map_some, Option.some.injEq, Functor.map] at hi
    by_cases hik : k = i
    · subst hik; exact ⟨k, p, hp, by rw [← hi]⟩
    · refine ⟨i, p, hp, ?_⟩
      rw [← hi]
      simp [hik, Ne.symm hik]

theorem mod_get {s : St C O} {k : ℕ} {f : Prob C O → Prob C O} {i : ℕ} {q : Prob C O} (h : (s.mod k f).probs[i]? = some q) :
    ∃ p, s.probs[i]? = some p ∧ q = if i = k then f p else p := by
  simp only [St.mod, List.getElem?_modify] at h
  cases hp : s.probs[i]? with
  | none => rw [hp] at h; simp at h
  | some p =>
    rw [hp] at h
    simp only [Option.map_some, Option.some.injEq, Functor.map] at h
    by_cases hik : k = i
    · subst hik; exact ⟨p, rfl, by rw [← h]⟩
    · refine ⟨p, rfl, ?_⟩
      rw [← h]
      simp [hik, Ne.symm hik]

/-- A change of a problem that keeps its obstacles and validations. -/
theorem ok_mod {s : St C O} (h : Ok s) (k : ℕ) (f : Prob C O → Prob C O) (h1 : ∀ p, (f p).cv = p.cv) (h2 : ∀ p, (f p).pv = p.pv) (h3 : ∀ p, (f p).obstacles = p.obstacles) : Ok (s.mod k f) := by
  have e : ∀ (i : ℕ) (p : Prob C O), (if i = k then f p else p).cv = p.cv ∧ (if i = k then f p else p).pv = p.pv ∧ (if i = k then f p else p).obstacles = p.obstacles := by
    intro i p
    by_cases hi : i = k
    · simp [hi, h1, h2, h3]
    · simp [hi]
  refine ⟨?_, ?_, ?_, ?_, ?_⟩
  · intro q hq
    obtain ⟨i, p, hp, rfl⟩ := mod_mem hq
    rw [(e i p).1]
    exact h.cv p (List.mem_of_getElem? hp)
  · intro q hq
    obtain ⟨i, p, hp, rfl⟩ := mod_mem hq
    rw [(e i p).2.1]
    exact h.pv p (List.mem_of_getElem? hp)
  · intro i j q q' hq hq' hij
    obtain ⟨p, hp, rfl⟩ := mod_get hq
    obtain ⟨p', hp', rfl⟩ := mod_get hq'
    rw [(e i p).2.1, (e j p').2.1]
    exact h.own i j p p' hp hp' hij
  · intro q hq o ho
    obtain ⟨i, p, hp, rfl⟩ := mod_mem hq
    rw [(e i p).2.2] at ho
    rw [(e i p).1]
    exact h.known p (List.mem_of_getElem? hp) o ho
  · intro q hq o ho
    obtain ⟨i, p, hp, rfl⟩ := mod_mem hq
    rw [(e i p).2.1] at ho
    rw [(e i p).2.2]
    exact h.only p (List.mem_of_getElem? hp) o ho

theorem get_append_cases {l : List (Prob C O)} {c q : Prob C O} {i : ℕ} (h : (l ++ [c])[i]? = some q) : (l[i]? = some q ∧ i < l.length) ∨ (i = l.length ∧ q = c) := by
  by_cases hi : i < l.length
  · rw [List.getElem?_append_left hi] at h; exact Or.inl ⟨h, hi⟩
  · rw [List.getElem?_append_right (by omega)] at h
    by_cases hj : i - l.length = 0
    · rw [hj] at h
      simp at h
      exact Or.inr ⟨by omega, h.symm⟩
    · rw [List.getElem?_eq_none (by simp; omega)] at h
      cases h

theorem step_ok {s : St C O} (h : Ok s) (o : Op C O) : Ok (step s o) := by
  cases o with
  | create robot =>
    simp only [step]
    refine ⟨?_, ?_, ?_, ?_, ?_⟩
    · intro p hp
      rcases List.mem_append.1 hp with hp | hp
      · have := h.cv p hp; simp only; omega
      · rw [List.mem_singleton.1 hp]; simp [initP]
    · intro p hp
      rcases List.mem_append.1 hp with hp | hp
      · have := h.pv p hp; simp only; omega
      · rw [List.mem_singleton.1 hp]; simp [initP]
    · intro i j p q hp hq hij
      rcases get_append_cases hp with ⟨hp, hi⟩ | ⟨hi, rfl⟩ <;> rcases get_append_cases hq with ⟨hq, hj⟩ | ⟨hj, rfl⟩
      · exact h.own i j p q hp hq hij
      · have := h.pv p (List.mem_of_getElem? hp); simp only [initP]; omega
      · have := h.pv q (List.mem_of_getElem? hq); simp only [initP]; omega
      · omega
    · intro p hp o ho
      rcases List.mem_append.1 hp with hp | hp
      · have := h.cv p hp
        simp only [upd]
        rw [if_neg (by omega)]
        exact h.known p hp o ho
      · rw [List.mem_singleton.1 hp] at ho; simp [initP] at ho
    · intro p hp o ho
      rcases List.mem_append.1 hp with hp | hp
      · have := h.pv p hp
        simp only [upd] at ho
        rw [if_neg (by omega)] at ho
        exact h.only p hp o ho
      · rw [List.mem_singleton.1 hp] at ho; simp [initP, upd] at ho
  | createCopy k =>
    simp only [step]
    cases hk : s.probs[k]? with
    | none => exact h
    | some c =>
      simp only
      have hc := List.mem_of_getElem? hk
      refine ⟨?_, ?_, ?_, ?_, ?_⟩
      · intro p hp
        rcases List.mem_append.1 hp with hp | hp
        · exact h.cv p hp
        · rw [List.mem_singleton.1 hp]; exact h.cv c hc
      · intro p hp
        rcases List.mem_append.1 hp with hp | hp
        · have := h.pv p hp; simp only; omega
        · rw [List.mem_singleton.1 hp]; simp [initP]
      · intro i j p q hp hq hij
        rcases get_append_cases hp with ⟨hp, hi⟩ | ⟨hi, rfl⟩ <;> rcases get_append_cases hq with ⟨hq, hj⟩ | ⟨hj, rfl⟩
        · exact h.own i j p q hp hq hij
        · have := h.pv p (List.mem_of_getElem? hp); simp only [initP]; omega
        · have := h.pv q (List.mem_of_getElem? hq); simp only [initP]; omega
        · omega
      · intro p hp o ho
        rcases List.mem_append.1 hp with hp | hp
        · exact h.known p hp o ho
        · rw [List.mem_singleton.1 hp] at ho ⊢
          exact h.known c hc o ho
      · intro p hp o ho
        rcases List.mem_append.1 hp with hp | hp
        · have := h.pv p hp
          simp only [upd] at ho
          rw [if_neg (by omega)] at ho
          exact h.only p hp o ho
        · rw [List.mem_singleton.1 hp] at ho; simp [initP, upd] at ho
  | addObstacle k o =>
    simp only [step]
    cases hk : s.probs[k]? with
    | none => exact h
    | some c =>
      simp only
      have hc := List.mem_of_getElem? hk
      have e : ∀ (i : ℕ) (p : Prob C O), (if i = k then { p with obstacles := p.obstacles ++ [o] } else p).cv = p.cv ∧
          (if i = k then { p with obstacles := p.obstacles ++ [o] } else p).pv = p.pv := by
        intro i p
        by_cases hi : i = k <;> simp [hi]
      refine ⟨?_, ?_, ?_, ?_, ?_⟩
      · intro q hq
        obtain ⟨i, p, hp, rfl⟩ := mod_mem hq
        rw [(e i p).1]
        exact h.cv p (List.mem_of_getElem? hp)
      · intro q hq
        obtain ⟨i, p, hp, rfl⟩ := mod_mem hq
        rw [(e i p).2]
        exact h.pv p (List.mem_of_getElem? hp)
      · intro i j q q' hq hq' hij
        obtain ⟨p, hp, rfl⟩ := mod_get hq
        obtain ⟨p', hp', rfl⟩ := mod_get hq'
        rw [(e i p).2, (e j p').2]
        exact h.own i j p p' hp hp' hij
      · intro q hq x hx
        obtain ⟨i, p, hp, rfl⟩ := mod_mem hq
        rw [(e i p).1]
        simp only [upd]
        by_cases hi : i = k
        · subst hi
          rw [hk] at hp
          cases hp
          simp only [if_true] at hx ⊢
          rcases List.mem_append.1 hx with hx | hx
          · exact List.mem_append_left _ (h.known c hc x hx)
          · exact List.mem_append_right _ hx
        · simp only [if_neg hi] at hx
          have := h.known p (List.mem_of_getElem? hp) x hx
          by_cases hcv : p.cv = c.cv
          · rw [if_pos hcv, ← hcv]; exact List.mem_append_left _ this
          · rw [if_neg hcv]; exact this
      · intro q hq x hx
        obtain ⟨i, p, hp, rfl⟩ := mod_mem hq
        rw [(e i p).2] at hx
        simp only [upd] at hx
        by_cases hi : i = k
        · subst hi
          rw [hk] at hp
          cases hp
          simp only [if_true] at hx ⊢
          rcases List.mem_append.1 hx with hx | hx
          · exact List.mem_append_left _ (h.only c hc x hx)
          · exact List.mem_append_right _ hx
        · simp only [if_neg hi]
          rw [if_neg (h.own i k p c hp hk hi)] at hx
          exact h.only p (List.mem_of_getElem? hp) x hx
  | initConfig k q => exact ok_mod h k _ (fun _ => rfl) (fun _ => rfl) fun _ => rfl
  | addGoalConfig k q => exact ok_mod h k _ (fun _ => rfl) (fun _ => rfl) fun _ => rfl
  | resetGoalConfigs k => exact ok_mod h k _ (fun _ => rfl) (fun _ => rfl) fun _ => rfl
  | setParameter k name v => exact ok_mod h k _ (fun _ => rfl) (fun _ => rfl) fun _ => rfl
  | distance k d => exact ok_mod h k _ (fun _ => rfl) (fun _ => rfl) fun _ => rfl
  | steeringMethod k d => exact ok_mod h k _ (fun _ => rfl) (fun _ => rfl) fun _ => rfl
  | configurationShooter k d => exact ok_mod h k _ (fun _ => rfl) (fun _ => rfl) fun _ => rfl
  | constraints k d => exact ok_mod h k _ (fun _ => rfl) (fun _ => rfl) fun _ => rfl
  | pathProjector k d => exact ok_mod h k _ (fun _ => rfl) (fun _ => rfl) fun _ => rfl

theorem run_ok (os : List (Op C O)) (s : St C O) (h : Ok s) : Ok (run s os) := by
  induction os generalizing s with
  | nil => exact h
  | cons o os ih => exact ih _ (step_ok h o)

theorem ok_empty : Ok (St.empty : St C O) := ⟨by simp [St.empty], by simp [St.empty], by simp [St.empty], by simp [St.empty], by simp [St.empty]⟩

/-- C115: whatever the history, copies included, the configuration validations of a problem know all its obstacles, and its path validation knows no other obstacle than those of the problem. -/
theorem C115_config (os : List (Op C O)) (p : Prob C O) (hp : p ∈ (run St.empty os).probs) :
    (∀ o ∈ p.obstacles, o ∈ (run St.empty os).cvObs p.cv) ∧ ∀ o ∈ (run St.empty os).pvObs p.pv, o ∈ p.obstacles :=
  ⟨(run_ok os _ ok_empty).known p hp, (run_ok os _ ok_empty).only p hp⟩

/-- The path validation of each problem knows exactly its obstacles, and configuration validations are not shared. -/
structure Full (s : St C O) : Prop where
  eq : ∀ p ∈ s.probs, s.pvObs p.pv = p.obstacles ∧ s.cvObs p.cv = p.obstacles
  own : ∀ (i j : ℕ) (p q : Prob C O), s.probs[i]? = some p → s.probs[j]? = some q → i ≠ j → p.cv ≠ q.cv

theorem full_mod {s : St C O} (h : Full s) (k : ℕ) (f : Prob C O → Prob C O) (h1 : ∀ p, (f p).cv = p.cv) (h2 : ∀ p, (f p).pv = p.pv) (h3 : ∀ p, (f p).obstacles = p.obstacles) : Full (s.mod k f) := by
  have e : ∀ (i : ℕ) (p : Prob C O), (if i = k then f p else p).cv = p.cv ∧ (if i = k then f p else p).pv = p.pv ∧ (if i = k then f p else p).obstacles = p.obstacles := by
    intro i p
    by_cases hi : i = k
    · simp [hi, h1, h2, h3]
    · simp [hi]
  refine ⟨?_, ?_⟩
  · intro q hq
    obtain ⟨i, p, hp, rfl⟩ := mod_mem hq
    rw [(e i p).1, (e i p).2.1, (e i p).2.2]
    exact h.eq p (List.mem_of_getElem? hp)
  · intro i j q q' hq hq' hij
    obtain ⟨p, hp, rfl⟩ := mod_get hq
    obtain ⟨p', hp', rfl⟩ := mod_get hq'
    rw [(e i p).1, (e j p').1]
    exact h.own i j p p' hp hp' hij

theorem step_full {s : St C O} (hk : Ok s) (h : Full s) (o : Op C O) (hn : o.noCopy) : Full (step s o) := by
  cases o with
  | create robot =>
    simp only [step]
    refine ⟨?_, ?_⟩
    · intro p hp
      rcases List.mem_append.1 hp with hp | hp
      · have a := hk.cv p hp
        have b := hk.pv p hp
        simp only [upd]
        rw [if_neg (by omega), if_neg (by omega)]
        exact h.eq p hp
      · rw [List.mem_singleton.1 hp]; simp [initP, upd]
    · intro i j p q hp hq hij
      rcases get_append_cases hp with ⟨hp, hi⟩ | ⟨hi, rfl⟩ <;> rcases get_append_cases hq with ⟨hq, hj⟩ | ⟨hj, rfl⟩
      · exact h.own i j p q hp hq hij
      · have := hk.cv p (List.mem_of_getElem? hp); simp only [initP]; omega
      · have := hk.cv q (List.mem_of_getElem? hq); simp only [initP]; omega
      · omega
  | createCopy k => exact hn.elim
  | addObstacle k o =>
    simp only [step]
    cases hc : s.probs[k]? with
    | none => exact h
    | some c =>
      simp only
      refine ⟨?_, ?_⟩
      · intro q hq
        obtain ⟨i, p, hp, rfl⟩ := mod_mem hq
        by_cases hi : i = k
        · subst hi
          rw [hc] at hp
          cases hp
          obtain ⟨e1, e2⟩ := h.eq c (List.mem_of_getElem? hc)
          simp only [if_true, upd, e1, e2, and_self]
        · simp only [if_neg hi, upd]
          rw [if_neg (hk.own i k p c hp hc hi), if_neg (h.own i k p c hp hc hi)]
          exact h.eq p (List.mem_of_getElem? hp)
      · intro i j q q' hq hq' hij
        obtain ⟨p, hp, rfl⟩ := mod_get hq
        obtain ⟨p', hp', rfl⟩ := mod_get hq'
        have e : ∀ (i : ℕ) (p : Prob C O), (if i = k then { p with obstacles := p.obstacles ++ [o] } else p).cv = p.cv := by
          intro i p
          by_cases hi : i = k <;> simp [hi]
        rw [e i p, e j p']
        exact h.own i j p p' hp hp' hij
  | initConfig k q => exact full_mod h k _ (fun _ => rfl) (fun _ => rfl) fun _ => rfl
  | addGoalConfig k q => exact full_mod h k _ (fun _ => rfl) (fun _ => rfl) fun _ => rfl
  | resetGoalConfigs k => exact full_mod h k _ (fun _ => rfl) (fun _ => rfl) fun _ => rfl
  | setParameter k name v => exact full_mod h k _ (fun _ => rfl) (fun _ => rfl) fun _ => rfl
  | distance k d => exact full_mod h k _ (fun _ => rfl) (fun _ => rfl) fun _ => rfl
  | steeringMethod k d => exact full_mod h k _ (fun _ => rfl) (fun _ => rfl) fun _ => rfl
  | configurationShooter k d => exact full_mod h k _ (fun _ => rfl) (fun _ => rfl) fun _ => rfl
  | constraints k d => exact full_mod h k _ (fun _ => rfl) (fun _ => rfl) fun _ => rfl
  | pathProjector k d => exact full_mod h k _ (fun _ => rfl) (fun _ => rfl) fun _ => rfl

/-- C115: as long as no problem is copied, the path validation and the configuration validations of each problem know exactly the obstacles of this problem.
Partial: false after a copy (`C115_obstacles_counterexample`, `C115_shared_counterexample`). -/
theorem C115_validations_partial (os : List (Op C O)) (hn : ∀ o ∈ os, o.noCopy) (p : Prob C O) (hp : p ∈ (run St.empty os).probs) :
    (run St.empty os).pvObs p.pv = p.obstacles ∧ (run St.empty os).cvObs p.cv = p.obstacles := by
  suffices H : ∀ (os : List (Op C O)) (s : St C O), Ok s → Full s → (∀ o ∈ os, o.noCopy) → Full (run s os) from
    (H os _ ok_empty ⟨by simp [St.empty], by simp [St.empty]⟩ hn).eq p hp
  intro os
  induction os with
  | nil => intro s _ h _; exact h
  | cons o os ih => intro s hk h hn; exact ih _ (step_ok hk o) (step_full hk h o (hn o (by simp))) fun x hx => hn x (List.mem_cons_of_mem _ hx)

theorem step_frame (s : St C O) (o : Op C O) (j : ℕ) (hj : j < s.probs.length) (ht : o.target ≠ some j) : (step s o).probs[j]? = s.probs[j]? := by
  have m : ∀ (k : ℕ) (f : Prob C O → Prob C O), k ≠ j → (s.mod k f).probs[j]? = s.probs[j]? := by
    intro k f hk
    simp [St.mod, hk]
  cases o with
  | create robot => simp only [step]; rw [List.getElem?_append_left hj]
  | createCopy k =>
    simp only [step]
    cases s.probs[k]? with
    | none => rfl
    | some c => simp only; rw [List.getElem?_append_left hj]
  | addObstacle k o =>
    simp only [step]
    cases s.probs[k]? with
    | none => rfl
    | some c => exact m k _ fun e => ht (by rw [e]; rfl)
  | initConfig k q => exact m k _ fun e => ht (by rw [e]; rfl)
  | addGoalConfig k q => exact m k _ fun e => ht (by rw [e]; rfl)
  | resetGoalConfigs k => exact m k _ fun e => ht (by rw [e]; rfl)
  | setParameter k name v => exact m k _ fun e => ht (by rw [e]; rfl)
  | distance k d => exact m k _ fun e => ht (by rw [e]; rfl)
  | steeringMethod k d => exact m k _ fun e => ht (by rw [e]; rfl)
  | configurationShooter k d => exact m k _ fun e => ht (by rw [e]; rfl)
  | constraints k d => exact m k _ fun e => ht (by rw [e]; rfl)
  | pathProjector k d => exact m k _ fun e => ht (by rw [e]; rfl)

theorem step_len (s : St C O) (o : Op C O) : s.probs.length ≤ (step s o).probs.length := by
  cases o <;> simp only [step, St.mod, List.length_modify, List.length_append, Nat.le_refl, Nat.le_add_right]
  all_goals (split <;> simp)

/-- C115: calls on other problems, such as copies of it or the problem it was copied from, change no member of a problem and not the obstacles known to its path validation (they may change those
known to its configuration validations, `C115_shared_counterexample`). -/
theorem C115_frame (os os' : List (Op C O)) (j : ℕ) (p : Prob C O) (hp : (run St.empty os).probs[j]? = some p) (ht : ∀ o ∈ os', o.target ≠ some j) :
    (run St.empty (os ++ os')).probs[j]? = some p ∧ (run St.empty (os ++ os')).pvObs p.pv = (run St.empty os).pvObs p.pv := by
  have e : run St.empty (os ++ os') = run (run (St.empty : St C O) os) os' := by unfold run; rw [List.foldl_append]
  rw [e]
  have hk := run_ok os _ (ok_empty (C := C) (O := O))
  generalize run St.empty os = s at *
  clear e
  induction os' generalizing s with
  | nil => exact ⟨hp, rfl⟩
  | cons o os' ih =>
    have hj := (List.getElem?_eq_some_iff.1 hp).1
    have f := step_frame s o j hj (ht o (by simp))
    have hp' := f.trans hp
    obtain ⟨a, b⟩ := ih (fun x hx => ht x (List.mem_cons_of_mem _ hx)) (step s o) hp' (step_ok hk o)
    refine ⟨a, ?_⟩
    show (run (step s o) os').pvObs p.pv = _
    rw [b]
    have hpv := hk.pv p (List.mem_of_getElem? hp)
    have ht0 := ht o (by simp)
    cases o with
    | create robot => simp only [step, upd]; rw [if_neg (by omega)]
    | createCopy k =>
      simp only [step]
      cases s.probs[k]? with
      | none => rfl
      | some c => simp only [upd]; rw [if_neg (by omega)]
    | addObstacle k o =>
      simp only [step]
      cases hc : s.probs[k]? with
      | none => rfl
      | some c =>
        simp only [upd]
        rw [if_neg (hk.own j k p c hp hc fun e => ht0 (by rw [e]; rfl))]
    | initConfig k q => rfl
    | addGoalConfig k q => rfl
    | resetGoalConfigs k => rfl
    | setParameter k name v => rfl
    | distance k d => rfl
    | steeringMethod k d => rfl
    | configurationShooter k d => rfl
    | constraints k d => rfl
    | pathProjector k d => rfl

/-- C115: what is given to a problem is what the problem holds, as long as no call is made on the same problem; a parameter does not change the other ones. -/
theorem C115_setters (os os' : List (Op C O)) (k : ℕ) (p : Prob C O) (hp : (run St.empty os).probs[k]? = some p) (ht : ∀ o ∈ os', o.target ≠ some k) :
    let after := fun o : Op C O => (run St.empty (os ++ [o] ++ os')).probs[k]?
    (∀ q, after (.initConfig k q) = some { p with initConf := some q }) ∧
    (∀ q, after (.addGoalConfig k q) = some { p with goals := some (p.goals.getD [] ++ [q]) }) ∧
    after (.resetGoalConfigs k) = some { p with goals := some [] } ∧
    (∀ d, after (.distance k d) = some { p with distance := some d }) ∧
    (∀ d, after (.steeringMethod k d) = some { p with steering := some d }) ∧
    (∀ d, after (.configurationShooter k d) = some { p with shooter := some d }) ∧
    (∀ d, after (.constraints k d) = some { p with constraints := some d }) ∧
    (∀ d, after (.pathProjector k d) = some { p with projector := some d }) ∧
    (∀ n v, ∃ l, after (.setParameter k n v) = some { p with params := l } ∧ l.lookup n = some v ∧ ∀ m, m ≠ n → l.lookup m = p.params.lookup m) := by
  have key : ∀ (o : Op C O) (x : Prob C O), (step (run St.empty os) o).probs[k]? = some x → (run St.empty (os ++ [o] ++ os')).probs[k]? = some x := by
    intro o x hx
    refine (C115_frame (os ++ [o]) os' k x ?_ ht).1
    have e : run St.empty (os ++ [o]) = step (run (St.empty : St C O) os) o := by unfold run; rw [List.foldl_append]; rfl
    rw [e]; exact hx
  have kmod : ∀ (f : Prob C O → Prob C O), ((run St.empty os).mod k f).probs[k]? = some (f p) := by
    intro f; simp [St.mod, hp]
  intro after
  refine ⟨fun q => key _ _ (kmod _), fun q => key _ _ (kmod _), key _ _ (kmod _), fun d => key _ _ (kmod _), fun d => key _ _ (kmod _),
    fun d => key _ _ (kmod _), fun d => key _ _ (kmod _), fun d => key _ _ (kmod _), fun n v => ⟨_, key _ _ (kmod _), ?_, ?_⟩⟩
  · simp
  · intro m hm
    have h1 : (m == n) = false := by simp [hm]
    simp only [List.lookup_cons, h1]
    induction p.params with
    | nil => rfl
    | cons x l ih =>
      obtain ⟨a, b⟩ := x
      by_cases ha : a = n
      · subst ha
        simp only [ne_eq, decide_not, List.filter_cons, decide_true, Bool.not_true, Bool.false_eq_true, if_false, List.lookup_cons, h1]
        simpa using ih
      · have e : (List.filter (fun x => decide (x.1 ≠ n)) ((a, b) :: l)) = (a, b) :: List.filter (fun x => decide (x.1 ≠ n)) l := by simp [ha]
        rw [e, List.lookup_cons, List.lookup_cons]
        by_cases hma : m = a
        · simp [hma]
        · have : (m == a) = false := by simp [hma]
          simp only [this]; exact ih

/-- C115: a copy of a problem with an obstacle: the obstacle is in its list but the path validation does not know it. -/
theorem C115_obstacles_counterexample :
    let s := run (St.empty : St ℕ ℕ) [.create 0, .addObstacle 0 7, .createCopy 0]
    s.probs.map (fun p => (p.obstacles, s.pvObs p.pv)) = [([7], [7]), ([7], [])] := by
  decide +kernel

/-- C115: an obstacle added to a copy is taken into account by the configuration validations of the original, where it is not in the list. -/
theorem C115_shared_counterexample :
    let s := run (St.empty : St ℕ ℕ) [.create 0, .createCopy 0, .addObstacle 1 7]
    s.probs.map (fun p => (p.obstacles, s.cvObs p.cv)) = [([], [7]), ([7], [7])] := by
  decide +kernel

/-- C115: a copy of a problem does not define the same problem: the goals are lost. -/
theorem C115_goals_counterexample :
    (run (St.empty : St ℕ ℕ) [.create 0, .initConfig 0 1, .addGoalConfig 0 2, .createCopy 0]).probs.map (fun p => (p.initConf, p.goals)) = [(some 1, some [2]), (some 1, some [])] := by
  decide +kernel

/-! ## C116: plugins -/

/-- Outcomes of the functions on plugins. -/
inductive PErr where
  /-- `invalid_argument`: no such file -/
  | notFound
  /-- `runtime_error`: the library cannot be loaded or has no valid function `createProblemSolverPlugin` -/
  | load
deriving DecidableEq, Repr

/-- The loop over the directories: plugin.cc:47-52 and 56-61. -/
def searchDirs (isFile : String → Bool) (join : String → String → String) (name : String) : List String → Option String
  | [] => none
  | d :: l => if isFile (join (join d "hppPlugins") name) then some (join (join d "hppPlugins") name) else searchDirs isFile join name l

/-- `findPluginLibrary`: plugin.cc:43-65. -/
def findPlugin (isAbs isFile : String → Bool) (join : String → String → String) (pluginDirs ldDirs : List String) (name : String) : Except PErr String :=
  if isAbs name then .ok name
  else match searchDirs isFile join name pluginDirs with
    | some f => .ok f
    | none => match searchDirs isFile join name ldDirs with
      | some f => .ok f
      | none => .error .notFound

/-- Answers of the dynamic loader: error message of `dlopen`, null library, error message of `dlsym`, null function, or the answer of `impl_initialize` of a new plugin. -/
structure Dl (S : Type) where
  openError : Bool
  nullLibrary : Bool
  symError : Bool
  nullFunction : Bool
  init : S → Bool × S

/-- `loadPlugin`: plugin.cc:67-107, with `ProblemSolverPlugin::initialize` (plugin.hh:48-52) on a new object; `S` is the state of the problem solver. -/
def loadPlugin {S : Type} (d : Dl S) (ps : S) : Except PErr Bool × S :=
  if d.openError then (.error .load, ps)
  else if d.nullLibrary then (.ok false, ps)
  else if d.symError then (.error .load, ps)
  else if d.nullFunction then (.error .load, ps)
  else (.ok (d.init ps).1, (d.init ps).2)

/-- `ProblemSolverPlugin::initialize` (plugin.hh:48-52) on an object with member `initialized_`: answer, member and problem solver afterwards. -/
def initPlugin {S : Type} (impl : S → Bool × S) (initialized : Bool) (ps : S) : Bool × Bool × S :=
  if initialized then (true, initialized, ps) else ((impl ps).1, (impl ps).1, (impl ps).2)

/-- Calls of `initialize` one after the other on the same object. -/
def initTimes {S : Type} (impl : S → Bool × S) : ℕ → Bool × S → Bool × S
  | 0, x => x
  | n + 1, x => initTimes impl n (initPlugin impl x.1 x.2).2

theorem searchDirs_spec (isFile : String → Bool) (join : String → String → String) (name : String) (l : List String) :
    (∀ f, searchDirs isFile join name l = some f ↔ ∃ pre d post, l = pre ++ d :: post ∧ f = join (join d "hppPlugins") name ∧ isFile f = true ∧
      ∀ e ∈ pre, isFile (join (join e "hppPlugins") name) = false) ∧
    (searchDirs isFile join name l = none ↔ ∀ e ∈ l, isFile (join (join e "hppPlugins") name) = false) := by
  induction l with
  | nil => exact ⟨fun f => by simp [searchDirs], by simp [searchDirs]⟩
  | cons d l ih =>
    obtain ⟨h1, h2⟩ := ih
    by_cases hd : isFile (join (join d "hppPlugins") name) = true
    · refine ⟨fun f => ?_, by simp [searchDirs, hd]⟩
      simp only [searchDirs, hd, if_true, Option.some.injEq]
      constructor
      · rintro rfl; exact ⟨[], d, l, rfl, rfl, hd, by simp⟩
      · rintro ⟨pre, d', post, e, hf, _, hp⟩
        cases pre with
        | nil => simp at e; rw [hf, e.1]
        | cons x pre =>
          simp at e
          have := hp x (by simp)
          rw [← e.1, hd] at this
          cases this
    · have hd' : isFile (join (join d "hppPlugins") name) = false := by simpa using hd
      refine ⟨fun f => ?_, ?_⟩
      · simp only [searchDirs, hd', Bool.false_eq_true, if_false]
        rw [h1]
        constructor
        · rintro ⟨pre, d', post, rfl, hf, hi, hp⟩
          exact ⟨d :: pre, d', post, rfl, hf, hi, by simpa [hd'] using hp⟩
        · rintro ⟨pre, d', post, e, hf, hi, hp⟩
          cases pre with
          | nil =>
            simp at e
            rw [hf, ← e.1, hd'] at hi
            cases hi
          | cons x pre =>
            simp at e
            exact ⟨pre, d', post, e.2, hf, hi, fun y hy => hp y (List.mem_cons_of_mem _ hy)⟩
      · simp only [searchDirs, hd', Bool.false_eq_true, if_false, List.forall_mem_cons, true_and]
        exact h2

/-- C116: an absolute name is returned as is; otherwise the file returned is the regular file `dir/hppPlugins/name` for the first directory with such a file, the directories of `HPP_PLUGIN_DIRS` before those of
`LD_LIBRARY_PATH`; an exception is thrown if and only if there is none. -/
theorem C116_find (isAbs isFile : String → Bool) (join : String → String → String) (pd ld : List String) (name : String) :
    (isAbs name = true → findPlugin isAbs isFile join pd ld name = .ok name) ∧
    (isAbs name = false →
      (∀ f, findPlugin isAbs isFile join pd ld name = .ok f ↔ ∃ pre d post, pd ++ ld = pre ++ d :: post ∧ f = join (join d "hppPlugins") name ∧ isFile f = true ∧
        ∀ e ∈ pre, isFile (join (join e "hppPlugins") name) = false) ∧
      (findPlugin isAbs isFile join pd ld name = .error .notFound ↔ ∀ e ∈ pd ++ ld, isFile (join (join e "hppPlugins") name) = false)) := by
  have app : ∀ l m : List String, searchDirs isFile join name (l ++ m) = (match searchDirs isFile join name l with
      | some f => some f
      | none => searchDirs isFile join name m) := by
    intro l m
    induction l with
    | nil => rfl
    | cons d l ih =>
      by_cases hd : isFile (join (join d "hppPlugins") name) = true
      · simp only [List.cons_append, searchDirs, hd, if_true]
      · simp only [List.cons_append, searchDirs, hd]
        exact ih
  obtain ⟨s1, s2⟩ := searchDirs_spec isFile join name (pd ++ ld)
  refine ⟨fun h => by simp [findPlugin, h], fun h => ⟨fun f => ?_, ?_⟩⟩
  · rw [← s1, app]
    simp only [findPlugin, h, Bool.false_eq_true, if_false]
    cases searchDirs isFile join name pd with
    | some g => simp
    | none =>
      cases searchDirs isFile join name ld with
      | some g => simp
      | none => simp
  · rw [← s2, app]
    simp only [findPlugin, h, Bool.false_eq_true, if_false]
    cases searchDirs isFile join name pd with
    | some g => simp
    | none =>
      cases searchDirs isFile join name ld with
      | some g => simp
      | none => simp

/-- C116: the problem solver is changed only by the plugin itself, once, and the answer is that of the plugin; an exception is thrown if and only if the library or its function cannot be loaded. -/
theorem C116_load {S : Type} (d : Dl S) (ps : S) :
    ((loadPlugin d ps).1 = .error .load ↔ d.openError = true ∨ (d.nullLibrary = false ∧ (d.symError = true ∨ d.nullFunction = true))) ∧
    (∀ b, (loadPlugin d ps).1 = .ok b → (b = true → (loadPlugin d ps).2 = (d.init ps).2 ∧ (d.init ps).1 = true)) ∧
    (d.openError = false → d.nullLibrary = false → d.symError = false → d.nullFunction = false → loadPlugin d ps = (.ok (d.init ps).1, (d.init ps).2)) ∧
    ((d.openError = true ∨ d.nullLibrary = true ∨ d.symError = true ∨ d.nullFunction = true) → (loadPlugin d ps).2 = ps) := by
  obtain ⟨a, b, c, e, f⟩ := d
  cases a <;> cases b <;> cases c <;> cases e <;> simp [loadPlugin]

/-- C116: on one plugin object, once `initialize` has succeeded further calls succeed and change nothing. -/
theorem C116_once {S : Type} (impl : S → Bool × S) (b : Bool) (ps : S) (h : (initPlugin impl b ps).1 = true) (n : ℕ) :
    initTimes impl n (initPlugin impl b ps).2 = (initPlugin impl b ps).2 ∧ (initPlugin impl (initPlugin impl b ps).2.1 (initPlugin impl b ps).2.2).1 = true := by
  have e : (initPlugin impl b ps).2.1 = true := by
    unfold initPlugin at h ⊢
    cases b <;> simp_all
  have f : ∀ x : Bool × S, x.1 = true → (initPlugin impl x.1 x.2).2 = x := by
    rintro ⟨a, s⟩ ha
    simp only at ha
    simp [initPlugin, ha]
  refine ⟨?_, by rw [e]; simp [initPlugin]⟩
  induction n with
  | zero => rfl
  | succ n ih => simp only [initTimes]; rw [f _ e]; exact ih

/-- C116: loading the same library twice initializes the problem solver twice, each time with a new object. -/
theorem C116_twice_counterexample : (loadPlugin ⟨false, false, false, false, fun n : ℕ => (true, n + 1)⟩ (loadPlugin ⟨false, false, false, false, fun n : ℕ => (true, n + 1)⟩ 0).2).2 = 2 := by decide

/-- A library in a directory of the second list. -/
example : findPlugin (fun s => s.startsWith "/") (fun s => s == "/b/hppPlugins/p.so") (fun a b => a ++ "/" ++ b) ["/a"] ["/c", "/b"] "p.so" = .ok "/b/hppPlugins/p.so" := by decide +kernel

/-! ## C117: distances between the robot and obstacles -/

/-- Members of `DistanceBetweenObjects` (distance-between-objects.hh): `collisionPairs_`, `distanceResults_`. -/
structure Dbo (B O R : Type) where
  pairs : List (B × O)
  results : List R

variable {B R : Type}

/-- `addObstacle` (distance-between-objects.cc:41-53): the inner objects of the bodies of all the joints, `none` for a joint without body. -/
def Dbo.addObstacle (joints : List (Option (List B))) (d : Dbo B O R) (o : O) : Dbo B O R :=
  { d with pairs := joints.foldl (fun l j => match j with
      | none => l
      | some bodies => bodies.foldl (fun l b => l ++ [(b, o)]) l) d.pairs }

/-- `obstacles` (distance-between-objects.cc:55-60). -/
def Dbo.obstacles (joints : List (Option (List B))) (d : Dbo B O R) (l : List O) : Dbo B O R := l.foldl (Dbo.addObstacle joints) d

/-- The vector of results before the loop: `resize` (distance-between-objects.cc:63), with elements `r0` built by default. -/
def resize (r0 : R) (n : ℕ) (l : List R) : List R := l.take n ++ List.replicate (n - l.length) r0

/-- The loop of `computeDistances`: distance-between-objects.cc:64-75; `clear` then the distance is written at the rank of the pair. -/
def distLoop (dist : B → O → R) : List (B × O) → ℕ → List R → List R
  | [], _, res => res
  | p :: l, rank, res => distLoop dist l (rank + 1) (res.set rank (dist p.1 p.2))

/-- `computeDistances`: distance-between-objects.cc:62-76. -/
def Dbo.compute (dist : B → O → R) (r0 : R) (d : Dbo B O R) : Dbo B O R := { d with results := distLoop dist d.pairs 0 (resize r0 d.pairs.length d.results) }

theorem resize_length (r0 : R) (n : ℕ) (l : List R) : (resize r0 n l).length = n := by
  simp [resize]; omega

theorem distLoop_spec (dist : B → O → R) (l : List (B × O)) (pre post : List R) (h : post.length = l.length) :
    distLoop dist l pre.length (pre ++ post) = pre ++ l.map fun p => dist p.1 p.2 := by
  induction l generalizing pre post with
  | nil => simp only [List.length_nil, List.length_eq_zero_iff] at h; subst h; simp [distLoop]
  | cons p l ih =>
    cases post with
    | nil => simp at h
    | cons x post =>
      simp only [distLoop]
      have e : (pre ++ x :: post).set pre.length (dist p.1 p.2) = (pre ++ [dist p.1 p.2]) ++ post := by
        rw [List.set_append_right _ _ (Nat.le_refl _)]
        simp
      rw [e]
      have := ih (pre ++ [dist p.1 p.2]) post (by simpa using h)
      simp only [List.length_append, List.length_singleton] at this
      rw [this]
      simp

/-- The pairs of an obstacle, in the order of the joints and of the objects of each body. -/
def pairsOf (joints : List (Option (List B))) (o : O) : List (B × O) := (joints.flatMap fun j => j.getD []).map fun b => (b, o)

theorem add_pairs (joints : List (Option (List B))) (d : Dbo B O R) (o : O) : (d.addObstacle joints o).pairs = d.pairs ++ pairsOf joints o := by
  simp only [Dbo.addObstacle, pairsOf]
  have inner : ∀ (bodies : List B) (l : List (B × O)), bodies.foldl (fun l b => l ++ [(b, o)]) l = l ++ bodies.map fun b => (b, o) := by
    intro bodies
    induction bodies with
    | nil => intro l; simp
    | cons b bodies ih => intro l; rw [List.foldl_cons, ih]; simp
  generalize d.pairs = l
  induction joints generalizing l with
  | nil => simp
  | cons j joints ih =>
    rw [List.foldl_cons, ih]
    cases j with
    | none => simp
    | some bodies => simp [inner]

/-- C117: whatever was computed before, after `computeDistances` there is one result for each pair of an inner object of the robot and an obstacle, in the order in which the obstacles were added, and it is the distance between
the objects of this pair. -/
theorem C117_distances (joints : List (Option (List B))) (dist : B → O → R) (r0 : R) (d : Dbo B O R) (obs : List O) :
    ((d.obstacles joints obs).compute dist r0).pairs = d.pairs ++ obs.flatMap (pairsOf joints) ∧
    ((d.obstacles joints obs).compute dist r0).results = (d.pairs ++ obs.flatMap (pairsOf joints)).map fun p => dist p.1 p.2 := by
  have hp : (d.obstacles joints obs).pairs = d.pairs ++ obs.flatMap (pairsOf joints) := by
    unfold Dbo.obstacles
    induction obs generalizing d with
    | nil => simp
    | cons o obs ih => rw [List.foldl_cons, ih, add_pairs]; simp
  refine ⟨hp, ?_⟩
  simp only [Dbo.compute, hp]
  have := distLoop_spec dist (d.pairs ++ obs.flatMap (pairsOf joints)) [] (resize r0 (d.pairs ++ obs.flatMap (pairsOf joints)).length (d.obstacles joints obs).results) (resize_length _ _ _)
  simpa using this

/-- Two joints with bodies, one without, two obstacles, one result of an earlier computation. -/
example : (((⟨[], [9]⟩ : Dbo ℕ ℕ ℕ).obstacles [some [1, 2], none, some [3]] [10, 20]).compute (fun a b => a + b) 0).results = [11, 12, 13, 21, 22, 23] := by decide +kernel

end Verif.ProblemCopy
