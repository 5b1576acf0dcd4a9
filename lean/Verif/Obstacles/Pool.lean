import Mathlib.Data.List.Basic
import Mathlib.Data.List.Perm.Basic
import Mathlib.Data.List.Nodup
import Mathlib.Tactic.Common
set_option linter.unusedSectionVars false

/-!
# Pairs tested by continuous validation, pool of copies and break distance (C118)

A `SolidSolidCollision` is a reference to its `Model` (joints, pairs, requests), shared by its copies (solid-solid-collision.hh: copy constructor, body-pair-collision.hh: copy constructor), with data
about the path under validation which is set anew for each path.  The models are in a memory; `intervalValidations_` and the lists of the pool hold references.  Interval validations of other classes
are in `Verif.Obst.Cont`.
-/
namespace Verif.Obst.Pool
variable {Obj K : Type}

/-- Fields of `coal::CollisionRequest` that are set. -/
structure Req (K : Type) where
  margin : K
  brk : K

/-- `BodyPairCollision::Model` and `SolidSolidCollision::Model`: indices of the joints (0 for the environment), pairs of objects, requests. -/
structure Model (Obj K : Type) where
  ja : ℕ
  jb : ℕ
  prs : List (Obj × Obj)
  rqs : List (Req K)

/-- `ContinuousValidation`: memory of the models, `intervalValidations_`, `disabledBodyPairCollisions_`, lists available in `bodyPairCollisionPool_`, `breakDistance_`. -/
structure St (Obj K : Type) where
  models : List (Model Obj K)
  ivs : List ℕ
  disabled : List ℕ
  pool : List (List ℕ)
  brk : K

/-- Collision pair of the geometric model of the robot: active or not, the two objects with the indices of their parent joints. -/
structure CP (Obj : Type) where
  active : Bool
  o1 : Obj
  o2 : Obj
  j1 : ℕ
  j2 : ℕ

/-- `addCollisionPair`: solid-solid-collision.cc:129-137; `dflt` is a request built by default. -/
def Model.addPair (dflt : Req K) (m : Model Obj K) (a b : Obj) : Model Obj K := { m with prs := m.prs ++ [(a, b)], rqs := m.rqs ++ [dflt] }

/-- `SolidSolidCollision::breakDistance`: solid-solid-collision.cc:124-127. -/
def Model.breakDistance (d : K) (m : Model Obj K) : Model Obj K := { m with rqs := m.rqs.map fun r => { r with brk := d } }

/-- `addIntervalValidation` of a new object: continuous-validation.cc:392-396. -/
def St.addIv (s : St Obj K) (m : Model Obj K) : St Obj K := { s with models := s.models ++ [m], ivs := s.ivs ++ [s.models.length], pool := [] }

/-- Joints of the new object: continuous-validation.cc:82-87; `Joint::create` gives a null pointer for index 0. -/
def newModel (jp : ℕ × ℕ) : Model Obj K := if jp.2 = 0 then ⟨jp.1, 0, [], []⟩ else ⟨jp.2, jp.1, [], []⟩

/-- Body of the loop of `Initialize::doExecute`: continuous-validation.cc:70-96; `bodyPairMap` is the second component of the state. -/
def initStep (dflt : Req K) (x : St Obj K × (ℕ × ℕ → Option ℕ)) (p : CP Obj) : St Obj K × (ℕ × ℕ → Option ℕ) :=
  if p.active = false then x
  else if p.j1 = p.j2 then x
  else match x.2 (p.j1, p.j2) with
    | some r => ({ x.1 with models := x.1.models.modify r fun m => m.addPair dflt p.o1 p.o2 }, x.2)
    | none =>
      let s := x.1.addIv ((newModel (p.j1, p.j2)).breakDistance x.1.brk)
      ({ s with models := s.models.modify x.1.models.length fun m => m.addPair dflt p.o1 p.o2 },
        fun jp => if jp = (p.j1, p.j2) then some x.1.models.length else x.2 jp)

/-- `Initialize::doExecute`: continuous-validation.cc:63-98. -/
def initialize' (dflt : Req K) (cps : List (CP Obj)) (s : St Obj K) : St Obj K := (cps.foldl (initStep dflt) (s, fun _ => none)).1

/-- `AddObstacle::doExecute`: continuous-validation.cc:103-118, with the constructor of `SolidSolidCollision` with objects (solid-solid-collision.cc:275-295): a joint is its index and the objects of its body,
if any. -/
def addObstacle (dflt : Req K) (joints : List (ℕ × Option (List Obj))) (o : Obj) (s : St Obj K) : St Obj K :=
  joints.foldl (fun s j => match j.2 with
    | none => s
    | some inner => s.addIv ((inner.foldl (fun m a => m.addPair dflt a o) (⟨j.1, 0, [], []⟩ : Model Obj K)).breakDistance s.brk)) s

/-- `breakDistance`: continuous-validation.cc:254-264. -/
def breakDistance (d : K) (s : St Obj K) : St Obj K :=
  { s with brk := d, pool := [], models := s.ivs.foldl (fun ms r => ms.modify r (Model.breakDistance d)) s.models }

/-- `setSecurityMargins` for a matrix of the right size: continuous-validation.cc:301-330, body-pair-collision.hh:112-114. -/
def setSecurityMargins (mat : ℕ → ℕ → K) (s : St Obj K) : St Obj K :=
  { s with pool := [], models := s.ivs.foldl (fun ms r => ms.modify r fun m => { m with rqs := m.rqs.map fun q => { q with margin := mat m.ja m.jb } }) s.models }

/-- `filterCollisionPairs`: continuous-validation.cc:266-299; `off` tells whether the relative motion of two joints is constrained or parameterized.  The loop is in `Verif.Obst.Cont`. -/
def filterPairs (off : ℕ → ℕ → Bool) (s : St Obj K) : St Obj K :=
  let isOff := fun r => match s.models[r]? with
    | some m => off m.ja m.jb
    | none => false
  { s with ivs := s.ivs.filter (fun r => !isOff r), disabled := s.disabled ++ s.ivs.filter isOff, pool := [] }

variable [DecidableEq Obj]

/-- `removeObjectTo_b` (solid-solid-collision.cc:101-121, whose loop is in `Verif.Obst.Cont`). -/
def Model.remove (o : Obj) (m : Model Obj K) : Model Obj K :=
  let l := (m.prs.zip m.rqs).filter fun x => x.1.2 ≠ o
  { m with prs := l.map Prod.fst, rqs := l.map Prod.snd }

/-- Loop of `removeObstacleFromJoint`: continuous-validation.cc:228-243; `none`: undefined behaviour (the iterator of an erased element is used). -/
def removeLoop (j : ℕ) (o : Obj) : List ℕ → List (Model Obj K) → Option (List (Model Obj K))
  | [], ms => some ms
  | r :: l, ms => match ms[r]? with
    | none => removeLoop j o l ms
    | some m =>
      if m.ja = j ∧ m.jb = 0 then
        if (m.remove o).prs.length ≠ m.prs.length then
          if (m.remove o).prs = [] then none else removeLoop j o l (ms.modify r fun m => m.remove o)
        else removeLoop j o l ms
      else removeLoop j o l ms

/-- Calls; `validate f`: validation of a path, which reorders the list of the pool it uses by `f`. -/
inductive Op (Obj K : Type) where
  | initialize' (cps : List (CP Obj))
  | addObstacle (joints : List (ℕ × Option (List Obj))) (o : Obj)
  | removeObstacleFromJoint (j : ℕ) (o : Obj)
  | filterCollisionPairs (off : ℕ → ℕ → Bool)
  | setSecurityMargins (mat : ℕ → ℕ → K)
  | breakDistance (d : K)
  | validate (f : List ℕ → List ℕ)

/-- The list `validate` works with: continuous-validation.cc:195-204. -/
def St.used (s : St Obj K) : List ℕ := match s.pool with
  | [] => s.ivs
  | l :: _ => l

/-- Effect of a call; `none`: undefined behaviour.  The list used by `validate` goes back to the pool (continuous-validation.cc:195-206). -/
def step (dflt : Req K) (s : St Obj K) : Op Obj K → Option (St Obj K)
  | .initialize' cps => some (initialize' dflt cps s)
  | .addObstacle joints o => some (addObstacle dflt joints o s)
  | .removeObstacleFromJoint j o => (removeLoop j o s.ivs s.models).map fun ms => { s with models := ms }
  | .filterCollisionPairs off => some (filterPairs off s)
  | .setSecurityMargins mat => some (setSecurityMargins mat s)
  | .breakDistance d => some (breakDistance d s)
  | .validate f => some { s with pool := f s.used :: s.pool.tail }

/-- A history of calls. -/
def run (dflt : Req K) (s : St Obj K) : List (Op Obj K) → Option (St Obj K)
  | [] => some s
  | o :: os => match step dflt s o with
    | none => none
    | some s' => run dflt s' os

/-- A new object: continuous-validation.cc:407-419. -/
def St.new (brk : K) : St Obj K := ⟨[], [], [], [], brk⟩

/-! ## Self collision -/

/-- Pairs to be tested between two joints. -/
def wanted (cps : List (CP Obj)) (jp : ℕ × ℕ) : List (Obj × Obj) := (cps.filter fun p => p.active && decide ((p.j1, p.j2) = jp)).map fun p => (p.o1, p.o2)

/-- Model with these pairs. -/
def group (dflt : Req K) (cps : List (CP Obj)) (jp : ℕ × ℕ) : Model Obj K :=
  { (newModel jp : Model Obj K) with prs := wanted cps jp, rqs := (wanted cps jp).map fun _ => dflt }

structure Grouped (dflt : Req K) (s0 : St Obj K) (done : List (CP Obj)) (keys : List (ℕ × ℕ)) (x : St Obj K × (ℕ × ℕ → Option ℕ)) : Prop where
  nodup : keys.Nodup
  mem : ∀ jp, jp ∈ keys ↔ jp.1 ≠ jp.2 ∧ ∃ p ∈ done, p.active = true ∧ (p.j1, p.j2) = jp
  mods : x.1.models = s0.models ++ keys.map (group dflt done)
  ivs : x.1.ivs = s0.ivs ++ List.range' s0.models.length keys.length
  map : ∀ jp, x.2 jp = if jp ∈ keys then some (s0.models.length + keys.idxOf jp) else none
  brk : x.1.brk = s0.brk
  disabled : x.1.disabled = s0.disabled
  pool : x.1.pool = [] ∨ x.1.pool = s0.pool ∧ keys = []

theorem wanted_other (done : List (CP Obj)) (p : CP Obj) (jp : ℕ × ℕ) (h : p.active = false ∨ (p.j1, p.j2) ≠ jp) : wanted (done ++ [p]) jp = wanted done jp := by
  unfold wanted
  rw [List.filter_append]
  have : List.filter (fun p : CP Obj => p.active && decide ((p.j1, p.j2) = jp)) [p] = [] := by
    rcases h with h | h <;> simp [h]
  rw [this, List.append_nil]

theorem wanted_same (done : List (CP Obj)) (p : CP Obj) (ha : p.active = true) : wanted (done ++ [p]) (p.j1, p.j2) = wanted done (p.j1, p.j2) ++ [(p.o1, p.o2)] := by
  unfold wanted
  rw [List.filter_append, List.map_append]
  simp [ha]

theorem group_other (dflt : Req K) (done : List (CP Obj)) (p : CP Obj) (jp : ℕ × ℕ) (h : p.active = false ∨ (p.j1, p.j2) ≠ jp) : group dflt (done ++ [p]) jp = group dflt done jp := by
  unfold group; rw [wanted_other _ _ _ h]

theorem group_same (dflt : Req K) (done : List (CP Obj)) (p : CP Obj) (ha : p.active = true) :
    group dflt (done ++ [p]) (p.j1, p.j2) = (group dflt done (p.j1, p.j2)).addPair dflt p.o1 p.o2 := by
  unfold group Model.addPair; rw [wanted_same _ _ ha]; simp

theorem initStep_spec (dflt : Req K) (s0 : St Obj K) (done : List (CP Obj)) (keys : List (ℕ × ℕ)) (x : St Obj K × (ℕ × ℕ → Option ℕ)) (h : Grouped dflt s0 done keys x) (p : CP Obj) :
    ∃ keys', Grouped dflt s0 (done ++ [p]) keys' (initStep dflt x p) := by
  by_cases ha : p.active = false
  · refine ⟨keys, ?_⟩
    have e : initStep dflt x p = x := by unfold initStep; rw [if_pos ha]
    rw [e]
    refine ⟨h.nodup, ?_, ?_, h.ivs, h.map, h.brk, h.disabled, h.pool⟩
    · intro jp
      rw [h.mem]
      simp [ha]
    · rw [h.mods]
      congr 1
      exact List.map_congr_left fun jp _ => (group_other dflt done p jp (Or.inl ha)).symm
  have ha' : p.active = true := by simpa using ha
  by_cases hj : p.j1 = p.j2
  · refine ⟨keys, ?_⟩
    have e : initStep dflt x p = x := by unfold initStep; rw [if_neg ha, if_pos hj]
    rw [e]
    refine ⟨h.nodup, ?_, ?_, h.ivs, h.map, h.brk, h.disabled, h.pool⟩
    · intro jp
      rw [h.mem]
      constructor
      · rintro ⟨a, q, hq, b⟩; exact ⟨a, q, List.mem_append_left _ hq, b⟩
      · rintro ⟨a, q, hq, b, c⟩
        rcases List.mem_append.1 hq with hq | hq
        · exact ⟨a, q, hq, b, c⟩
        · rw [List.mem_singleton.1 hq] at c
          exact (a (by rw [← c]; exact hj)).elim
    · rw [h.mods]
      congr 1
      refine List.map_congr_left fun jp hjp => (group_other dflt done p jp (Or.inr ?_)).symm
      intro e
      exact ((h.mem jp).1 hjp).1 (by rw [← e]; exact hj)
  by_cases hm : (p.j1, p.j2) ∈ keys
  · refine ⟨keys, ?_⟩
    have hx : x.2 (p.j1, p.j2) = some (s0.models.length + keys.idxOf (p.j1, p.j2)) := by rw [h.map, if_pos hm]
    have e : initStep dflt x p = ({ x.1 with models := x.1.models.modify (s0.models.length + keys.idxOf (p.j1, p.j2)) fun m => m.addPair dflt p.o1 p.o2 }, x.2) := by
      unfold initStep; rw [if_neg ha, if_neg hj, hx]
    rw [e]
    refine ⟨h.nodup, ?_, ?_, h.ivs, h.map, h.brk, h.disabled, h.pool⟩
    · intro jp
      rw [h.mem]
      constructor
      · rintro ⟨a, q, hq, b⟩; exact ⟨a, q, List.mem_append_left _ hq, b⟩
      · rintro ⟨a, q, hq, b, c⟩
        rcases List.mem_append.1 hq with hq | hq
        · exact ⟨a, q, hq, b, c⟩
        · rw [List.mem_singleton.1 hq] at c
          rw [c] at hm
          exact (h.mem jp).1 hm
    · show x.1.models.modify _ _ = _
      rw [h.mods]
      apply List.ext_getElem?
      intro i
      rw [List.getElem?_modify]
      by_cases hi : i < s0.models.length
      · rw [List.getElem?_append_left hi, List.getElem?_append_left hi]
        have hne : ¬ s0.models.length + keys.idxOf (p.j1, p.j2) = i := by omega
        simp [hne]
      · rw [List.getElem?_append_right (by omega), List.getElem?_append_right (by omega), List.getElem?_map, List.getElem?_map]
        obtain ⟨n, rfl⟩ : ∃ n, i = s0.models.length + n := ⟨i - s0.models.length, by omega⟩
        rw [Nat.add_sub_cancel_left]
        cases hk : keys[n]? with
        | none => simp
        | some jp =>
          have hn := (List.getElem?_eq_some_iff.1 hk)
          simp only [Option.map_some, Functor.map]
          by_cases hp : (p.j1, p.j2) = jp
          · subst hp
            have : keys.idxOf (p.j1, p.j2) = n := by
              obtain ⟨hl, hv⟩ := hn
              rw [← hv]
              exact List.Nodup.idxOf_getElem h.nodup n hl
            rw [if_pos (by omega), group_same dflt done p ha']
          · rw [if_neg, group_other dflt done p jp (Or.inr hp)]
            · intro he
              have : keys.idxOf (p.j1, p.j2) = n := by omega
              have h2 := List.getElem?_idxOf hm
              rw [this, hk] at h2
              exact hp (Option.some.inj h2).symm
  · refine ⟨keys ++ [(p.j1, p.j2)], ?_⟩
    have hx : x.2 (p.j1, p.j2) = none := by rw [h.map, if_neg hm]
    have hlen : x.1.models.length = s0.models.length + keys.length := by rw [h.mods]; simp
    have hne : ∀ jp ∈ keys, (p.j1, p.j2) ≠ jp := fun jp hjp e => hm (by rw [e]; exact hjp)
    have hw : wanted done (p.j1, p.j2) = [] := by
      unfold wanted
      rw [List.map_eq_nil_iff, List.filter_eq_nil_iff]
      intro q hq hc
      simp only [Bool.and_eq_true, decide_eq_true_eq] at hc
      exact hm ((h.mem _).2 ⟨hj, q, hq, hc⟩)
    have e : initStep dflt x p = ({ models := x.1.models ++ [group dflt (done ++ [p]) (p.j1, p.j2)], ivs := x.1.ivs ++ [x.1.models.length], disabled := x.1.disabled, pool := [], brk := x.1.brk },
        fun jp => if jp = (p.j1, p.j2) then some x.1.models.length else x.2 jp) := by
      unfold initStep
      rw [if_neg ha, if_neg hj, hx]
      simp only [St.addIv]
      congr 2
      apply List.ext_getElem?
      intro i
      rw [List.getElem?_modify]
      by_cases hi : i < x.1.models.length
      · rw [List.getElem?_append_left hi, List.getElem?_append_left hi]
        have hne : ¬ x.1.models.length = i := by omega
        simp [hne]
      · rw [List.getElem?_append_right (by omega), List.getElem?_append_right (by omega)]
        by_cases h0 : i = x.1.models.length
        · subst h0
          simp only [Nat.sub_self, List.getElem?_cons_zero, if_true, Option.map_some, Functor.map]
          congr 1
          rw [group_same dflt done p ha']
          simp only [group, hw, Model.addPair, Model.breakDistance, newModel]
          by_cases hz : p.j2 = 0 <;> simp [hz]
        · have : i - x.1.models.length ≠ 0 := by omega
          obtain ⟨m, hm'⟩ : ∃ m, i - x.1.models.length = m + 1 := ⟨i - x.1.models.length - 1, by omega⟩
          rw [hm']; simp
    rw [e]
    refine ⟨?_, ?_, ?_, ?_, ?_, h.brk, h.disabled, Or.inl rfl⟩
    · rw [List.nodup_append]
      exact ⟨h.nodup, by simp, fun a ha b hb => by rw [List.mem_singleton.1 hb]; exact (hne a ha).symm⟩
    · intro jp
      rw [List.mem_append, List.mem_singleton, h.mem]
      constructor
      · rintro (⟨a, q, hq, b⟩ | rfl)
        · exact ⟨a, q, List.mem_append_left _ hq, b⟩
        · exact ⟨hj, p, by simp, ha', rfl⟩
      · rintro ⟨a, q, hq, b, c⟩
        rcases List.mem_append.1 hq with hq | hq
        · exact Or.inl ⟨a, q, hq, b, c⟩
        · rw [List.mem_singleton.1 hq] at c
          exact Or.inr c.symm
    · show x.1.models ++ _ = _
      rw [h.mods, List.map_append, List.append_assoc]
      congr 2
      exact List.map_congr_left fun jp hjp => (group_other dflt done p jp (Or.inr (hne jp hjp))).symm
    · show x.1.ivs ++ _ = _
      rw [h.ivs, hlen, List.length_append, List.length_singleton, List.range'_concat, List.append_assoc]
      simp
    · intro jp
      simp only
      by_cases hjp : jp = (p.j1, p.j2)
      · subst hjp
        rw [if_pos rfl, if_pos (by simp), hlen, List.idxOf_append_of_notMem hm]
        simp
      · rw [if_neg hjp, h.map]
        by_cases hk : jp ∈ keys
        · rw [if_pos hk, if_pos (List.mem_append_left _ hk), List.idxOf_append_of_mem hk]
        · rw [if_neg hk, if_neg (by simp [hk, hjp])]

theorem init_spec (dflt : Req K) (s0 : St Obj K) (cps : List (CP Obj)) : ∃ keys, Grouped dflt s0 cps keys (cps.foldl (initStep dflt) (s0, fun _ => none)) := by
  suffices H : ∀ (l done : List (CP Obj)) (keys : List (ℕ × ℕ)) (x : St Obj K × (ℕ × ℕ → Option ℕ)), Grouped dflt s0 done keys x → ∃ keys', Grouped dflt s0 (done ++ l) keys' (l.foldl (initStep dflt) x) by
    have := H cps [] [] (s0, fun _ => none) ⟨by simp, by simp, by simp, by simp, by simp, rfl, rfl, Or.inr ⟨rfl, rfl⟩⟩
    simpa using this
  intro l
  induction l with
  | nil => intro done keys x h; exact ⟨keys, by simpa using h⟩
  | cons p l ih =>
    intro done keys x h
    obtain ⟨k, hk⟩ := initStep_spec dflt s0 done keys x h p
    obtain ⟨k', hk'⟩ := ih _ _ _ hk
    exact ⟨k', by rw [List.append_assoc] at hk'; exact hk'⟩

/-- C118: `initialize` adds one validation for each ordered pair of different joints between which a collision pair of the robot is active; it tests these pairs, in this order, each once, and
only them.  The other validations do not change. -/
theorem C118_initialize (dflt : Req K) (s : St Obj K) (cps : List (CP Obj)) :
    ∃ keys : List (ℕ × ℕ), keys.Nodup ∧ (∀ jp, jp ∈ keys ↔ jp.1 ≠ jp.2 ∧ ∃ p ∈ cps, p.active = true ∧ (p.j1, p.j2) = jp) ∧
      (initialize' dflt cps s).ivs = s.ivs ++ List.range' s.models.length keys.length ∧
      (∀ (r : ℕ) (m : Model Obj K), s.models[r]? = some m → (initialize' dflt cps s).models[r]? = some m) ∧
      ∀ (k : ℕ) (jp : ℕ × ℕ), keys[k]? = some jp → ∃ m, (initialize' dflt cps s).models[s.models.length + k]? = some m ∧
        m.prs = (cps.filter fun p => p.active && decide ((p.j1, p.j2) = jp)).map (fun p => (p.o1, p.o2)) ∧ m.rqs.length = m.prs.length ∧
        (m.ja = jp.1 ∧ m.jb = jp.2 ∨ m.ja = jp.2 ∧ m.jb = jp.1) ∧ m.ja ≠ 0 := by
  obtain ⟨keys, h⟩ := init_spec dflt s cps
  refine ⟨keys, h.nodup, h.mem, h.ivs, ?_, ?_⟩
  · intro r m hm
    have hr := (List.getElem?_eq_some_iff.1 hm).1
    unfold initialize'
    rw [h.mods, List.getElem?_append_left hr]
    exact hm
  · intro k jp hk
    refine ⟨group dflt cps jp, ?_, rfl, ?_, ?_, ?_⟩
    · unfold initialize'
      rw [h.mods, List.getElem?_append_right (by omega), Nat.add_sub_cancel_left, List.getElem?_map, hk]
      rfl
    · simp [group]
    · simp only [group, newModel]
      by_cases hz : jp.2 = 0
      · simp [hz]
      · simp [hz]
    · have hne := ((h.mem jp).1 (List.mem_of_getElem? hk)).1
      simp only [group, newModel]
      by_cases hz : jp.2 = 0
      · simp only [hz, if_true]; omega
      · simp [hz]

/-! ## The pool -/

/-- The lists of the pool are the present validations, maybe in another order. -/
def Fresh (s : St Obj K) : Prop := ∀ l ∈ s.pool, l.Perm s.ivs

theorem addObstacle_pool (dflt : Req K) (joints : List (ℕ × Option (List Obj))) (o : Obj) (s : St Obj K) (h : Fresh s) : Fresh (addObstacle dflt joints o s) := by
  unfold addObstacle
  induction joints generalizing s with
  | nil => exact h
  | cons j joints ih =>
    rw [List.foldl_cons]
    apply ih
    cases j.2 with
    | none => exact h
    | some inner => intro l hl; simp [St.addIv] at hl

theorem step_fresh (dflt : Req K) (s s' : St Obj K) (o : Op Obj K) (hf : ∀ f, o = .validate f → ∀ l, (f l).Perm l) (h : Fresh s) (hs : step dflt s o = some s') : Fresh s' := by
  cases o with
  | initialize' cps =>
    simp only [step, Option.some.injEq] at hs
    subst hs
    obtain ⟨keys, g⟩ := init_spec dflt s cps
    intro l hl
    rcases g.pool with e | ⟨e, e'⟩
    · unfold initialize' at hl; rw [e] at hl; simp at hl
    · unfold initialize' at hl ⊢
      rw [e] at hl
      rw [g.ivs, e']
      simpa using h l hl
  | addObstacle joints o =>
    simp only [step, Option.some.injEq] at hs
    subst hs
    exact addObstacle_pool dflt joints o s h
  | removeObstacleFromJoint j o =>
    simp only [step] at hs
    cases hr : removeLoop j o s.ivs s.models with
    | none => rw [hr] at hs; simp at hs
    | some ms =>
      rw [hr] at hs
      simp only [Option.map_some, Option.some.injEq] at hs
      subst hs
      exact h
  | filterCollisionPairs off =>
    simp only [step, Option.some.injEq] at hs
    subst hs
    intro l hl; simp [filterPairs] at hl
  | setSecurityMargins mat =>
    simp only [step, Option.some.injEq] at hs
    subst hs
    intro l hl; simp [Pool.setSecurityMargins] at hl
  | breakDistance d =>
    simp only [step, Option.some.injEq] at hs
    subst hs
    intro l hl; simp [Pool.breakDistance] at hl
  | validate f =>
    simp only [step, Option.some.injEq] at hs
    subst hs
    intro l hl
    rcases List.mem_cons.1 hl with rfl | hl
    · refine (hf f rfl _).trans ?_
      unfold St.used
      cases hp : s.pool with
      | nil => exact List.Perm.refl _
      | cons l' t => exact h l' (by rw [hp]; simp)
    · exact h l (List.mem_of_mem_tail hl)

/-- C118: whatever the history, a path is validated with exactly the present validations, in some order: those of the pool are never out of date. -/
theorem C118_pool (dflt : Req K) (brk : K) (os : List (Op Obj K)) (hf : ∀ f, Op.validate f ∈ os → ∀ l, (f l).Perm l) (s : St Obj K) (h : run dflt (St.new brk) os = some s) : s.used.Perm s.ivs := by
  suffices H : ∀ (os : List (Op Obj K)) (s0 : St Obj K), Fresh s0 → (∀ f, Op.validate f ∈ os → ∀ l, (f l).Perm l) → run dflt s0 os = some s → Fresh s by
    have := H os _ (by intro l hl; simp [St.new] at hl) hf h
    unfold St.used
    cases hp : s.pool with
    | nil => exact List.Perm.refl _
    | cons l t => exact this l (by rw [hp]; simp)
  intro os
  induction os with
  | nil => intro s0 h0 _ hr; simp only [run, Option.some.injEq] at hr; subst hr; exact h0
  | cons o os ih =>
    intro s0 h0 hf hr
    simp only [run] at hr
    cases hs : step dflt s0 o with
    | none => rw [hs] at hr; cases hr
    | some s1 =>
      rw [hs] at hr
      exact ih s1 (step_fresh dflt s0 s1 o (fun f e => hf f (by rw [← e]; simp)) h0 hs) (fun f hf' => hf f (List.mem_cons_of_mem _ hf')) hr

/-! ## Break distance -/

/-- All requests have the break distance of the object. -/
def Brk (s : St Obj K) : Prop := ∀ r ∈ s.ivs, ∀ m, s.models[r]? = some m → ∀ q ∈ m.rqs, q.brk = s.brk

/-- References of the validations are those of models that exist. -/
def InRange (s : St Obj K) : Prop := ∀ r ∈ s.ivs, r < s.models.length

theorem foldl_modify_len (f : Model Obj K → Model Obj K) (l : List ℕ) (ms : List (Model Obj K)) : (l.foldl (fun ms r => ms.modify r f) ms).length = ms.length := by
  induction l generalizing ms with
  | nil => rfl
  | cons r l ih => rw [List.foldl_cons, ih, List.length_modify]

theorem foldl_modify_get (f : Model Obj K → Model Obj K) (P : Model Obj K → Prop) (hP : ∀ m, P m → P (f m)) (l : List ℕ) (ms : List (Model Obj K)) (r : ℕ)
    (hr : (r ∈ l ∧ ∀ m, P (f m)) ∨ ∀ m, ms[r]? = some m → P m) (m : Model Obj K) (h : (l.foldl (fun ms r => ms.modify r f) ms)[r]? = some m) : P m := by
  induction l generalizing ms with
  | nil =>
    rcases hr with ⟨hr, _⟩ | hr
    · cases hr
    · exact hr m h
  | cons a l ih =>
    rw [List.foldl_cons] at h
    refine ih (ms.modify a f) ?_ h
    have key : ∀ m, (ms.modify a f)[r]? = some m → ∃ m0, ms[r]? = some m0 ∧ m = if a = r then f m0 else m0 := by
      intro m hm
      rw [List.getElem?_modify] at hm
      cases hq : ms[r]? with
      | none => rw [hq] at hm; simp at hm
      | some m0 =>
        rw [hq] at hm
        simp only [Functor.map, Option.map_some, Option.some.injEq] at hm
        exact ⟨m0, rfl, hm.symm⟩
    rcases hr with ⟨hr, hf⟩ | hr
    · by_cases ha : a = r
      · right
        intro m hm
        obtain ⟨m0, _, rfl⟩ := key m hm
        rw [if_pos ha]; exact hf m0
      · left
        rcases List.mem_cons.1 hr with e | e
        · exact (ha e.symm).elim
        · exact ⟨e, hf⟩
    · right
      intro m hm
      obtain ⟨m0, h0, rfl⟩ := key m hm
      by_cases ha : a = r
      · rw [if_pos ha]; exact hP _ (hr m0 h0)
      · rw [if_neg ha]; exact hr m0 h0

/-- Not a call to `initialize`. -/
def Op.noInit : Op Obj K → Prop
  | .initialize' _ => False
  | _ => True

theorem remove_brk (o : Obj) (m : Model Obj K) (d : K) (h : ∀ q ∈ m.rqs, q.brk = d) : ∀ q ∈ (m.remove o).rqs, q.brk = d := by
  intro q hq
  simp only [Model.remove, List.mem_map, List.mem_filter] at hq
  obtain ⟨x, ⟨hx, _⟩, rfl⟩ := hq
  exact h _ (List.of_mem_zip hx).2

theorem removeLoop_spec (P : Model Obj K → Prop) (j : ℕ) (o : Obj) (hP : ∀ m, P m → P (m.remove o)) (l : List ℕ) (ms ms' : List (Model Obj K)) (h : removeLoop j o l ms = some ms') :
    ms'.length = ms.length ∧ ∀ r : ℕ, (∀ m, ms[r]? = some m → P m) → ∀ m, ms'[r]? = some m → P m := by
  induction l generalizing ms with
  | nil => simp only [removeLoop, Option.some.injEq] at h; subst h; exact ⟨rfl, fun r h => h⟩
  | cons a l ih =>
    simp only [removeLoop] at h
    cases hm : ms[a]? with
    | none => rw [hm] at h; exact ih ms h
    | some m0 =>
      rw [hm] at h
      simp only at h
      by_cases h1 : m0.ja = j ∧ m0.jb = 0
      · rw [if_pos h1] at h
        by_cases h2 : (m0.remove o).prs.length ≠ m0.prs.length
        · rw [if_pos h2] at h
          by_cases h3 : (m0.remove o).prs = []
          · rw [if_pos h3] at h; cases h
          · rw [if_neg h3] at h
            obtain ⟨a1, a2⟩ := ih _ h
            refine ⟨by rw [a1, List.length_modify], fun r hr m hm' => a2 r ?_ m hm'⟩
            intro m2 hm2
            rw [List.getElem?_modify] at hm2
            cases hq : ms[r]? with
            | none => rw [hq] at hm2; simp at hm2
            | some m3 =>
              rw [hq] at hm2
              simp only [Functor.map, Option.map_some, Option.some.injEq] at hm2
              subst hm2
              by_cases e : a = r
              · rw [if_pos e]; exact hP _ (hr m3 hq)
              · rw [if_neg e]; exact hr m3 hq
        · rw [if_neg h2] at h; exact ih ms h
      · rw [if_neg h1] at h; exact ih ms h

theorem addIv_brk (s : St Obj K) (m : Model Obj K) (hi : InRange s) (h : Brk s) : Brk (s.addIv (m.breakDistance s.brk)) ∧ InRange (s.addIv (m.breakDistance s.brk)) := by
  constructor
  · intro r hr x hx q hq
    simp only [St.addIv] at hr hx ⊢
    rcases List.mem_append.1 hr with hr | hr
    · rw [List.getElem?_append_left (hi r hr)] at hx
      exact h r hr x hx q hq
    · rw [List.mem_singleton.1 hr, List.getElem?_append_right (Nat.le_refl _)] at hx
      simp only [Nat.sub_self, List.getElem?_cons_zero, Option.some.injEq] at hx
      subst hx
      simp only [Model.breakDistance, List.mem_map] at hq
      obtain ⟨q', _, rfl⟩ := hq
      rfl
  · intro r hr
    simp only [St.addIv] at hr ⊢
    rcases List.mem_append.1 hr with hr | hr
    · have := hi r hr; simp; omega
    · rw [List.mem_singleton.1 hr]; simp

theorem addObstacle_brk (dflt : Req K) (joints : List (ℕ × Option (List Obj))) (o : Obj) (s : St Obj K) (hi : InRange s) (h : Brk s) :
    Brk (addObstacle dflt joints o s) ∧ InRange (addObstacle dflt joints o s) := by
  unfold addObstacle
  induction joints generalizing s with
  | nil => exact ⟨h, hi⟩
  | cons j joints ih =>
    rw [List.foldl_cons]
    cases hj : j.2 with
    | none => exact ih s hi h
    | some inner =>
      obtain ⟨a, b⟩ := addIv_brk s (inner.foldl (fun m a => m.addPair dflt a o) ⟨j.1, 0, [], []⟩) hi h
      exact ih _ b a

theorem step_brk (dflt : Req K) (s s' : St Obj K) (o : Op Obj K) (hn : o.noInit) (hi : InRange s) (h : Brk s ∨ ∃ d, o = .breakDistance d) (hs : step dflt s o = some s') : Brk s' ∧ InRange s' := by
  cases o with
  | initialize' cps => exact hn.elim
  | addObstacle joints o =>
    simp only [step, Option.some.injEq] at hs
    subst hs
    rcases h with h | ⟨d, h⟩
    · exact addObstacle_brk dflt joints o s hi h
    · cases h
  | removeObstacleFromJoint j o =>
    rcases h with h | ⟨d, h⟩
    swap
    · cases h
    simp only [step] at hs
    cases hr : removeLoop j o s.ivs s.models with
    | none => rw [hr] at hs; simp at hs
    | some ms =>
      rw [hr] at hs
      simp only [Option.map_some, Option.some.injEq] at hs
      subst hs
      obtain ⟨a, b⟩ := removeLoop_spec (fun m => ∀ q ∈ m.rqs, q.brk = s.brk) j o (fun m hm => remove_brk o m _ hm) _ _ _ hr
      exact ⟨fun r hr m hm => b r (fun m hm => h r hr m hm) m hm, fun r hr => by simp only; rw [a]; exact hi r hr⟩
  | filterCollisionPairs off =>
    rcases h with h | ⟨d, h⟩
    swap
    · cases h
    simp only [step, Option.some.injEq] at hs
    subst hs
    exact ⟨fun r hr m hm => h r (List.mem_filter.1 hr).1 m hm, fun r hr => hi r (List.mem_filter.1 hr).1⟩
  | setSecurityMargins mat =>
    rcases h with h | ⟨d, h⟩
    swap
    · cases h
    simp only [step, Option.some.injEq] at hs
    subst hs
    refine ⟨fun r hr m hm => ?_, fun r hr => by simp only [Pool.setSecurityMargins]; rw [foldl_modify_len]; exact hi r hr⟩
    refine foldl_modify_get (fun m => { m with rqs := m.rqs.map fun q => { q with margin := mat m.ja m.jb } }) (fun m => ∀ q ∈ m.rqs, q.brk = s.brk) ?_ s.ivs s.models r (Or.inr fun m hm => h r hr m hm) m hm
    intro m hm q hq
    simp only [List.mem_map] at hq
    obtain ⟨q', h', rfl⟩ := hq
    exact hm q' h'
  | breakDistance d =>
    simp only [step, Option.some.injEq] at hs
    subst hs
    refine ⟨fun r hr m hm => ?_, fun r hr => by simp only [Pool.breakDistance]; rw [foldl_modify_len]; exact hi r hr⟩
    have all : ∀ m : Model Obj K, ∀ q ∈ (m.breakDistance d).rqs, q.brk = d := by
      intro m q hq
      simp only [Model.breakDistance, List.mem_map] at hq
      obtain ⟨q', _, rfl⟩ := hq
      rfl
    exact foldl_modify_get (Model.breakDistance d) (fun m => ∀ q ∈ m.rqs, q.brk = d) (fun m _ => all m) s.ivs s.models r (Or.inl ⟨hr, all⟩) m hm
  | validate f =>
    rcases h with h | ⟨d, h⟩
    swap
    · cases h
    simp only [step, Option.some.injEq] at hs
    subst hs
    exact ⟨h, hi⟩

theorem step_range (dflt : Req K) (s s' : St Obj K) (o : Op Obj K) (hi : InRange s) (hs : step dflt s o = some s') : InRange s' := by
  cases o with
  | initialize' cps =>
    simp only [step, Option.some.injEq] at hs
    subst hs
    obtain ⟨keys, g⟩ := init_spec dflt s cps
    intro r hr
    unfold initialize' at hr ⊢
    rw [g.ivs] at hr
    rw [g.mods, List.length_append, List.length_map]
    rcases List.mem_append.1 hr with hr | hr
    · have := hi r hr; omega
    · rw [List.mem_range'_1] at hr; exact hr.2
  | addObstacle joints o =>
    simp only [step, Option.some.injEq] at hs
    subst hs
    unfold addObstacle
    induction joints generalizing s with
    | nil => exact hi
    | cons j joints ih =>
      rw [List.foldl_cons]
      cases hj : j.2 with
      | none => exact ih s hi
      | some inner =>
        apply ih
        intro r hr
        simp only [St.addIv] at hr ⊢
        rcases List.mem_append.1 hr with hr | hr
        · have := hi r hr; simp; omega
        · rw [List.mem_singleton.1 hr]; simp
  | removeObstacleFromJoint j o =>
    simp only [step] at hs
    cases hr : removeLoop j o s.ivs s.models with
    | none => rw [hr] at hs; simp at hs
    | some ms =>
      rw [hr] at hs
      simp only [Option.map_some, Option.some.injEq] at hs
      subst hs
      obtain ⟨a, _⟩ := removeLoop_spec (fun _ => True) j o (fun m hm => trivial) _ _ _ hr
      exact fun r hr => by simp only; rw [a]; exact hi r hr
  | filterCollisionPairs off =>
    simp only [step, Option.some.injEq] at hs
    subst hs
    exact fun r hr => hi r (List.mem_filter.1 hr).1
  | setSecurityMargins mat =>
    simp only [step, Option.some.injEq] at hs
    subst hs
    exact fun r hr => by simp only [Pool.setSecurityMargins]; rw [foldl_modify_len]; exact hi r hr
  | breakDistance d =>
    simp only [step, Option.some.injEq] at hs
    subst hs
    exact fun r hr => by simp only [Pool.breakDistance]; rw [foldl_modify_len]; exact hi r hr
  | validate f =>
    simp only [step, Option.some.injEq] at hs
    subst hs
    exact hi

theorem run_append (dflt : Req K) (s : St Obj K) (os os' : List (Op Obj K)) : run dflt s (os ++ os') = match run dflt s os with
    | none => none
    | some s' => run dflt s' os' := by
  induction os generalizing s with
  | nil => rfl
  | cons o os ih =>
    simp only [List.cons_append, run]
    cases step dflt s o with
    | none => rfl
    | some s' => exact ih s'

theorem run_range (dflt : Req K) (os : List (Op Obj K)) (s s' : St Obj K) (hi : InRange s) (h : run dflt s os = some s') : InRange s' := by
  induction os generalizing s with
  | nil => simp only [run, Option.some.injEq] at h; subst h; exact hi
  | cons o os ih =>
    simp only [run] at h
    cases hs : step dflt s o with
    | none => rw [hs] at h; cases h
    | some s1 => rw [hs] at h; exact ih s1 (step_range dflt s s1 o hi hs) h

theorem run_brk (dflt : Req K) (os : List (Op Obj K)) (s s' : St Obj K) (hn : ∀ o ∈ os, o.noInit) (hi : InRange s) (hb : Brk s) (h : run dflt s os = some s') : Brk s' := by
  induction os generalizing s with
  | nil => simp only [run, Option.some.injEq] at h; subst h; exact hb
  | cons o os ih =>
    simp only [run] at h
    cases hs : step dflt s o with
    | none => rw [hs] at h; cases h
    | some s1 =>
      rw [hs] at h
      obtain ⟨a, b⟩ := step_brk dflt s s1 o (hn o (by simp)) hi (Or.inl hb) hs
      exact ih s1 (fun x hx => hn x (List.mem_cons_of_mem _ hx)) b a h

/-- C118: after a call to `breakDistance`, as long as `initialize` is not called again, all the requests of the present validations, including those of obstacles added later, have the break distance of the object.
Partial: the pairs added by `initialize` do not get it (`C118_break_counterexample`). -/
theorem C118_break_partial (dflt : Req K) (brk d : K) (os os' : List (Op Obj K)) (hn : ∀ o ∈ os', o.noInit) (s : St Obj K) (h : run dflt (St.new brk) (os ++ .breakDistance d :: os') = some s) : Brk s := by
  rw [run_append] at h
  cases h1 : run dflt (St.new brk) os with
  | none => rw [h1] at h; cases h
  | some s1 =>
    rw [h1] at h
    simp only [run] at h
    have hr := run_range dflt os _ s1 (by intro r hr; simp [St.new] at hr) h1
    cases h2 : step dflt s1 (.breakDistance d) with
    | none => rw [h2] at h; cases h
    | some s2 =>
      rw [h2] at h
      obtain ⟨a, b⟩ := step_brk dflt s1 s2 (.breakDistance d) trivial hr (Or.inr ⟨d, rfl⟩) h2
      exact run_brk dflt os' s2 s hn b a h

/-- C118: in a new object, the requests between bodies of the robot have the default break distance of coal (here 1) instead of that of the object (10): `breakDistance` is called on the new validation before it has any
pair. -/
theorem C118_break_counterexample :
    (run (⟨0, 1⟩ : Req ℕ) (St.new 10) [.initialize' [⟨true, 5, 6, 1, 2⟩], .addObstacle [(1, some [5])] 7]).map (fun s => s.models.map fun m => (m.prs, m.rqs.map Req.brk)) =
      some [([(5, 6)], [1]), ([(5, 7)], [10])] := by
  decide +kernel

/-- C118: `filterCollisionPairs` moves the validations of the pairs of joints whose relative motion is constrained to the disabled ones, once each, and no other; lists of the pool are dropped; the pairs themselves are unchanged. -/
theorem C118_filter (dflt : Req K) (off : ℕ → ℕ → Bool) (s : St Obj K) : ∃ s', step dflt s (.filterCollisionPairs off) = some s' ∧ s'.models = s.models ∧ s'.pool = [] ∧ s'.brk = s.brk ∧
    (∀ r ∈ s'.ivs, ∀ m, s.models[r]? = some m → off m.ja m.jb = false) ∧ (∃ l, s'.disabled = s.disabled ++ l ∧ (s'.ivs ++ l).Perm s.ivs ∧ ∀ r ∈ l, ∃ m, s.models[r]? = some m ∧ off m.ja m.jb = true) := by
  refine ⟨_, rfl, rfl, rfl, rfl, ?_, ?_⟩
  · intro r hr m hm
    simp only [filterPairs, List.mem_filter, hm] at hr
    simpa using hr.2
  · refine ⟨_, rfl, ?_, ?_⟩
    · simp only [filterPairs]
      exact List.perm_append_comm.trans (List.filter_append_perm _ _)
    · intro r hr
      simp only [List.mem_filter] at hr
      cases hm : s.models[r]? with
      | none => rw [hm] at hr; simp at hr
      | some m => rw [hm] at hr; exact ⟨m, rfl, hr.2⟩

/-- Two joints, an inactive pair, a pair inside a body; an obstacle; validations that reverse their list. -/
def exOps : List (Op ℕ ℕ) := [.initialize' [⟨true, 5, 6, 1, 2⟩, ⟨false, 5, 7, 1, 2⟩, ⟨true, 5, 8, 1, 1⟩, ⟨true, 5, 9, 1, 2⟩, ⟨true, 3, 9, 0, 2⟩], .addObstacle [(1, some [5]), (2, none)] 7,
  .validate List.reverse, .breakDistance 4, .validate List.reverse, .setSecurityMargins (fun a b => a + b), .validate List.reverse]

example : (run (⟨0, 1⟩ : Req ℕ) (St.new 10) exOps).map (fun s => (s.ivs, s.used)) = some ([0, 1, 2], [2, 1, 0]) := by
  decide +kernel

example : (run (⟨0, 1⟩ : Req ℕ) (St.new 10) exOps).map (fun s => s.models.map fun m => (m.ja, m.jb, m.prs)) = some [(2, 1, [(5, 6), (5, 9)]), (2, 0, [(3, 9)]), (1, 0, [(5, 7)])] := by
  decide +kernel

example : (run (⟨0, 1⟩ : Req ℕ) (St.new 10) exOps).map (fun s => s.models.map fun m => m.rqs.map fun q => (q.margin, q.brk)) = some [[(3, 4), (3, 4)], [(2, 4)], [(1, 4)]] := by
  decide +kernel

end Verif.Obst.Pool
