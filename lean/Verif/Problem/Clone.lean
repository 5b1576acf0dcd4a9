set_option linter.unusedSectionVars false

/-!
# Copies of steering methods and distances (C123)

Objects and constraint sets are designated by their rank of creation: constraint sets are shared by pointers, steering methods and distances are not.  What a steering method or a distance computes depends on the members
below only.
-/
namespace Verif.Clone
variable {K Cn : Type}

/-- Members of the classes of steering methods.  `plain`: `Straight`, `Hermite`, `Spline` (no other member than the robot).  `car`: `Dubins`, `ReedsShepp`, `Snibud` (car-like.hh:78-90), with the ranks of the joints and of
the wheels.  `kino`: steering-kinodynamic.hh:131-137 (without `aMaxFixed_` and `aMaxFixed_Z_`, which are never read but in the constructor). -/
inductive SKind (K : Type) where
  | plain (name : Nat)
  | car (rho : K) (xy rz : Nat) (wheels : List Nat)
  | kino (aMax vMax : K × K × K) (sync oriented ignoreZ : Bool)

/-- A steering method: steering-method.hh:114-118. -/
structure SM (K : Type) where
  kind : SKind K
  cons : Option Nat

/-- Distances: `WeighedDistance` (weighed-distance.hh), `distance::ReedsShepp` (distance/reeds-shepp.hh) with the weights of its own weighed distance, `KinodynamicDistance` with its bounds (`none`: not initialized). -/
inductive DKind (K : Type) where
  | weighed (weights : List K)
  | rs (weights : List K) (rho : K) (xy rz : Nat) (wheels : List Nat)
  | kino (bounds : Option (K × K))

structure World (K Cn : Type) where
  sets : List (List Cn)
  sms : List (SM K)
  ds : List (DKind K)

/-- Parameters of the problem used by the constructors: `Kinodynamic/…`. -/
structure KParams (K : Type) where
  acceleration : K
  verticalAcceleration : K
  velocity : K
  sync : Bool
  oriented : Bool
  ignoreZ : Bool

/-- `Kinodynamic (problem)`: steering-kinodynamic.cc:184-233. -/
def kinoFromProblem (p : KParams K) : SKind K :=
  .kino (p.acceleration, p.acceleration, p.acceleration) (p.velocity, p.velocity, p.velocity) p.sync p.oriented p.ignoreZ

/-- `KinodynamicDistance (problem)` and `KinodynamicDistance (robot)`: kinodynamic-distance.cc:70-91. -/
def distFromProblem (p : KParams K) : DKind K := .kino (some (p.acceleration, p.velocity))
def distFromRobot (ten one : K) : DKind K := .kino (some (ten, one))

/-- Copy constructors of the classes: straight.hh:75, hermite.hh:84, spline.cc:139-142, car-like.cc:74-81 (the wheels are not copied), steering-kinodynamic.cc:235-242. -/
def SKind.copy : SKind K → SKind K
  | .car rho xy rz _ => .car rho xy rz []
  | k => k

/-- Copy constructors of the distances: weighed-distance.cc:267-268, distance/reeds-shepp.cc:102-112, kinodynamic-distance.cc:94-95 (the bounds are not copied). -/
def DKind.copy : DKind K → DKind K
  | .kino _ => .kino none
  | d => d

inductive Op (K Cn : Type) where
  | newSet
  | addTo (s : Nat) (c : Cn)
  | create (k : SKind K)
  | copy (i : Nat)
  | projector (i : Nat) (keep : Bool)
  | setCons (i : Nat) (s : Option Nat)
  | setAmax (i : Nat) (a : K × K × K)
  | setVmax (i : Nat) (v : K × K × K)
  | setRadius (i : Nat) (r : K)
  | createD (d : DKind K)
  | clone (i : Nat)
  | weights (i : Nat) (ws : List K)

def SKind.setAmax (a : K × K × K) : SKind K → SKind K
  | .kino _ v s o z => .kino a v s o z
  | k => k
def SKind.setVmax (v : K × K × K) : SKind K → SKind K
  | .kino a _ s o z => .kino a v s o z
  | k => k
def SKind.setRadius (r : K) : SKind K → SKind K
  | .car _ xy rz w => .car r xy rz w
  | k => k
/-- `weights (ws)` for a vector of the right size: weighed-distance.cc:192-201. -/
def DKind.setWeights (ws : List K) : DKind K → DKind K
  | .weighed _ => .weighed ws
  | d => d

/-- The base copy constructor: steering-method.hh:99-105: the constraint set is copied. -/
def World.copySM (w : World K Cn) (m : SM K) (keep : Bool) : World K Cn :=
  match m.cons with
  | none => { w with sms := w.sms ++ [⟨m.kind.copy, none⟩] }
  | some s => { w with sets := w.sets ++ [w.sets[s]?.getD []], sms := w.sms ++ [⟨m.kind.copy, if keep then some w.sets.length else none⟩] }

/-- Effect of a call.  `projector`: the steering method stored by a new path projector, path-projector.cc:44-54.  `setCons`: steering-method.hh:84-86.  `setAmax`, `setVmax`: steering-kinodynamic.hh:114-116.  The setters of
a class are called on objects of this class. -/
def step (w : World K Cn) : Op K Cn → World K Cn
  | .newSet => { w with sets := w.sets ++ [[]] }
  | .addTo s c => { w with sets := w.sets.modify s (· ++ [c]) }
  | .create k => { w with sms := w.sms ++ [⟨k, none⟩] }
  | .copy i => match w.sms[i]? with
    | none => w
    | some m => w.copySM m true
  | .projector i keep => match w.sms[i]? with
    | none => w
    | some m => w.copySM m keep
  | .setCons i s => { w with sms := w.sms.modify i ({ · with cons := s }) }
  | .setAmax i a => { w with sms := w.sms.modify i fun m => { m with kind := m.kind.setAmax a } }
  | .setVmax i v => { w with sms := w.sms.modify i fun m => { m with kind := m.kind.setVmax v } }
  | .setRadius i r => { w with sms := w.sms.modify i fun m => { m with kind := m.kind.setRadius r } }
  | .createD d => { w with ds := w.ds ++ [d] }
  | .clone i => match w.ds[i]? with
    | none => w
    | some d => { w with ds := w.ds ++ [d.copy] }
  | .weights i ws => { w with ds := w.ds.modify i (DKind.setWeights ws) }

def run (w : World K Cn) (os : List (Op K Cn)) : World K Cn := os.foldl step w

/-- Observation of a steering method: members and contents of its constraint set. -/
def obs (w : World K Cn) (i : Nat) : Option (SKind K × Option (List Cn)) :=
  w.sms[i]?.map fun m => (m.kind, m.cons.map fun s => w.sets[s]?.getD [])

/-- The steering method and the set that a call may change. -/
def Op.sm : Op K Cn → Option Nat
  | .setCons i _ => some i
  | .setAmax i _ => some i
  | .setVmax i _ => some i
  | .setRadius i _ => some i
  | _ => none
def Op.set : Op K Cn → Option Nat
  | .addTo s _ => some s
  | _ => none
def Op.dist : Op K Cn → Option Nat
  | .weights i _ => some i
  | _ => none

/-- References to constraint sets are those of sets that exist. -/
def Inv (w : World K Cn) : Prop := ∀ (i : Nat) (m : SM K) (s : Nat), w.sms[i]? = some m → m.cons = some s → s < w.sets.length

/-- Calls give sets that exist. -/
def Op.ok (w : World K Cn) : Op K Cn → Prop
  | .setCons _ (some s) => s < w.sets.length
  | _ => True

inductive Reach : World K Cn → Prop where
  | init : Reach ⟨[], [], []⟩
  | step {w : World K Cn} (h : Reach w) (o : Op K Cn) (ho : o.ok w) : Reach (step w o)

theorem get_append_new {α : Type} (l : List α) (x : α) (i : Nat) (y : α) (h : (l ++ [x])[i]? = some y) : l[i]? = some y ∨ (i = l.length ∧ y = x) := by
  rcases Nat.lt_or_ge i l.length with hi | hi
  · rw [List.getElem?_append_left hi] at h; exact Or.inl h
  · rw [List.getElem?_append_right hi] at h
    cases hk : i - l.length with
    | zero => rw [hk] at h; simp at h; exact Or.inr ⟨by omega, h.symm⟩
    | succ k => rw [hk] at h; simp at h

theorem copySM_inv (w : World K Cn) (h : Inv w) (m : SM K) (keep : Bool) : Inv (w.copySM m keep) := by
  intro i m' s hm hs
  unfold World.copySM at hm ⊢
  cases hc : m.cons with
  | none =>
    rw [hc] at hm
    rcases get_append_new _ _ _ _ hm with h1 | ⟨_, rfl⟩
    · exact h i m' s h1 hs
    · exact absurd hs (by simp)
  | some t =>
    rw [hc] at hm
    simp only [List.length_append, List.length_cons, List.length_nil]
    rcases get_append_new _ _ _ _ hm with h1 | ⟨_, rfl⟩
    · have := h i m' s h1 hs; omega
    · cases keep with
      | false => exact absurd hs (by simp)
      | true => simp at hs; omega

theorem modify_inv (w : World K Cn) (h : Inv w) (k : Nat) (f : SM K → SM K) (hf : ∀ m s, (f m).cons = some s → m.cons = some s ∨ s < w.sets.length) : Inv { w with sms := w.sms.modify k f } := by
  intro i m s hm hs
  simp only [List.getElem?_modify] at hm
  cases hi : w.sms[i]? with
  | none => rw [hi] at hm; simp at hm
  | some m0 =>
    rw [hi] at hm
    simp only [Functor.map, Option.map_some, Option.some.injEq] at hm
    by_cases hk : k = i
    · rw [if_pos hk] at hm
      subst hm
      rcases hf _ _ hs with h1 | h1
      · exact h i m0 s hi h1
      · exact h1
    · rw [if_neg hk] at hm
      subst hm
      exact h i m0 s hi hs

theorem step_inv (w : World K Cn) (h : Inv w) (o : Op K Cn) (ho : o.ok w) : Inv (step w o) := by
  cases o with
  | newSet =>
    intro i m s hm hs
    have := h i m s hm hs
    simp only [step, List.length_append, List.length_cons, List.length_nil]
    omega
  | addTo t c =>
    intro i m s hm hs
    have := h i m s hm hs
    simpa [step] using this
  | create k =>
    intro i m s hm hs
    rcases get_append_new _ _ _ _ hm with h1 | ⟨_, rfl⟩
    · exact h i m s h1 hs
    · exact absurd hs (by simp)
  | copy i =>
    simp only [step]
    cases w.sms[i]? with
    | none => exact h
    | some m => exact copySM_inv w h m true
  | projector i keep =>
    simp only [step]
    cases w.sms[i]? with
    | none => exact h
    | some m => exact copySM_inv w h m keep
  | setCons i s =>
    refine modify_inv w h i _ fun m t ht => Or.inr ?_
    simp only at ht
    subst ht
    exact ho
  | setAmax i a => exact modify_inv w h i _ fun m t ht => Or.inl ht
  | setVmax i a => exact modify_inv w h i _ fun m t ht => Or.inl ht
  | setRadius i a => exact modify_inv w h i _ fun m t ht => Or.inl ht
  | createD d => exact h
  | clone i =>
    simp only [step]
    cases w.ds[i]? with
    | none => exact h
    | some d => exact h
  | weights i ws => exact h

theorem Reach.inv {w : World K Cn} (h : Reach w) : Inv w := by
  induction h with
  | init => intro i m s hm; simp at hm
  | step _ o ho ih => exact step_inv _ ih o ho

/-! ## Frames -/
theorem getElem?_append_some {α : Type} (l l' : List α) (i : Nat) (x : α) (h : l[i]? = some x) : (l ++ l')[i]? = some x := by
  rw [List.getElem?_append_left (List.getElem?_eq_some_iff.1 h).1, h]

theorem modify_ne {α : Type} (l : List α) (k i : Nat) (f : α → α) (h : k ≠ i) : (l.modify k f)[i]? = l[i]? := by
  rw [List.getElem?_modify]
  cases l[i]? <;> simp [h]

/-- One call does not change a steering method it does not name, nor a set it does not name. -/
theorem step_frame (w : World K Cn) (o : Op K Cn) :
    (∀ (i : Nat) m, w.sms[i]? = some m → o.sm ≠ some i → (step w o).sms[i]? = some m) ∧
    (∀ (s : Nat) l, w.sets[s]? = some l → o.set ≠ some s → (step w o).sets[s]? = some l) ∧
    (∀ (d : Nat) x, w.ds[d]? = some x → o.dist ≠ some d → (step w o).ds[d]? = some x) := by
  have hc : ∀ m keep, (∀ (i : Nat) m', w.sms[i]? = some m' → (w.copySM m keep).sms[i]? = some m') ∧ (∀ (s : Nat) l, w.sets[s]? = some l → (w.copySM m keep).sets[s]? = some l) ∧
      (∀ (d : Nat) x, w.ds[d]? = some x → (w.copySM m keep).ds[d]? = some x) := by
    intro m keep
    unfold World.copySM
    cases m.cons with
    | none => exact ⟨fun i m' h => getElem?_append_some _ _ _ _ h, fun s l h => h, fun d x h => h⟩
    | some t => exact ⟨fun i m' h => getElem?_append_some _ _ _ _ h, fun s l h => getElem?_append_some _ _ _ _ h, fun d x h => h⟩
  cases o with
  | newSet => exact ⟨fun i m h _ => h, fun s l h _ => getElem?_append_some _ _ _ _ h, fun d x h _ => h⟩
  | addTo t c => exact ⟨fun i m h _ => h, fun s l h hs => by rw [← h]; exact modify_ne _ _ _ _ fun e => hs (by rw [← e]; rfl), fun d x h _ => h⟩
  | create k => exact ⟨fun i m h _ => getElem?_append_some _ _ _ _ h, fun s l h _ => h, fun d x h _ => h⟩
  | copy i =>
    simp only [step]
    cases w.sms[i]? with
    | none => exact ⟨fun i m h _ => h, fun s l h _ => h, fun d x h _ => h⟩
    | some m => exact ⟨fun i m' h _ => (hc m true).1 i m' h, fun s l h _ => (hc m true).2.1 s l h, fun d x h _ => (hc m true).2.2 d x h⟩
  | projector i keep =>
    simp only [step]
    cases w.sms[i]? with
    | none => exact ⟨fun i m h _ => h, fun s l h _ => h, fun d x h _ => h⟩
    | some m => exact ⟨fun i m' h _ => (hc m keep).1 i m' h, fun s l h _ => (hc m keep).2.1 s l h, fun d x h _ => (hc m keep).2.2 d x h⟩
  | setCons k t => exact ⟨fun i m h hi => by rw [← h]; exact modify_ne _ _ _ _ fun e => hi (by rw [← e]; rfl), fun s l h _ => h, fun d x h _ => h⟩
  | setAmax k t => exact ⟨fun i m h hi => by rw [← h]; exact modify_ne _ _ _ _ fun e => hi (by rw [← e]; rfl), fun s l h _ => h, fun d x h _ => h⟩
  | setVmax k t => exact ⟨fun i m h hi => by rw [← h]; exact modify_ne _ _ _ _ fun e => hi (by rw [← e]; rfl), fun s l h _ => h, fun d x h _ => h⟩
  | setRadius k t => exact ⟨fun i m h hi => by rw [← h]; exact modify_ne _ _ _ _ fun e => hi (by rw [← e]; rfl), fun s l h _ => h, fun d x h _ => h⟩
  | createD d => exact ⟨fun i m h _ => h, fun s l h _ => h, fun d x h _ => getElem?_append_some _ _ _ _ h⟩
  | clone i =>
    simp only [step]
    cases w.ds[i]? with
    | none => exact ⟨fun i m h _ => h, fun s l h _ => h, fun d x h _ => h⟩
    | some d => exact ⟨fun i m h _ => h, fun s l h _ => h, fun d x h _ => getElem?_append_some _ _ _ _ h⟩
  | weights k ws => exact ⟨fun i m h _ => h, fun s l h _ => h, fun d x h hd => by rw [← h]; exact modify_ne _ _ _ _ fun e => hd (by rw [← e]; rfl)⟩

/-- C123: whatever calls are made on other steering methods, distances and constraint sets, and whatever copies are made, a steering method does not change: same members, same constraints. -/
theorem C123_frame (w : World K Cn) (hw : Inv w) (os : List (Op K Cn)) (i : Nat) (m : SM K) (hm : w.sms[i]? = some m) (h1 : ∀ o ∈ os, o.sm ≠ some i) (h2 : ∀ o ∈ os, ∀ s, m.cons = some s → o.set ≠ some s) :
    obs (run w os) i = obs w i := by
  have key : (run w os).sms[i]? = some m ∧ ∀ s l, m.cons = some s → w.sets[s]? = some l → (run w os).sets[s]? = some l := by
    clear hw
    induction os generalizing w with
    | nil => exact ⟨hm, fun s l _ h => h⟩
    | cons o os ih =>
      have f := step_frame w o
      obtain ⟨a, b⟩ := ih (step w o) (f.1 i m hm (h1 o (by simp))) (fun x hx => h1 x (List.mem_cons_of_mem _ hx)) (fun x hx => h2 x (List.mem_cons_of_mem _ hx))
      exact ⟨a, fun s l hs hl => b s l hs (f.2.1 s l hl (h2 o (by simp) s hs))⟩
  unfold obs
  rw [key.1, hm]
  simp only [Option.map_some, Option.some.injEq, Prod.mk.injEq, true_and]
  cases hc : m.cons with
  | none => rfl
  | some s =>
    have hlt := hw i m s hm hc
    have hl : w.sets[s]? = some w.sets[s] := List.getElem?_eq_getElem hlt
    simp only [Option.map_some]
    rw [key.2 s _ hc hl, hl]

/-- Steering methods without wheels. -/
def SKind.noWheels : SKind K → Prop
  | .car _ _ _ w => w = []
  | _ => True

/-- C123: a copy of a steering method has the members and the constraints of the original at the time of the copy, in a constraint set of its own; the steering method of a new path projector is the same, without constraints
unless they are kept.  The original does not change.  Partial: the wheels of a car are not copied (`C123_wheels_counterexample`). -/
theorem C123_copy_partial (w : World K Cn) (hw : Inv w) (i : Nat) (m : SM K) (hm : w.sms[i]? = some m) (hk : m.kind.noWheels) (keep : Bool) :
    obs (step w (.copy i)) w.sms.length = obs w i ∧
    obs (step w (.projector i keep)) w.sms.length = (if keep then obs w i else (obs w i).map fun x => (x.1, none)) ∧
    (∀ j x, w.sms[j]? = some x → obs (step w (.copy i)) j = obs w j ∧ obs (step w (.projector i keep)) j = obs w j) ∧
    ∀ s, ((step w (.copy i)).sms[w.sms.length]?.bind SM.cons = some s ∨ (step w (.projector i keep)).sms[w.sms.length]?.bind SM.cons = some s) → s = w.sets.length := by
  have hkc : m.kind.copy = m.kind := by
    cases hkk : m.kind with
    | plain n => rfl
    | kino a v s o z => rfl
    | car r x z ws =>
      have : ws = [] := by rw [hkk] at hk; exact hk
      simp [SKind.copy, this]
  have fr : ∀ j x, w.sms[j]? = some x → obs (step w (.copy i)) j = obs w j ∧ obs (step w (.projector i keep)) j = obs w j := fun j x hj =>
    ⟨C123_frame w hw [.copy i] j x hj (by simp [Op.sm]) (by simp [Op.set]), C123_frame w hw [.projector i keep] j x hj (by simp [Op.sm]) (by simp [Op.set])⟩
  have e1 : step w (.copy i) = w.copySM m true := by simp only [step, hm]
  have e2 : step w (.projector i keep) = w.copySM m keep := by simp only [step, hm]
  refine ⟨?_, ?_, fr, ?_⟩
  · rw [e1]
    unfold obs World.copySM
    cases hc : m.cons with
    | none => simp [hm, hc, hkc]
    | some s => simp [hm, hc, hkc]
  · rw [e2]
    unfold obs World.copySM
    cases hc : m.cons with
    | none => cases keep <;> simp [hm, hc, hkc]
    | some s => cases keep <;> simp [hm, hc, hkc]
  · intro s hs
    rw [e1, e2] at hs
    unfold World.copySM at hs
    cases hc : m.cons with
    | none => rw [hc] at hs; simp at hs
    | some t =>
      rw [hc] at hs
      cases keep with
      | false => simp at hs; exact hs.symm
      | true => simp at hs; exact hs.symm

/-- C123: after a copy, calls on the original, on its constraints, and on any object but the copy and its constraints do not change the copy. -/
theorem C123_independent {w : World K Cn} (h : Reach w) (i : Nat) (m : SM K) (hm : w.sms[i]? = some m) (os : List (Op K Cn)) (h1 : ∀ o ∈ os, o.sm ≠ some w.sms.length) (h2 : ∀ o ∈ os, o.set ≠ some w.sets.length) :
    obs (run (step w (.copy i)) os) w.sms.length = obs (step w (.copy i)) w.sms.length := by
  have hw := h.inv
  have e1 : step w (.copy i) = w.copySM m true := by simp only [step, hm]
  have hi := step_inv w hw (.copy i) trivial
  rw [e1] at hi ⊢
  have hmem : ∃ m', (w.copySM m true).sms[w.sms.length]? = some m' ∧ ∀ s, m'.cons = some s → s = w.sets.length := by
    unfold World.copySM
    cases hc : m.cons with
    | none => exact ⟨⟨m.kind.copy, none⟩, by simp, by simp⟩
    | some t => exact ⟨⟨m.kind.copy, some w.sets.length⟩, by simp, by simp⟩
  obtain ⟨m', hm', hs'⟩ := hmem
  exact C123_frame _ hi os _ m' hm' h1 fun o ho s hs => by rw [hs' s hs]; exact h2 o ho

/-- Distances that are not `KinodynamicDistance`. -/
def DKind.notKino : DKind K → Prop
  | .kino _ => False
  | _ => True

/-- C123: the clone of a weighed distance or of a Reeds and Shepp distance is equal to the original, and changing the weights of one of them does not change the other ones.  Partial: see `C123_kino_counterexample`. -/
theorem C123_clone_partial (w : World K Cn) (i : Nat) (d : DKind K) (hd : w.ds[i]? = some d) (hk : d.notKino) :
    (step w (.clone i)).ds = w.ds ++ [d] ∧ ∀ os : List (Op K Cn), (∀ o ∈ os, o.dist ≠ some i) → (run (step w (.clone i)) os).ds[i]? = some d := by
  have hc : d.copy = d := by
    cases d with
    | weighed _ => rfl
    | rs _ _ _ _ _ => rfl
    | kino _ => exact hk.elim
  have e : (step w (.clone i)).ds = w.ds ++ [d] := by simp only [step, hd, hc]
  refine ⟨e, fun os ho => ?_⟩
  have h0 : (step w (.clone i)).ds[i]? = some d := by rw [e]; exact getElem?_append_some _ _ _ _ hd
  generalize step w (.clone i) = w' at h0
  clear e hd
  induction os generalizing w' with
  | nil => exact h0
  | cons o os ih => exact ih (fun x hx => ho x (List.mem_cons_of_mem _ hx)) _ ((step_frame w' o).2.2 i d h0 (ho o (by simp)))

/-- C123: the bounds, the turning radius and the constraints given to a steering method, the weights given to a distance, are those it has until another call is made on it, whatever calls are made on other steering methods and
distances. -/
theorem C123_setters (w : World K Cn) (hw : Inv w) (i : Nat) (os : List (Op K Cn)) (h1 : ∀ o ∈ os, o.sm ≠ some i) (h2 : ∀ o ∈ os, o.set = none) (h3 : ∀ o ∈ os, o.dist ≠ some i) :
    (∀ c a v s o z a', w.sms[i]? = some ⟨.kino a v s o z, c⟩ → obs (run w (.setAmax i a' :: os)) i = some (.kino a' v s o z, c.map fun s => w.sets[s]?.getD [])) ∧
    (∀ c a v s o z v', w.sms[i]? = some ⟨.kino a v s o z, c⟩ → obs (run w (.setVmax i v' :: os)) i = some (.kino a v' s o z, c.map fun s => w.sets[s]?.getD [])) ∧
    (∀ c rho xy rz ws r, w.sms[i]? = some ⟨.car rho xy rz ws, c⟩ → obs (run w (.setRadius i r :: os)) i = some (.car r xy rz ws, c.map fun s => w.sets[s]?.getD [])) ∧
    (∀ k c s l, w.sms[i]? = some ⟨k, c⟩ → w.sets[s]? = some l → obs (run w (.setCons i (some s) :: os)) i = some (k, some l)) ∧
    (∀ ws ws', w.ds[i]? = some (.weighed ws) → (run w (.weights i ws' :: os)).ds[i]? = some (.weighed ws')) := by
  have key : ∀ (op : Op K Cn) (m : SM K), Inv (step w op) → (step w op).sms[i]? = some m → obs (run w (op :: os)) i = obs (step w op) i := by
    intro op m hi hm
    exact C123_frame (step w op) hi os i m hm h1 (fun o ho s _ => by rw [h2 o ho]; exact fun h => by cases h)
  have kmod : ∀ (op : Op K Cn) (f : SM K → SM K) (m : SM K), step w op = { w with sms := w.sms.modify i f } → w.sms[i]? = some m →
      (∀ m s, (f m).cons = some s → m.cons = some s ∨ s < w.sets.length) →
      obs (run w (op :: os)) i = some ((f m).kind, (f m).cons.map fun s => w.sets[s]?.getD []) := by
    intro op f m he hm hf
    have hs : (step w op).sms[i]? = some (f m) := by rw [he]; simp [hm]
    rw [key op (f m) (by rw [he]; exact modify_inv w hw i f hf) hs]
    unfold obs; rw [hs, he]; rfl
  refine ⟨fun c a v s o z a' h => kmod (.setAmax i a') (fun m => { m with kind := m.kind.setAmax a' }) _ rfl h fun _ _ h => Or.inl h, fun c a v s o z a' h => kmod (.setVmax i a') (fun m => { m with kind := m.kind.setVmax a' }) _ rfl h fun _ _ h => Or.inl h,
    fun c rho xy rz ws r h => kmod (.setRadius i r) (fun m => { m with kind := m.kind.setRadius r }) _ rfl h fun _ _ h => Or.inl h, fun k c s l h hl => ?_, fun ws ws' h => ?_⟩
  · rw [kmod (.setCons i (some s)) _ _ rfl h fun _ t ht => Or.inr (by cases ht; exact (List.getElem?_eq_some_iff.1 hl).1)]
    simp [hl]
  · have h0 : (step w (.weights i ws')).ds[i]? = some (.weighed ws') := by simp [step, h, DKind.setWeights]
    show (run (step w (.weights i ws')) os).ds[i]? = _
    generalize step w (.weights i ws') = w' at h0
    clear key kmod h1 h2
    induction os generalizing w' with
    | nil => exact h0
    | cons o os ih => exact ih (fun x hx => h3 x (List.mem_cons_of_mem _ hx)) _ ((step_frame w' o).2.2 i _ h0 (h3 o (by simp)))

/-- C123: the clone of a kinodynamic distance has no bounds: its members are not initialized. -/
theorem C123_kino_counterexample (p : KParams K) : (run (⟨[], [], []⟩ : World K Cn) [.createD (distFromProblem p), .clone 0]).ds[1]? = some (.kino none) := rfl

/-- C123: the copy of a steering method for cars, and the one used by any path projector, have no wheels. -/
theorem C123_wheels_counterexample (rho : K) (keep : Bool) : obs (run (⟨[], [], []⟩ : World K Cn) [.create (.car rho 0 2 [4, 5]), .projector 0 keep]) 1 = some (.car rho 0 2 [], none) := rfl

/-- C123: parameter `Kinodynamic/verticalAccelerationBound` has no effect. -/
theorem C123_vertical_counterexample (p : KParams K) (z : K) : kinoFromProblem { p with verticalAcceleration := z } = kinoFromProblem p := rfl

/-- C123: the other parameters are used as such. -/
theorem C123_parameters (p : KParams K) : ∃ a v s o z, kinoFromProblem p = .kino a v s o z ∧ (a.1 = p.acceleration ∧ a.2.1 = p.acceleration ∧ a.2.2 = p.acceleration) ∧ (v.1 = p.velocity ∧ v.2.1 = p.velocity ∧ v.2.2 = p.velocity) ∧
    s = p.sync ∧ o = p.oriented ∧ z = p.ignoreZ ∧ distFromProblem p = .kino (some (p.acceleration, p.velocity)) := ⟨_, _, _, _, _, rfl, ⟨rfl, rfl, rfl⟩, ⟨rfl, rfl, rfl⟩, rfl, rfl, rfl, rfl⟩

/-- A copy of a steering method with constraints, then a change of the constraints of the original. -/
example : obs (run (⟨[], [], []⟩ : World Nat Nat) [.newSet, .create (.plain 0), .addTo 0 7, .setCons 0 (some 0), .copy 0, .addTo 0 8]) 1 = some (.plain 0, some [7]) ∧
    obs (run (⟨[], [], []⟩ : World Nat Nat) [.newSet, .create (.plain 0), .addTo 0 7, .setCons 0 (some 0), .copy 0, .addTo 0 8]) 0 = some (.plain 0, some [7, 8]) := ⟨rfl, rfl⟩

end Verif.Clone
