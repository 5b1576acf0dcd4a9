import Verif.Problem.Obstacles
set_option linter.unusedSectionVars false

/-!
# Devices as obstacles (C156)

`addObstacle (device, …)` registers each object of a device as an obstacle, and the frames of the device for `obstacleFramePosition`.
-/
namespace Verif.Solver.Device
open Verif.Solver

variable {T P G : Type} [DecidableEq T]

/-- A frame of a model: name, type, position in the world. -/
abbrev Frame (T P : Type) := String × T × P

/-- A device at its current configuration: name, frames (the first one is the world), objects with their geometry and position.  The
forward kinematics (problem-solver.cc:826-828) are those of pinocchio. -/
structure Dev (T P G : Type) where
  name : String
  frames : List (Frame T P)
  objs : List (String × G)

/-- `pinocchio::Model::addFrame`: nothing happens if a frame has the same name and type (external function, by contract). -/
def addFrame (fr : List (Frame T P)) (f : Frame T P) : List (Frame T P) :=
  if fr.any (fun g => g.1 = f.1 ∧ g.2.1 = f.2.1) then fr else fr ++ [f]

/-- Members of the solver: those of `State`, the frames of `obstacleRModel_` with their position in `obstacleRData_`, and how many
`obstacleRData_` there were before. -/
structure DS (T P G : Type) where
  s : State String G
  fr : List (Frame T P)
  gen : Nat

variable (base : List (Frame T P))

/-- `robot (device)`: problem-solver.cc:464-475; `base` are the frames of a new model with "obstacle_frame"; their positions are not
computed but those of a new `Data` (the identity, by contract). -/
def DS.robot (d : DS T P G) : DS T P G := ⟨(step d.s .robot).1, base, d.gen + 1⟩

/-- Constructor: problem-solver.cc:168-206. -/
def DS.init : DS T P G := ⟨State.init, base, 0⟩

/-- The other calls of C57. -/
def DS.call (d : DS T P G) (op : Op String G) : DS T P G × Option Err := ({ d with s := (step d.s op).1 }, (step d.s op).2)

/-- Loop problem-solver.cc:849-853. -/
def addObjs (collision distance : Bool) : List (String × G) → State String G → State String G × Option Err
  | [], s => (s, none)
  | o :: l, s => match s.add o.1 o.2 collision distance with
    | (s, none) => addObjs collision distance l s
    | (s, some e) => (s, some e)

/-- The frames that the loop problem-solver.cc:833-843 gives to the model. -/
def Dev.given (dev : Dev T P G) : List (Frame T P) := (dev.frames.drop 1).map (fun f => (dev.name ++ f.1, f.2))

/-- The objects with the names that they have as obstacles: problem-solver.cc:851. -/
def Dev.named (dev : Dev T P G) : List (String × G) := dev.objs.map (fun o => (dev.name ++ o.1, o.2))

/-- `addObstacle (device, collision, distance)`: problem-solver.cc:824-854. -/
def DS.addDevice (d : DS T P G) (dev : Dev T P G) (collision distance : Bool) : DS T P G × Option Err :=
  let r := addObjs collision distance dev.named d.s
  (⟨r.1, dev.given.foldl addFrame d.fr, d.gen + 1⟩, r.2)

/-- `obstacleFramePosition`: problem-solver.cc:1025-1032; `none` for an exception.  `getFrameId` gives the first frame with this name (by contract). -/
def DS.framePosition (d : DS T P G) (n : String) : Option P := (d.fr.find? (fun f => f.1 = n)).map (fun f => f.2.2)

/-- The reference returned by `obstacleFramePosition`: an element of the array of an `obstacleRData_`. -/
def DS.reference (d : DS T P G) (n : String) : Option (Nat × Nat) := (d.fr.findIdx? (fun f => f.1 = n)).map (fun i => (d.gen, i))

/-- Reading through a reference; `none` if the array was deleted. -/
def DS.read (d : DS T P G) (r : Nat × Nat) : Option P := if r.1 = d.gen then (d.fr[r.2]?).map (fun f => f.2.2) else none

/-! ## Specification -/

/-- The objects of a device with the names that a user expects. -/
def Dev.objects (dev : Dev T P G) : List (String × G) := dev.objs.map (fun o => (dev.name ++ o.1, o.2))

/-- The frames of a device, but the world, with the names that a user expects. -/
def Dev.offered (dev : Dev T P G) : List (Frame T P) := dev.frames.tail.map (fun f => (dev.name ++ f.1, f.2.1, f.2.2))

/-- The first objects, up to one whose name is already used. -/
def accepted : List String → List (String × G) → List (String × G)
  | _, [] => []
  | used, o :: l => if o.1 ∈ used then [] else o :: accepted (used ++ [o.1]) l

def live (collision distance : Bool) (o : String × G) : Live String G := ⟨o.1, o.2, collision, distance⟩

/-- Histories: `L` is the list of registered obstacles, `F` the frames given since the robot was set, in order.  The robot is set first, and
again only when no obstacle is registered (see C57). -/
inductive DRun : DS T P G → List (Live String G) → List (Frame T P) → Prop
  | start : DRun (DS.robot base (DS.init base)) [] base
  | robot {d : DS T P G} {F : List (Frame T P)} (h : DRun d [] F) : DRun (d.robot base) [] base
  | call {d : DS T P G} {L L' : List (Live String G)} {F : List (Frame T P)} (h : DRun d L F) (op : Op String G) (ho : op ≠ .robot)
      {e : Option Err} (hs : Spec L op L' e) : DRun (d.call op).1 L' F
  | device {d : DS T P G} {L : List (Live String G)} {F : List (Frame T P)} (h : DRun d L F) (dev : Dev T P G) (c x : Bool) :
      DRun (d.addDevice dev c x).1 (L ++ (accepted (L.map (·.name)) dev.objects).map (live c x)) (F ++ dev.offered)

/-! ## Proofs -/

theorem addObjs_spec (c x : Bool) (l : List (String × G)) {s : State String G} {L : List (Live String G)} (h : Run s L) :
    Run (addObjs c x l s).1 (L ++ (accepted (L.map (·.name)) l).map (live c x)) ∧
    ((addObjs c x l s).2 = if (accepted (L.map (·.name)) l).length = l.length then none else some .runtime) := by
  induction l generalizing s L with
  | nil => exact ⟨by simpa [addObjs, accepted] using h, by simp [addObjs, accepted]⟩
  | cons o l ih =>
    have hreg := C57_registry h
    by_cases hm : o.1 ∈ L.map (·.name)
    · obtain ⟨y, hy, hyo⟩ := List.mem_map.1 hm
      have hs : Spec L (.add o.1 o.2 c x) L (some .runtime) := .addThrows y hy hyo
      have he : (s.add o.1 o.2 c x).2 = some .runtime := hreg.1 _ _ _ hs
      have hr : Run (s.add o.1 o.2 c x).1 L := Run.step h _ hs
      have : addObjs c x (o :: l) s = ((s.add o.1 o.2 c x).1, some .runtime) := by
        unfold addObjs
        rcases hq : s.add o.1 o.2 c x with ⟨s', e⟩
        rw [hq] at he
        simp only at he
        subst he
        rfl
      rw [this]
      simp only [accepted, if_pos hm]
      exact ⟨by simpa using hr, by simp⟩
    · have hn : ∀ y ∈ L, y.name ≠ o.1 := fun y hy hyo => hm (List.mem_map.2 ⟨y, hy, hyo⟩)
      have hs : Spec L (.add o.1 o.2 c x) (L ++ [⟨o.1, o.2, c, x⟩]) none := .add hn
      have he : (s.add o.1 o.2 c x).2 = none := hreg.1 _ _ _ hs
      have hr : Run (s.add o.1 o.2 c x).1 (L ++ [⟨o.1, o.2, c, x⟩]) := Run.step h _ hs
      have : addObjs c x (o :: l) s = addObjs c x l (s.add o.1 o.2 c x).1 := by
        conv_lhs => unfold addObjs
        rcases hq : s.add o.1 o.2 c x with ⟨s', e⟩
        rw [hq] at he
        simp only at he
        subst he
        rfl
      rw [this]
      obtain ⟨h1, h2⟩ := ih hr
      simp only [accepted, if_neg hm]
      simp only [List.map_append, List.map_cons, List.map_nil] at h1 h2
      refine ⟨by simpa [live] using h1, ?_⟩
      rw [h2]
      simp

theorem find_addFrame (fr : List (Frame T P)) (f : Frame T P) (n : String) :
    (addFrame fr f).find? (fun g => g.1 = n) = (fr ++ [f]).find? (fun g => g.1 = n) := by
  unfold addFrame
  split
  next h =>
    rw [List.find?_append]
    cases hf : fr.find? (fun g => g.1 = n) with
    | some g => rfl
    | none =>
      obtain ⟨g, hg, hgf⟩ := List.any_eq_true.1 h
      simp only [decide_eq_true_eq] at hgf
      have := List.find?_eq_none.1 hf g hg
      simp only [decide_eq_true_eq] at this
      rw [hgf.1] at this
      simp [this]
  next => rfl

theorem find_fold (l fr fr' : List (Frame T P)) (n : String) (h : fr.find? (fun g => g.1 = n) = fr'.find? (fun g => g.1 = n)) :
    (l.foldl addFrame fr).find? (fun g => g.1 = n) = (fr' ++ l).find? (fun g => g.1 = n) := by
  induction l generalizing fr fr' with
  | nil => simpa using h
  | cons f l ih =>
    have := ih (addFrame fr f) (fr' ++ [f]) (by
      rw [find_addFrame, List.find?_append, List.find?_append, h])
    simpa using this

theorem named_eq (dev : Dev T P G) : dev.named = dev.objects := rfl

theorem given_eq (dev : Dev T P G) : dev.given = dev.offered := by
  simp [Dev.given, Dev.offered]

theorem drun_run {d : DS T P G} {L : List (Live String G)} {F : List (Frame T P)} (h : DRun base d L F) : Run d.s L := by
  induction h with
  | start => exact Run.start
  | robot _ ih => exact Run.step ih .robot .robot
  | call _ op _ hs ih => exact Run.step ih op hs
  | device _ dev c x ih => exact (addObjs_spec c x dev.objects ih).1

/-- C156: after every history, the obstacles are those of the calls: when a device is added, its objects up to the first one whose name (the
name of the device followed by the name of the object) is used already; the call throws iff there is such an object. -/
theorem C156_objects {d : DS T P G} {L : List (Live String G)} {F : List (Frame T P)} (h : DRun base d L F) :
    (L.map (·.name)).Nodup ∧
    d.s.colSeen = (L.filter (·.col)).map (fun x => some (x.name, x.geom)) ∧
    d.s.distSeen = (L.filter (·.dist)).map (fun x => some (x.name, x.geom)) ∧
    (∀ x ∈ L, d.s.obstacle x.name = some (x.name, x.geom)) ∧
    ∀ dev c x, (d.addDevice dev c x).2 =
      if (accepted (L.map (·.name)) dev.objects).length = dev.objects.length then none else some .runtime := by
  have hr := drun_run base h
  obtain ⟨-, h2, h3, h4, h5, -⟩ := C57_registry hr
  exact ⟨h2, h3, h4, h5, fun dev c x => (addObjs_spec c x dev.objects hr).2⟩

theorem accepted_all (used : List String) (l : List (String × G)) (hd : (l.map Prod.fst).Nodup) (hu : ∀ o ∈ l, o.1 ∉ used) : accepted used l = l := by
  induction l generalizing used with
  | nil => rfl
  | cons o l ih =>
    rw [List.map_cons, List.nodup_cons] at hd
    unfold accepted
    rw [if_neg (hu o (by simp)), ih _ hd.2]
    intro y hy hm
    rcases List.mem_append.1 hm with hm | hm
    · exact hu y (by simp [hy]) hm
    · rw [List.mem_singleton] at hm
      exact hd.1 (List.mem_map.2 ⟨y, hy, hm⟩)

/-- C156: a device whose objects have distinct names, not used yet, is added as a whole. -/
theorem C156_whole {d : DS T P G} {L : List (Live String G)} {F : List (Frame T P)} (h : DRun base d L F) (dev : Dev T P G) (c x : Bool)
    (hd : (dev.objects.map Prod.fst).Nodup) (hu : ∀ o ∈ dev.objects, ∀ y ∈ L, y.name ≠ o.1) :
    (d.addDevice dev c x).2 = none ∧ DRun base (d.addDevice dev c x).1 (L ++ dev.objects.map (live c x)) (F ++ dev.offered) := by
  have ha : accepted (L.map (·.name)) dev.objects = dev.objects := accepted_all _ _ hd (fun o ho hm => by
    obtain ⟨y, hy, hyo⟩ := List.mem_map.1 hm
    exact hu o ho y hy hyo)
  refine ⟨by rw [(C156_objects base h).2.2.2.2 dev c x, ha, if_pos rfl], ?_⟩
  have := DRun.device h dev c x
  rwa [ha] at this

/-- C156: after every history, the position of an obstacle frame is the one it was given first since the robot was set; it throws iff there was
none.  It does not depend on the motions of the devices nor on the removal of obstacles. -/
theorem C156_frames {d : DS T P G} {L : List (Live String G)} {F : List (Frame T P)} (h : DRun base d L F) (n : String) :
    d.framePosition n = (F.find? (fun f => f.1 = n)).map (fun f => f.2.2) := by
  have key : d.fr.find? (fun f => f.1 = n) = F.find? (fun f => f.1 = n) := by
    induction h with
    | start => rfl
    | robot _ _ => rfl
    | call _ op _ _ ih => exact ih
    | device _ dev c x ih => exact given_eq dev ▸ find_fold _ _ _ n ih
  unfold DS.framePosition
  rw [key]

/-- C156, partial: the position is the one of the last device that gave this frame if all gave the same one. -/
theorem C156_frames_partial {d : DS T P G} {L : List (Live String G)} {F : List (Frame T P)} (h : DRun base d L F)
    (hF : ∀ f ∈ F, ∀ g ∈ F, f.1 = g.1 → f.2.2 = g.2.2) (f : Frame T P) (hf : f ∈ F) : d.framePosition f.1 = some f.2.2 := by
  rw [C156_frames base h]
  cases hq : F.find? (fun g => g.1 = f.1) with
  | none =>
    have := List.find?_eq_none.1 hq f hf
    simp at this
  | some g =>
    have h1 := List.mem_of_find?_eq_some hq
    have h2 := List.find?_some hq
    simp only [decide_eq_true_eq] at h2
    simp [hF g h1 f hf h2]

/-- C156: a reference to a position stays right until the next device or robot, whatever the other calls; it is then read out of the array that was
deleted. -/
theorem C156_reference (d : DS T P G) (n : String) (r : Nat × Nat) (h : d.reference n = some r) :
    d.read r = d.framePosition n ∧
    (∀ op, op ≠ Op.robot → (d.call op).1.read r = d.framePosition n) ∧
    (∀ dev c x, (d.addDevice dev c x).1.read r = none) ∧ (d.robot base).read r = none := by
  unfold DS.reference at h
  cases hi : d.fr.findIdx? (fun f => f.1 = n) with
  | none => rw [hi] at h; cases h
  | some i =>
    rw [hi] at h
    simp only [Option.map_some, Option.some.injEq] at h
    subst h
    have hread : d.read (d.gen, i) = d.framePosition n := by
      unfold DS.read DS.framePosition
      rw [if_pos rfl, List.find?_eq_getElem?_findIdx]
      congr 1
      have := List.findIdx?_eq_some_iff_findIdx_eq.1 hi
      rw [this.2]
    exact ⟨hread, fun op _ => hread, fun dev c x => by simp [DS.read, DS.addDevice], by simp [DS.read, DS.robot]⟩

/-! ### Examples -/

/-- Types: `false` for BODY. -/
def exBase : List (Frame Bool Nat) := [("universe", true, 0), ("obstacle_frame", false, 0)]

def table (p : Nat) : Dev Bool Nat Nat := ⟨"table/", [("universe", false, 0), ("top", false, p), ("leg", true, p + 1)], [("top_0", 70), ("leg_0", 71)]⟩

def exD : DS Bool Nat Nat := DS.robot exBase (DS.init exBase)

example : DRun exBase (exD.addDevice (table 5) true false).1 [⟨"table/top_0", 70, true, false⟩, ⟨"table/leg_0", 71, true, false⟩]
    (exBase ++ [("table/top", false, 5), ("table/leg", true, 6)]) :=
  DRun.device DRun.start (table 5) true false

/-- The code violates C156: the table is added, its objects are removed, it is added at another place: its frame is still at the first place. -/
theorem C156_frames_counterexample :
    let d1 := (exD.addDevice (table 5) true false).1
    let d2 := ((d1.call (.remove "table/top_0")).1.call (.remove "table/leg_0")).1
    let d3 := d2.addDevice (table 9) true false
    d3.2 = none ∧ d3.1.framePosition "table/top" = some 5 := by
  decide

/-- The code violates C156: a device whose second object clashes with an obstacle is added in part, with all its frames. -/
theorem C156_atomic_counterexample :
    let d1 := (exD.call (.add "table/leg_0" 3 true true)).1
    let d2 := d1.addDevice (table 5) true false
    d2.2 = some .runtime ∧ d2.1.s.colSeen = [some ("table/leg_0", 3), some ("table/top_0", 70)] ∧
    d2.1.framePosition "table/leg" = some 6 := by
  decide

/-- Names are put side by side: two devices with distinct names, and objects with distinct names, may clash. -/
theorem C156_names_counterexample :
    let d1 := (exD.addDevice ⟨"box", [], [("es", 1)]⟩ true false).1
    (d1.addDevice ⟨"boxe", [], [("s", 2)]⟩ true false).2 = some .runtime := by
  decide

example : (exD.addDevice (table 5) true false).1.reference "table/leg" = some (2, 3) ∧
    (exD.addDevice (table 5) true false).1.framePosition "table/leg" = some 6 := by decide

end Verif.Solver.Device
