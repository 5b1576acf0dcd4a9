import Mathlib.Data.Fintype.Basic
import Mathlib.Data.Fintype.Card
import Mathlib.Algebra.BigOperators.Group.Finset.Basic
import Mathlib.Algebra.Order.BigOperators.Group.Finset
import Mathlib.Algebra.BigOperators.Fin
import Mathlib.Tactic.FinCases
import Mathlib.Tactic.Linarith

/-! # Validations run by several threads (C134)

`ContinuousValidation::validate` (src/continuous-validation.cc:193-206) takes a list of interval validations in a pool, "for thread safety".  The model interleaves the
operations of `n` threads on the pool, each operation of `pinocchio::Pool` being atomic and `acquire` waiting until an element is available.  Lists are numbered in order of
creation and hold the version of `intervalValidations_` they are a copy of; changes of the configuration (`addIntervalValidation`, `breakDistance`, `filterCollisionPairs`,
margins…) clear the pool. -/

namespace Verif.Obst.Concurrent

/-- A list of the pool: identity and version of the configuration it was copied from. -/
structure L where
  id : Nat
  ver : Nat
  deriving DecidableEq

/-- Where a thread is in `validate`: outside; pool found empty at line 195; before line 202; between lines 202 and 204. -/
inductive PC
  | idle
  | making
  | ready
  | holding (l : L)
  deriving DecidableEq

structure St (n : Nat) where
  pc : Fin n → PC
  pool : List L
  next : Nat
  ver : Nat

variable {n : Nat}

def St.init : St n := ⟨fun _ => .idle, [], 0, 0⟩

def St.goto (s : St n) (t : Fin n) (p : PC) : Fin n → PC := fun u => if u = t then p else s.pc u

/-- Steps of the threads. -/
inductive Act (n : Nat)
  /-- `bodyPairCollisionPool_.available ()`: line 195 -/
  | check (t : Fin n)
  /-- copy of `intervalValidations_` and `push_back`: lines 197-200 -/
  | push (t : Fin n)
  /-- `acquire`: line 202 -/
  | acquire (t : Fin n)
  /-- end of `validateStraightPath` and `release`: lines 203-204 -/
  | release (t : Fin n)
  /-- `validateStraightPath` throws: `release` is skipped -/
  | throws (t : Fin n)
  /-- change of the configuration: lines 240, 258, 298, 329, 363, 395 -/
  | change

/-- One step; `none` when it is not possible. -/
def step (s : St n) : Act n → Option (St n)
  | .check t => if s.pc t = .idle then some { s with pc := s.goto t (if s.pool = [] then .making else .ready) } else none
  | .push t => if s.pc t = .making then some ⟨s.goto t .ready, s.pool ++ [⟨s.next, s.ver⟩], s.next + 1, s.ver⟩ else none
  | .acquire t => if s.pc t = .ready then match s.pool with
      | [] => none
      | l :: rest => some { s with pc := s.goto t (.holding l), pool := rest }
    else none
  | .release t => match s.pc t with
    | .holding l => some { s with pc := s.goto t .idle, pool := s.pool ++ [l] }
    | _ => none
  | .throws t => match s.pc t with
    | .holding _ => some { s with pc := s.goto t .idle }
    | _ => none
  | .change => some { s with pool := [], ver := s.ver + 1 }

/-- Reachable by steps of a given kind. -/
inductive Reach (A : St n → Act n → Prop) : St n → Prop
  | init : Reach A St.init
  | step {s s' : St n} {a : Act n} : Reach A s → A s a → step s a = some s' → Reach A s'

theorem goto_eq (s : St n) (t : Fin n) (p : PC) : s.goto t p t = p := by simp [St.goto]
theorem goto_ne (s : St n) {t u : Fin n} (p : PC) (h : u ≠ t) : s.goto t p u = s.pc u := by simp [St.goto, h]

/-! ## Exclusion -/

/-- The lists of the pool are distinct, a list held by a thread is held by this one only and is not in the pool. -/
structure Excl (s : St n) : Prop where
  nodup : (s.pool.map L.id).Nodup
  old : ∀ l ∈ s.pool, l.id < s.next
  heldOld : ∀ t l, s.pc t = .holding l → l.id < s.next
  notIn : ∀ t l, s.pc t = .holding l → l.id ∉ s.pool.map L.id
  one : ∀ t u l l', s.pc t = .holding l → s.pc u = .holding l' → l.id = l'.id → t = u

/-- Holding a list after a move to another place. -/
theorem holding_goto {s : St n} {t u : Fin n} {p : PC} {l : L} (hp : ∀ l, p ≠ .holding l) (h : s.goto t p u = .holding l) : s.pc u = .holding l := by
  by_cases hh : u = t
  · subst hh; rw [goto_eq] at h; exact absurd h (hp l)
  · rwa [goto_ne _ _ hh] at h

theorem Excl.step {s s' : St n} (h : Excl s) (a : Act n) (k : step s a = some s') : Excl s' := by
  cases a with
  | check t =>
    simp only [Concurrent.step] at k
    split at k
    · cases k
      have hp : ∀ l, (if s.pool = [] then PC.making else PC.ready) ≠ .holding l := by intro l; split <;> simp
      exact ⟨h.nodup, h.old, fun u l hu => h.heldOld u l (holding_goto hp hu), fun u l hu => h.notIn u l (holding_goto hp hu),
        fun u v l l' hu hv e => h.one u v l l' (holding_goto hp hu) (holding_goto hp hv) e⟩
    · simp at k
  | push t =>
    simp only [Concurrent.step] at k
    split at k
    · cases k
      have hp : ∀ l, PC.ready ≠ .holding l := by intro l; simp
      refine ⟨?_, ?_, fun u l hu => Nat.lt_succ_of_lt (h.heldOld u l (holding_goto hp hu)), ?_, fun u v l l' hu hv e => h.one u v l l' (holding_goto hp hu) (holding_goto hp hv) e⟩
      · simp only [List.map_append, List.map_cons, List.map_nil]
        rw [List.nodup_append]
        refine ⟨h.nodup, by simp, ?_⟩
        intro a ha b hb
        simp only [List.mem_singleton] at hb
        obtain ⟨l, hl, rfl⟩ := List.mem_map.1 ha
        have := h.old l hl
        omega
      · intro l hl
        simp only [List.mem_append, List.mem_singleton] at hl
        rcases hl with hl | rfl
        · exact Nat.lt_succ_of_lt (h.old l hl)
        · exact Nat.lt_succ_self _
      · intro u l hu
        have hu' := holding_goto hp hu
        simp only [List.map_append, List.mem_append, List.map_cons, List.map_nil, List.mem_singleton, not_or]
        exact ⟨h.notIn u l hu', by have := h.heldOld u l hu'; omega⟩
    · simp at k
  | acquire t =>
    simp only [Concurrent.step] at k
    split at k
    · next ht =>
      split at k
      · simp at k
      · next l rest hpool =>
        cases k
        have hnd := h.nodup
        rw [hpool, List.map_cons, List.nodup_cons] at hnd
        have hin : l ∈ s.pool := by rw [hpool]; exact List.mem_cons_self
        refine ⟨hnd.2, fun x hx => h.old x (by rw [hpool]; exact List.mem_cons_of_mem _ hx), ?_, ?_, ?_⟩
        · intro u x hu
          by_cases hh : u = t
          · subst hh; simp only [goto_eq, PC.holding.injEq] at hu; subst hu; exact h.old l hin
          · simp only [goto_ne _ _ hh] at hu; exact h.heldOld u x hu
        · intro u x hu
          by_cases hh : u = t
          · subst hh; simp only [goto_eq, PC.holding.injEq] at hu; subst hu; exact hnd.1
          · simp only [goto_ne _ _ hh] at hu
            intro hx
            exact h.notIn u x hu (by rw [hpool]; exact List.mem_cons_of_mem _ hx)
        · intro u v x y hu hv e
          by_cases h1 : u = t
          · by_cases h2 : v = t
            · rw [h1, h2]
            · subst h1
              simp only [goto_eq, PC.holding.injEq] at hu
              subst hu
              simp only [goto_ne _ _ h2] at hv
              exact absurd (by rw [← e]; exact List.mem_map_of_mem hin) (h.notIn v y hv)
          · simp only [goto_ne _ _ h1] at hu
            by_cases h2 : v = t
            · subst h2
              simp only [goto_eq, PC.holding.injEq] at hv
              subst hv
              exact absurd (by rw [e]; exact List.mem_map_of_mem hin) (h.notIn u x hu)
            · simp only [goto_ne _ _ h2] at hv
              exact h.one u v x y hu hv e
    · simp at k
  | release t =>
    simp only [Concurrent.step] at k
    split at k
    · next l ht =>
      cases k
      have hp : ∀ l, PC.idle ≠ .holding l := by intro l; simp
      refine ⟨?_, ?_, fun u x hu => h.heldOld u x (holding_goto hp hu), ?_, fun u v x y hu hv e => h.one u v x y (holding_goto hp hu) (holding_goto hp hv) e⟩
      · simp only [List.map_append, List.map_cons, List.map_nil]
        rw [List.nodup_append]
        refine ⟨h.nodup, by simp, ?_⟩
        intro a ha b hb e
        simp only [List.mem_singleton] at hb
        subst hb
        subst e
        exact h.notIn t l ht ha
      · intro x hx
        simp only [List.mem_append, List.mem_singleton] at hx
        rcases hx with hx | rfl
        · exact h.old x hx
        · exact h.heldOld t x ht
      · intro u x hu
        have hut : u ≠ t := by rintro rfl; simp [goto_eq] at hu
        have hu' := holding_goto hp hu
        simp only [List.map_append, List.mem_append, List.map_cons, List.map_nil, List.mem_singleton, not_or]
        exact ⟨h.notIn u x hu', fun e => hut (h.one u t x l hu' ht e)⟩
    · simp at k
  | throws t =>
    simp only [Concurrent.step] at k
    split at k
    · cases k
      have hp : ∀ l, PC.idle ≠ .holding l := by intro l; simp
      exact ⟨h.nodup, h.old, fun u l hu => h.heldOld u l (holding_goto hp hu), fun u l hu => h.notIn u l (holding_goto hp hu),
        fun u v l l' hu hv e => h.one u v l l' (holding_goto hp hu) (holding_goto hp hv) e⟩
    · simp at k
  | change =>
    simp only [Concurrent.step, Option.some.injEq] at k
    subst k
    exact ⟨by simp, by simp, h.heldOld, by simp, h.one⟩

/-- C134 (exclusion): in every interleaving, whatever exceptions are thrown and changes of configuration are made, two threads never use the same list of interval validations. -/
theorem C134_exclusive {s : St n} (h : Reach (fun _ _ => True) s) {t u : Fin n} {l l' : L} (ht : s.pc t = .holding l) (hu : s.pc u = .holding l') (e : l.id = l'.id) : t = u := by
  have : Excl s := by
    clear ht hu
    induction h with
    | init => exact ⟨by simp [St.init], by simp [St.init], by simp [St.init], by simp [St.init], by simp [St.init]⟩
    | step _ _ k ih => exact ih.step _ k
  exact this.one t u l l' ht hu e

/-! ## No deadlock, number of lists -/

/-- No exception and no change of the configuration while a thread is in `validate`. -/
def Normal (s : St n) : Act n → Prop
  | .throws _ => False
  | .change => ∀ t, s.pc t = .idle
  | _ => True

/-- Threads waiting to make a list or holding one. -/
def isMaking : PC → Nat
  | .making => 1
  | _ => 0
def isReady : PC → Nat
  | .ready => 1
  | _ => 0
def isHolding : PC → Nat
  | .holding _ => 1
  | _ => 0

def count (f : PC → Nat) (s : St n) : Nat := ∑ t, f (s.pc t)

theorem sum_goto (f : PC → Nat) (s : St n) (t : Fin n) (p : PC) : (∑ u, f (s.goto t p u)) + f (s.pc t) = count f s + f p := by
  unfold count
  rw [← Finset.add_sum_erase _ _ (Finset.mem_univ t), ← Finset.add_sum_erase Finset.univ (fun u => f (s.pc u)) (Finset.mem_univ t), goto_eq]
  have : ∑ u ∈ Finset.univ.erase t, f (s.goto t p u) = ∑ u ∈ Finset.univ.erase t, f (s.pc u) :=
    Finset.sum_congr rfl fun u hu => by rw [goto_ne _ _ (Finset.ne_of_mem_erase hu)]
  rw [this]
  omega

theorem sum_goto' (f : PC → Nat) (s : St n) (t : Fin n) (q p : PC) (h : s.pc t = q) : (∑ u, f (s.goto t p u)) + f q = (∑ u, f (s.pc u)) + f p := by
  rw [← h]; exact sum_goto f s t p

theorem vals : isMaking .idle = 0 ∧ isMaking .making = 1 ∧ isMaking .ready = 0 ∧ (∀ l, isMaking (.holding l) = 0) ∧
    isReady .idle = 0 ∧ isReady .making = 0 ∧ isReady .ready = 1 ∧ (∀ l, isReady (.holding l) = 0) ∧
    isHolding .idle = 0 ∧ isHolding .making = 0 ∧ isHolding .ready = 0 ∧ (∀ l, isHolding (.holding l) = 1) :=
  ⟨rfl, rfl, rfl, fun _ => rfl, rfl, rfl, rfl, fun _ => rfl, rfl, rfl, rfl, fun _ => rfl⟩

/-- Total number of lists. -/
def lists (s : St n) : Nat := s.pool.length + count isHolding s

/-- The threads that wait are not more than the lists, in the pool or held, allow; a list is made only if there are not more lists than threads. -/
structure Live (s : St n) : Prop where
  avail : 0 < count isReady s → 0 < lists s
  few : lists s + count isMaking s ≤ n

theorem count_le (f : PC → Nat) (hf : ∀ p, f p ≤ 1) (s : St n) : count f s ≤ n := by
  unfold count
  calc ∑ t, f (s.pc t) ≤ ∑ _t : Fin n, 1 := Finset.sum_le_sum fun t _ => hf _
    _ = n := by simp

theorem Live.step {s s' : St n} (h : Live s) (a : Act n) (ha : Normal s a) (k : step s a = some s') : Live s' := by
  obtain ⟨m0, m1, m2, m3, r0, r1, r2, r3, h0, h1, h2, h3⟩ := vals
  obtain ⟨ha1, hf1⟩ := h
  unfold lists count at ha1 hf1
  cases a with
  | check t =>
    simp only [Concurrent.step] at k
    split at k
    · next ht =>
      cases k
      by_cases hp : s.pool = []
      · simp only [hp, if_true]
        have g1 := sum_goto' isReady s t _ .making ht
        have g2 := sum_goto' isHolding s t _ .making ht
        have g3 := sum_goto' isMaking s t _ .making ht
        rw [r0, r1] at g1; rw [h0, h1] at g2; rw [m0, m1] at g3
        rw [hp] at ha1 hf1
        refine ⟨fun hr => ?_, ?_⟩
        · unfold lists count at *; simp only at *; have := ha1 (by omega); omega
        · -- the thread itself neither holds nor makes a list
          have hle := count_le (fun p => isHolding p + isMaking p) (by intro p; cases p <;> simp [isHolding, isMaking]) { s with pc := s.goto t .making }
          unfold lists count at *
          rw [Finset.sum_add_distrib] at hle
          simp only [List.length_nil] at *
          omega
      · simp only [hp, if_false]
        have g1 := sum_goto' isReady s t _ .ready ht
        have g2 := sum_goto' isHolding s t _ .ready ht
        have g3 := sum_goto' isMaking s t _ .ready ht
        rw [r0, r2] at g1; rw [h0, h2] at g2; rw [m0, m2] at g3
        have hlen : 0 < s.pool.length := List.length_pos_of_ne_nil hp
        refine ⟨fun _ => ?_, ?_⟩ <;> (unfold lists count; simp only; omega)
    · simp at k
  | push t =>
    simp only [Concurrent.step] at k
    split at k
    · next ht =>
      cases k
      have g2 := sum_goto' isHolding s t _ .ready ht
      have g3 := sum_goto' isMaking s t _ .ready ht
      rw [h1, h2] at g2; rw [m1, m2] at g3
      refine ⟨fun _ => ?_, ?_⟩ <;> (unfold lists count; simp only [List.length_append, List.length_cons, List.length_nil]; omega)
    · simp at k
  | acquire t =>
    simp only [Concurrent.step] at k
    split at k
    · next ht =>
      split at k
      · simp at k
      · next l rest hpool =>
        cases k
        have g2 := sum_goto' isHolding s t _ (.holding l) ht
        have g3 := sum_goto' isMaking s t _ (.holding l) ht
        rw [h2, h3] at g2; rw [m2, m3] at g3
        rw [hpool, List.length_cons] at hf1
        refine ⟨fun _ => ?_, ?_⟩ <;> (unfold lists count; simp only; omega)
    · simp at k
  | release t =>
    simp only [Concurrent.step] at k
    split at k
    · next l ht =>
      cases k
      have g2 := sum_goto' isHolding s t _ .idle ht
      have g3 := sum_goto' isMaking s t _ .idle ht
      rw [h3, h0] at g2; rw [m3, m0] at g3
      refine ⟨fun _ => ?_, ?_⟩ <;> (unfold lists count; simp only [List.length_append, List.length_cons, List.length_nil]; omega)
    · simp at k
  | throws t => exact absurd ha (by simp [Normal])
  | change =>
    simp only [Concurrent.step, Option.some.injEq] at k
    subst k
    have hz : ∀ f : PC → Nat, f .idle = 0 → (∑ t, f (s.pc t)) = 0 := by
      intro f hf
      exact Finset.sum_eq_zero fun t _ => by rw [ha t, hf]
    refine ⟨fun hr => ?_, ?_⟩
    · unfold count at hr; simp only [hz isReady rfl] at hr; omega
    · unfold lists count; simp only [hz isHolding rfl, hz isMaking rfl, List.length_nil]; omega

theorem live {s : St n} (h : Reach Normal s) : Live s := by
  induction h with
  | init => refine ⟨by simp [count, St.init, isReady], by simp [lists, count, St.init, isHolding, isMaking]⟩
  | step _ ha k ih => exact ih.step _ ha k

/-- C134 (memory): there are never more lists than threads. -/
theorem C134_lists {s : St n} (h : Reach Normal s) : lists s ≤ n := by have := (live h).few; omega

/-- Steps that continue validations that were begun. -/
def Continues : Act n → Prop
  | .push _ | .acquire _ | .release _ => True
  | _ => False

/-- C134 (no deadlock): when exceptions are not thrown and the configuration is not changed during validations, as long as a validation is not finished a step of a validation is possible. -/
theorem C134_progress {s : St n} (h : Reach Normal s) (t : Fin n) (ht : s.pc t ≠ .idle) : ∃ a s', Continues a ∧ step s a = some s' := by
  have hl := live h
  have hold : (∃ u l, s.pc u = .holding l) → ∃ a s', Continues a ∧ step s a = some s' := by
    rintro ⟨u, l, hu⟩
    exact ⟨.release u, { s with pc := s.goto u .idle, pool := s.pool ++ [l] }, trivial, by simp only [step, hu]⟩
  cases hp : s.pc t with
  | idle => exact absurd hp ht
  | making => exact ⟨.push t, ⟨s.goto t .ready, s.pool ++ [⟨s.next, s.ver⟩], s.next + 1, s.ver⟩, trivial, by simp only [step, hp, if_true]⟩
  | holding l => exact hold ⟨t, l, hp⟩
  | ready =>
    cases hpool : s.pool with
    | cons l rest => exact ⟨.acquire t, { s with pc := s.goto t (.holding l), pool := rest }, trivial, by simp only [step, hp, if_true, hpool]⟩
    | nil =>
      have hr : 0 < count isReady s := by
        unfold count
        have := Finset.single_le_sum (f := fun u => isReady (s.pc u)) (fun u _ => Nat.zero_le _) (Finset.mem_univ t)
        have e : isReady (s.pc t) = 1 := by rw [hp]; rfl
        simp only [e] at this
        omega
      have hpos := hl.avail hr
      unfold lists at hpos
      rw [hpool, List.length_nil, Nat.zero_add] at hpos
      unfold count at hpos
      obtain ⟨u, -, hu⟩ := Finset.exists_ne_zero_of_sum_ne_zero (Nat.pos_iff_ne_zero.1 hpos)
      refine hold ⟨u, ?_⟩
      cases hpu : s.pc u with
      | holding l => exact ⟨l, rfl⟩
      | _ => simp [hpu, isHolding] at hu

/-- Remaining steps of the validations that were begun. -/
def todo : PC → Nat
  | .idle => 0
  | .making => 3
  | .ready => 2
  | .holding _ => 1

/-- A step that continues a validation leaves one step less to do. -/
theorem todo_step {s s' : St n} {a : Act n} (ha : Continues a) (k : step s a = some s') : count todo s' + 1 = count todo s ∧ count todo s ≤ 3 * n := by
  refine ⟨?_, ?_⟩
  · cases a with
    | push t =>
      simp only [Concurrent.step] at k
      split at k
      · next ht =>
        cases k
        have g := sum_goto' todo s t _ PC.ready ht
        have e1 : todo PC.making = 3 := rfl
        have e2 : todo PC.ready = 2 := rfl
        rw [e1, e2] at g
        unfold count; simp only; omega
      · simp at k
    | acquire t =>
      simp only [Concurrent.step] at k
      split at k
      · next ht =>
        split at k
        · simp at k
        · next l rest hpool =>
          cases k
          have g := sum_goto' todo s t _ (PC.holding l) ht
          have e1 : todo PC.ready = 2 := rfl
          have e2 : todo (PC.holding l) = 1 := rfl
          rw [e1, e2] at g
          unfold count; simp only; omega
      · simp at k
    | release t =>
      simp only [Concurrent.step] at k
      split at k
      · next l ht =>
        cases k
        have g := sum_goto' todo s t _ PC.idle ht
        have e1 : todo (PC.holding l) = 1 := rfl
        have e2 : todo PC.idle = 0 := rfl
        rw [e1, e2] at g
        unfold count; simp only; omega
      · simp at k
    | _ => exact absurd ha (by simp [Continues])
  · unfold count
    calc ∑ t, todo (s.pc t) ≤ ∑ _t : Fin n, 3 := Finset.sum_le_sum fun t _ => by cases s.pc t <;> simp [todo]
      _ = 3 * n := by simp [Nat.mul_comm]

/-- A sequence of steps. -/
def run (s : St n) : List (Act n) → Option (St n)
  | [] => some s
  | a :: l => match step s a with
    | none => none
    | some s' => run s' l

theorem run_reach {A : St n → Act n → Prop} {s s' : St n} (h : Reach A s) (l : List (Act n)) (hA : ∀ s a, a ∈ l → A s a) (k : run s l = some s') : Reach A s' := by
  induction l generalizing s with
  | nil => simp only [run, Option.some.injEq] at k; subst k; exact h
  | cons a l ih =>
    rw [run] at k
    cases hs : step s a with
    | none => rw [hs] at k; simp at k
    | some s1 =>
      rw [hs] at k
      exact ih (h.step (hA s a List.mem_cons_self) hs) (fun s b hb => hA s b (List.mem_cons_of_mem _ hb)) k

theorem Normal.of_continues (s : St n) {a : Act n} (h : Continues a) : Normal s a := by
  cases a <;> simp_all [Continues, Normal]

/-- C134 (end): in the absence of exceptions and of changes of configuration during validations, whatever the schedule, the validations under way take together at most three steps
for each thread, and when no step is possible any more they are all finished. -/
theorem C134_ends {s s' : St n} (h : Reach Normal s) (l : List (Act n)) (hl : ∀ a ∈ l, Continues a) (k : run s l = some s') :
    l.length ≤ 3 * n ∧ ((∀ a, Continues a → step s' a = none) → ∀ t, s'.pc t = .idle) := by
  constructor
  · have key : ∀ (l : List (Act n)) (s : St n), (∀ a ∈ l, Continues a) → run s l = some s' → l.length ≤ count todo s := by
      intro l
      induction l with
      | nil => intro s _ _; exact Nat.zero_le _
      | cons a l ih =>
        intro s hl k
        rw [run] at k
        cases hs : step s a with
        | none => rw [hs] at k; simp at k
        | some s1 =>
          rw [hs] at k
          have h1 := ih s1 (fun b hb => hl b (List.mem_cons_of_mem _ hb)) k
          have h2 := (todo_step (hl a List.mem_cons_self) hs).1
          rw [List.length_cons]
          omega
    refine (key l s hl k).trans ?_
    unfold count
    calc ∑ t, todo (s.pc t) ≤ ∑ _t : Fin n, 3 := Finset.sum_le_sum fun t _ => by cases s.pc t <;> simp [todo]
      _ = 3 * n := by simp [Nat.mul_comm]
  · intro hstop t
    by_contra ht
    obtain ⟨a, s2, ha, hs⟩ := C134_progress (run_reach h l (fun s a ha => Normal.of_continues s (hl a ha)) k) t ht
    rw [hstop a ha] at hs
    simp at hs

/-! ## Lists in use are up to date -/

/-- C134 (up to date): if the configuration is changed only when no thread is in `validate`, every list in use is a copy of the current configuration (exceptions do not matter). -/
theorem C134_current {s : St n} (h : Reach (fun s a => a = .change → ∀ t, s.pc t = .idle) s) : (∀ t l, s.pc t = .holding l → l.ver = s.ver) ∧ ∀ l ∈ s.pool, l.ver = s.ver := by
  induction h with
  | init => simp [St.init]
  | @step s s' a _ ha k ih =>
    obtain ⟨h1, h2⟩ := ih
    cases a with
    | check t =>
      simp only [Concurrent.step] at k
      split at k
      · cases k
        exact ⟨fun u l hu => h1 u l (holding_goto (by intro l; split <;> simp) hu), h2⟩
      · simp at k
    | push t =>
      simp only [Concurrent.step] at k
      split at k
      · cases k
        refine ⟨fun u l hu => h1 u l (holding_goto (by intro l; simp) hu), fun l hl => ?_⟩
        simp only [List.mem_append, List.mem_singleton] at hl
        rcases hl with hl | rfl
        · exact h2 l hl
        · rfl
      · simp at k
    | acquire t =>
      simp only [Concurrent.step] at k
      split at k
      · split at k
        · simp at k
        · next l rest hpool =>
          cases k
          refine ⟨fun u x hu => ?_, fun x hx => h2 x (by rw [hpool]; exact List.mem_cons_of_mem _ hx)⟩
          by_cases hh : u = t
          · subst hh; simp only [goto_eq, PC.holding.injEq] at hu; subst hu; exact h2 l (by rw [hpool]; exact List.mem_cons_self)
          · simp only [goto_ne _ _ hh] at hu; exact h1 u x hu
      · simp at k
    | release t =>
      simp only [Concurrent.step] at k
      split at k
      · next l ht =>
        cases k
        refine ⟨fun u x hu => h1 u x (holding_goto (by intro l; simp) hu), fun x hx => ?_⟩
        simp only [List.mem_append, List.mem_singleton] at hx
        rcases hx with hx | rfl
        · exact h2 x hx
        · exact h1 t x ht
      · simp at k
    | throws t =>
      simp only [Concurrent.step] at k
      split at k
      · cases k
        exact ⟨fun u l hu => h1 u l (holding_goto (by intro l; simp) hu), h2⟩
      · simp at k
    | change =>
      simp only [Concurrent.step, Option.some.injEq] at k
      subst k
      refine ⟨fun t l ht => ?_, by simp⟩
      have := ha rfl t
      simp only at ht
      rw [this] at ht
      simp at ht

/-! ## Findings -/

/-- Thread 0 validates a path, then both threads find the list available, thread 0 takes it and its validation throws: thread 1 waits. -/
def stuck : List (Act 2) := [.check 0, .push 0, .acquire 0, .release 0, .check 0, .check 1, .acquire 0, .throws 0]

/-- C134 (finding): an exception thrown during a validation loses the list: a thread that found the pool not empty then waits for ever. -/
theorem C134_throw_counterexample : ∃ s : St 2, Reach (fun _ a => a ≠ .change) s ∧ s.pc 0 = .idle ∧ s.pc 1 = .ready ∧ lists s = 0 ∧
    ∀ a, Continues a → step s a = none := by
  have hs : ∃ s, run St.init stuck = some s ∧ s.pc 0 = .idle ∧ s.pc 1 = .ready ∧ s.pool = [] := ⟨_, rfl, by decide, by decide, by decide⟩
  obtain ⟨s, h1, h2, h3, h4⟩ := hs
  refine ⟨s, run_reach .init stuck (by intro s a ha; simp only [stuck, List.mem_cons, List.not_mem_nil, or_false] at ha; rcases ha with rfl | rfl | rfl | rfl | rfl | rfl | rfl | rfl <;> simp) h1, h2, h3, ?_, ?_⟩
  · simp [lists, count, Fin.sum_univ_two, h2, h3, h4, isHolding]
  · intro a ha
    cases a with
    | push t => fin_cases t <;> simp [step, h2, h3]
    | acquire t => fin_cases t <;> simp [step, h2, h3, h4]
    | release t => fin_cases t <;> simp [step, h2, h3]
    | _ => exact absurd ha (by simp [Continues])

/-- C134 (finding): when the configuration is changed during a validation, the old list goes back to the pool, and the next validation, begun after the change, uses it. -/
theorem C134_stale_counterexample : ∃ s : St 1, Reach (fun _ a => ∀ t, a ≠ .throws t) s ∧ ∃ l, s.pc 0 = .holding l ∧ l.ver ≠ s.ver := by
  refine ⟨_, run_reach .init [.check 0, .push 0, .acquire 0, .change, .release 0, .check 0, .acquire 0] (by intro s a ha t; simp only [List.mem_cons, List.not_mem_nil, or_false] at ha; rcases ha with rfl | rfl | rfl | rfl | rfl | rfl | rfl <;> simp) rfl, ⟨0, 0⟩, by decide, by decide⟩

/-- Three threads with two lists, one of them waiting. -/
example : ∃ s : St 3, Reach Normal s ∧ s.pc 2 = .ready ∧ s.pool = [] ∧ lists s = 2 := by
  refine ⟨_, run_reach .init [.check 0, .push 0, .check 2, .acquire 0, .check 1, .push 1, .acquire 1] (by intro s a ha; simp only [List.mem_cons, List.not_mem_nil, or_false] at ha; rcases ha with rfl | rfl | rfl | rfl | rfl | rfl | rfl <;> simp [Normal]) rfl, by decide, by decide, by decide⟩

end Verif.Obst.Concurrent
