import Verif.Optim.Common
import Mathlib.Algebra.Order.Archimedean.Basic
set_option linter.unusedSectionVars false

/-!
# `RandomShortcut::optimize` (C42, C69)

Random numbers and the stop conditions of `PathOptimizer` are arbitrary sequences: `shoot it t0 t3` is the result of the virtual method `shootTimes` at iteration
`it` (`none`: it returns false), `stop it` the value of `shouldStop()`.  The lengths kept by the algorithm are in `K` extended by infinity (`none`).
-/
namespace Verif.Optim
open Verif.PathV
variable {K C P : Type} [Field K] [LinearOrder K] [IsStrictOrderedRing K]

/-- `shootTimes` of the base class: random-shortcut.cc:181-194; `r` is the pair of the two values `rand() / RAND_MAX`, in the order of the calls. -/
def shootTimes (r : K × K) (t0 t3 : K) : Option (K × K) :=
  let u2 := (t3 - t0) * r.1
  let u1 := (t3 - t0) * r.2
  if u1 < u2 then some (t0 + u1, t0 + u2) else some (t0 + u2, t0 + u1)

/-- Local variables of `optimize`. -/
structure RSt (K C P : Type) where
  tmp : Vec K C P
  result : Option (Vec K C P)
  lengths : List (Option K)
  perr : Nat
  finished : Bool

/-- The validated steering path of a part, if any: random-shortcut.cc:118-136. -/
def validSteer (E : Env K C P) (q q' : C) : Option P := match E.steer q q' with
  | none => none
  | some p => if E.valid p then some p else none

/-- One pass of the loop that replaces the parts: random-shortcut.cc:142-147. -/
def addPart (E : Env K C P) (tmp : Vec K C P) (t t' : K) (p : Option P) (acc : Vec K C P) : Except Err (Vec K C P) :=
  match p with
  | some p => .ok (appendPath E.O acc p)
  | none => match extractV E.O tmp t t' with
    | .error e => .error e
    | .ok r => concatenate E.O acc r

/-- The three parts: random-shortcut.cc:138-147. -/
def buildParts (E : Env K C P) (tmp : Vec K C P) (t0 t1 t2 t3 : K) (p0 p1 p2 : Option P) : Except Err (Vec K C P) :=
  match addPart E tmp t0 t1 p0 (create none) with
  | .error e => .error e
  | .ok a0 => match addPart E tmp t1 t2 p1 a0 with
    | .error e => .error e
    | .ok a1 => addPart E tmp t2 t3 p2 a1

/-- `length[n - 1] <= newLength`, with infinity. -/
def infLe (a : Option K) (b : K) : Bool := match a with
  | none => false
  | some a => decide (a ≤ b)

/-- `(length[0] - length[n - 1]) <= 1e-4 * length[n - 1]`, the last one is finite. -/
def small (eps : K) (a : Option K) (b : K) : Bool := match a with
  | none => false
  | some a => decide (a - b ≤ eps * b)

/-- An iteration of the loop: random-shortcut.cc:98-167. -/
def rsIter (E : Env K C P) (eps : K) (n : Nat) (shoot : K → K → Option (K × K)) (q0 q3 : C) (st : RSt K C P) : Except Err (RSt K C P) :=
  let t0 := st.tmp.tr.1
  let t3 := st.tmp.tr.2
  match shoot t0 t3 with
  | none => .ok { st with perr := st.perr - 1 }
  | some (t1, t2) =>
    match evalV E.O st.tmp t1 with
    | .error .projection => .ok { st with perr := st.perr - 1 }
    | .error e => .error e
    | .ok q1 =>
      match evalV E.O st.tmp t2 with
      | .error .projection => .ok { st with perr := st.perr - 1 }
      | .error e => .error e
      | .ok q2 =>
        if (E.steer q0 q1).isNone ∧ (E.steer q1 q2).isNone ∧ (E.steer q2 q3).isNone then .ok { st with perr := st.perr - 1 }
        else
          match buildParts E st.tmp t0 t1 t2 t3 (validSteer E q0 q1) (validSteer E q1 q2) (validSteer E q2 q3) with
          | .error .projection => .ok { st with perr := st.perr - 1, result := some st.tmp }
          | .error e => .error e
          | .ok res =>
            match pathLength E res with
            | .error e => .error e
            | .ok newLength =>
              match st.lengths[n - 1]? with
              | none => .error .indexOutOfBounds
              | some last =>
                if infLe last newLength then .ok { st with perr := st.perr - 1, result := some st.tmp }
                else
                  let l := (st.lengths ++ [some newLength]).tail
                  .ok ⟨res, some res, l, n, (match l[0]?, l[n - 1]? with
                    | some a, some (some b) => small eps a b
                    | _, _ => false)⟩

/-- Outcomes: the path returned, an exception (or undefined behaviour), or still running. -/
inductive Out (K C P : Type) where
  | path (v : Vec K C P)
  | error (e : Err)
  | running

/-- The `while` loop: random-shortcut.cc:96-168. -/
def rsLoop (E : Env K C P) (eps : K) (n : Nat) (shoot : Nat → K → K → Option (K × K)) (stop : Nat → Bool) (path : Vec K C P) (q0 q3 : C) :
    Nat → Nat → RSt K C P → Out K C P
  | 0, _, _ => .running
  | fuel + 1, it, st =>
    if stop it = false ∧ st.finished = false ∧ st.perr ≠ 0 then
      match rsIter E eps n (shoot it) q0 q3 st with
      | .error e => .error e
      | .ok st' => rsLoop E eps n shoot stop path q0 q3 fuel (it + 1) st'
    else match st.result with
      | none => .path path
      | some r => .path r

/-- `RandomShortcut::optimize`: random-shortcut.cc:74-179.  `n` is parameter `PathOptimization/RandomShortcut/NumberOfLoops`; with `n = 0` the constructor
of the deque with `n - 1` (the maximum of the type) elements throws. -/
def randomShortcut (E : Env K C P) (eps : K) (n : Nat) (shoot : Nat → K → K → Option (K × K)) (stop : Nat → Bool) (fuel : Nat) (path : Vec K C P) : Out K C P :=
  match vini E path, vfin E path with
  | .ok q0, .ok q3 =>
    if n = 0 then .error .outOfRange
    else match pathLength E path with
      | .error e => .error e
      | .ok l => rsLoop E eps n shoot stop path q0 q3 fuel 0 ⟨path, none, List.replicate (n - 1) none ++ [some l], n, false⟩
  | .error e, _ => .error e
  | _, .error e => .error e

/-! ## Proofs -/

theorem shootTimes_ordered (r : K × K) (h1 : 0 ≤ r.1) (h2 : r.1 ≤ 1) (h3 : 0 ≤ r.2) (h4 : r.2 ≤ 1) (t0 t3 : K) (ht : t0 ≤ t3) (t1 t2 : K)
    (h : shootTimes r t0 t3 = some (t1, t2)) : t0 ≤ t1 ∧ t1 ≤ t2 ∧ t2 ≤ t3 := by
  have e1 : 0 ≤ (t3 - t0) * r.1 := mul_nonneg (by linarith) h1
  have e2 : (t3 - t0) * r.1 ≤ t3 - t0 := mul_le_of_le_one_right (by linarith) h2
  have e3 : 0 ≤ (t3 - t0) * r.2 := mul_nonneg (by linarith) h3
  have e4 : (t3 - t0) * r.2 ≤ t3 - t0 := mul_le_of_le_one_right (by linarith) h4
  unfold shootTimes at h
  simp only at h
  split at h
  · rename_i hlt
    obtain ⟨rfl, rfl⟩ := Prod.mk.inj (Option.some.inj h)
    exact ⟨by linarith, by linarith, by linarith⟩
  · rename_i hlt
    obtain ⟨rfl, rfl⟩ := Prod.mk.inj (Option.some.inj h)
    have := not_lt.1 hlt
    exact ⟨by linarith, by linarith, by linarith⟩

section
variable {E : Env K C P} {G : P → Prop}

/-- Vectors that run continuously from `q0` to `q3` on `[0, length]`. -/
def Runs' (E : Env K C P) (G : P → Prop) (q0 q3 : C) (v : Vec K C P) : Prop :=
  v.cons = none ∧ v.tr = (0, total E.O v.paths) ∧ Joins E G q0 q3 v.paths

theorem Runs'.nonneg (hC : Contract E G) {q0 q3 : C} {v : Vec K C P} (h : Runs' E G q0 q3 v) : 0 ≤ v.tr.2 := by
  rw [h.2.1]; exact total_nonneg _ _ (fun p hp => hC.lawful.nonneg p (h.2.2.2.1 p hp))

theorem concat_none {O : Ops K C P} {v w r : Vec K C P} (hw : w.cons = none) (h : concatenate O v w = .ok r) :
    r = w.paths.foldl (appendPath O) v := by
  rw [concatenate_eq] at h
  obtain ⟨Rs, h1, rfl⟩ := foldlM_push O w.cons w.paths v r h
  have : ∀ {l l' : List P}, List.Forall₂ (fun p r => push O w.cons p = .ok r) l l' → l = l' := by
    intro l l' hl
    induction hl with
    | nil => rfl
    | cons h _ ih => rw [ih]; congr 1; rw [hw] at h; simpa [push] using h
  rw [this h1]

/-- Result of adding a part to a vector that runs from `q0` to `q` (or is empty, with `q0 = q`). -/
theorem addPart_spec (hC : Contract E G) {a b : C} {tmp : Vec K C P} (ht : Runs' E G a b tmp) {t t' : K} (h0 : 0 ≤ t) (htt : t ≤ t') (h1 : t' ≤ tmp.tr.2)
    {q q' : C} (hq : evalV E.O tmp t = .ok q) (hq' : evalV E.O tmp t' = .ok q') {acc r : Vec K C P}
    (h : addPart E tmp t t' (validSteer E q q') acc = .ok r) : ∃ ps, Joins E G q q' ps ∧ r = ps.foldl (appendPath E.O) acc := by
  unfold addPart at h
  have ext : (match extractV E.O tmp t t' with
    | Except.error e => Except.error e
    | Except.ok r => concatenate E.O acc r) = Except.ok r → ∃ ps, Joins E G q q' ps ∧ r = ps.foldl (appendPath E.O) acc := by
    intro h
    cases hx : extractV E.O tmp t t' with
    | error e => rw [hx] at h; simp at h
    | ok w =>
      rw [hx] at h
      obtain ⟨k1, k2⟩ := extract_joins hC ht.1 ht.2.1 ht.2.2 t t' h0 htt h1 q q' hq hq' w hx
      exact ⟨w.paths, k2, concat_none k1 h⟩
  unfold validSteer at h
  cases hs : E.steer q q' with
  | none => rw [hs] at h; exact ext h
  | some p =>
    rw [hs] at h
    simp only at h
    by_cases hv : E.valid p = true
    · rw [if_pos hv] at h
      obtain ⟨e1, e2⟩ := hC.steer_ends q q' p hs
      refine ⟨[p], ?_, (Except.ok.inj h).symm⟩
      rw [← e1, ← e2]
      exact Joins.single (hC.steer q q' p (ht.2.2.on hC ht.1 ht.2.1 h0 (htt.trans h1) hq) (ht.2.2.on hC ht.1 ht.2.1 (h0.trans htt) h1 hq') hs hv)
    · rw [if_neg hv] at h
      exact ext h

theorem buildParts_spec (hC : Contract E G) {q0 q3 : C} {tmp : Vec K C P} (ht : Runs' E G q0 q3 tmp) {t1 t2 : K} (h1 : 0 ≤ t1) (h2 : t1 ≤ t2)
    (h3 : t2 ≤ tmp.tr.2) {q1 q2 : C} (hq1 : evalV E.O tmp t1 = .ok q1) (hq2 : evalV E.O tmp t2 = .ok q2) {r : Vec K C P}
    (h : buildParts E tmp tmp.tr.1 t1 t2 tmp.tr.2 (validSteer E q0 q1) (validSteer E q1 q2) (validSteer E q2 q3) = .ok r) : Runs' E G q0 q3 r := by
  obtain ⟨e1, e2⟩ := ht.2.2.eval hC
  rw [← evalV_none _ tmp ht.1] at e1 e2
  have f1 : tmp.tr.1 = 0 := by rw [ht.2.1]
  have f2 : tmp.tr.2 = total E.O tmp.paths := by rw [ht.2.1]
  unfold buildParts at h
  cases h0 : addPart E tmp tmp.tr.1 t1 (validSteer E q0 q1) (create none) with
  | error e => rw [h0] at h; simp at h
  | ok a0 =>
    rw [h0] at h
    simp only at h
    cases h01 : addPart E tmp t1 t2 (validSteer E q1 q2) a0 with
    | error e => rw [h01] at h; simp at h
    | ok a1 =>
      rw [h01] at h
      simp only at h
      obtain ⟨p0, j0, k0⟩ := addPart_spec hC ht (by rw [f1]) (by rw [f1]; exact h1) (by linarith) (by rw [f1]; exact e1) hq1 h0
      obtain ⟨p1, j1, k1⟩ := addPart_spec hC ht h1 h2 h3 hq1 hq2 h01
      obtain ⟨p2, j2, k2⟩ := addPart_spec hC ht (by linarith) h3 (le_refl _) hq2 (by rw [f2]; exact e2) h
      have : r = ((p0 ++ p1) ++ p2).foldl (appendPath E.O) (create none) := by
        rw [List.foldl_append, List.foldl_append, ← k0, ← k1, ← k2]
      rw [appendAll] at this
      rw [this]
      refine ⟨rfl, ?_, ?_⟩
      · simp [create]
      · simpa [create] using (j0.append hC j1).append hC j2

/-- The invariant of the loop. -/
structure RInv (E : Env K C P) (G : P → Prop) (n : Nat) (path : Vec K C P) (q0 q3 : C) (st : RSt K C P) : Prop where
  runs : Runs' E G q0 q3 st.tmp
  res : (st.result = none ∧ st.tmp = path) ∨ st.result = some st.tmp
  len : st.lengths.length = n
  last : st.lengths[n - 1]? = some (some (dlen E st.tmp.paths))
  le : dlen E st.tmp.paths ≤ dlen E path.paths

/-- What an iteration does: either a failure is counted and the path kept, or a strictly shorter path is accepted. -/
theorem rsIter_spec (hC : Contract E G) {eps : K} {n : Nat} (hn : n ≠ 0) {shoot : K → K → Option (K × K)}
    (hsh : ∀ t0 t3 t1 t2, t0 ≤ t3 → shoot t0 t3 = some (t1, t2) → t0 ≤ t1 ∧ t1 ≤ t2 ∧ t2 ≤ t3) {path : Vec K C P} {q0 q3 : C} {st st' : RSt K C P}
    (h : RInv E G n path q0 q3 st) (ho : rsIter E eps n shoot q0 q3 st = .ok st') :
    RInv E G n path q0 q3 st' ∧ ((st'.tmp = st.tmp ∧ st'.lengths = st.lengths ∧ st'.perr = st.perr - 1 ∧ st'.finished = st.finished) ∨
      (dlen E st'.tmp.paths < dlen E st.tmp.paths ∧ st'.lengths = st.lengths.tail ++ [some (dlen E st'.tmp.paths)] ∧ st'.perr = n ∧
        ∀ a, st'.lengths[0]? = some (some a) → (st'.finished = true ↔ a - dlen E st'.tmp.paths ≤ eps * dlen E st'.tmp.paths))) := by
  have keep : ∀ (p : Nat), RInv E G n path q0 q3 { st with perr := p } := fun p => ⟨h.runs, h.res, h.len, h.last, h.le⟩
  have keep' : ∀ (p : Nat), RInv E G n path q0 q3 { st with perr := p, result := some st.tmp } := fun p => ⟨h.runs, Or.inr rfl, h.len, h.last, h.le⟩
  have fail : ∀ {s : RSt K C P}, Except.ok (ε := Err) { st with perr := st.perr - 1 } = .ok s → RInv E G n path q0 q3 s ∧
      ((s.tmp = st.tmp ∧ s.lengths = st.lengths ∧ s.perr = st.perr - 1 ∧ s.finished = st.finished) ∨
      (dlen E s.tmp.paths < dlen E st.tmp.paths ∧ s.lengths = st.lengths.tail ++ [some (dlen E s.tmp.paths)] ∧ s.perr = n ∧
        ∀ a, s.lengths[0]? = some (some a) → (s.finished = true ↔ a - dlen E s.tmp.paths ≤ eps * dlen E s.tmp.paths))) := by
    intro s hs
    rw [← Except.ok.inj hs]
    exact ⟨keep _, Or.inl ⟨rfl, rfl, rfl, rfl⟩⟩
  have fail' : ∀ {s : RSt K C P}, Except.ok (ε := Err) { st with perr := st.perr - 1, result := some st.tmp } = .ok s → RInv E G n path q0 q3 s ∧
      ((s.tmp = st.tmp ∧ s.lengths = st.lengths ∧ s.perr = st.perr - 1 ∧ s.finished = st.finished) ∨
      (dlen E s.tmp.paths < dlen E st.tmp.paths ∧ s.lengths = st.lengths.tail ++ [some (dlen E s.tmp.paths)] ∧ s.perr = n ∧
        ∀ a, s.lengths[0]? = some (some a) → (s.finished = true ↔ a - dlen E s.tmp.paths ≤ eps * dlen E s.tmp.paths))) := by
    intro s hs
    rw [← Except.ok.inj hs]
    exact ⟨keep' _, Or.inl ⟨rfl, rfl, rfl, rfl⟩⟩
  have f1 : st.tmp.tr.1 = 0 := by rw [h.runs.2.1]
  unfold rsIter at ho
  simp only at ho
  cases hs : shoot st.tmp.tr.1 st.tmp.tr.2 with
  | none => rw [hs] at ho; exact fail ho
  | some tt =>
    obtain ⟨t1, t2⟩ := tt
    rw [hs] at ho
    simp only at ho
    obtain ⟨o1, o2, o3⟩ := hsh _ _ t1 t2 (by rw [f1]; exact h.runs.nonneg hC) hs
    rw [f1] at o1
    cases hq1 : evalV E.O st.tmp t1 with
    | error e => rw [hq1] at ho; cases e <;> first | exact fail ho | simp at ho
    | ok q1 =>
      rw [hq1] at ho
      simp only at ho
      cases hq2 : evalV E.O st.tmp t2 with
      | error e => rw [hq2] at ho; cases e <;> first | exact fail ho | simp at ho
      | ok q2 =>
        rw [hq2] at ho
        simp only at ho
        by_cases hn3 : (E.steer q0 q1).isNone ∧ (E.steer q1 q2).isNone ∧ (E.steer q2 q3).isNone
        · rw [if_pos hn3] at ho; exact fail ho
        · rw [if_neg hn3] at ho
          cases hb : buildParts E st.tmp st.tmp.tr.1 t1 t2 st.tmp.tr.2 (validSteer E q0 q1) (validSteer E q1 q2) (validSteer E q2 q3) with
          | error e => rw [hb] at ho; cases e <;> first | exact fail' ho | simp at ho
          | ok res =>
            rw [hb] at ho
            have hr := buildParts_spec hC h.runs o1 o2 o3 hq1 hq2 hb
            simp only [pathLength_eq E res hr.1, h.last] at ho
            by_cases hi : infLe (some (dlen E st.tmp.paths)) (dlen E res.paths) = true
            · rw [if_pos hi] at ho; exact fail' ho
            · rw [if_neg hi] at ho
              have hlt : dlen E res.paths < dlen E st.tmp.paths := by simpa [infLe] using hi
              have hne : st.lengths ≠ [] := by
                intro hx
                have := h.len
                rw [hx] at this
                exact hn this.symm
              have htl : (st.lengths ++ [some (dlen E res.paths)]).tail = st.lengths.tail ++ [some (dlen E res.paths)] :=
                List.tail_append_of_ne_nil hne
              have htlen : st.lengths.tail.length = n - 1 := by rw [List.length_tail, h.len]
              have hlast : ((st.lengths ++ [some (dlen E res.paths)]).tail)[n - 1]? = some (some (dlen E res.paths)) := by
                rw [htl, ← htlen]; simp
              rw [← Except.ok.inj ho]
              refine ⟨⟨hr, Or.inr rfl, ?_, hlast, ?_⟩, Or.inr ⟨hlt, htl, rfl, ?_⟩⟩
              · show ((st.lengths ++ [some (dlen E res.paths)]).tail).length = n
                rw [htl, List.length_append, htlen, List.length_singleton]
                omega
              · exact le_trans (le_of_lt hlt) h.le
              · intro a ha
                simp only at ha ⊢
                rw [ha, hlast]
                simp [small]

/-- The loop returns a path that satisfies the invariant. -/
theorem rsLoop_spec (hC : Contract E G) {eps : K} {n : Nat} (hn : n ≠ 0) {shoot : Nat → K → K → Option (K × K)}
    (hsh : ∀ it t0 t3 t1 t2, t0 ≤ t3 → shoot it t0 t3 = some (t1, t2) → t0 ≤ t1 ∧ t1 ≤ t2 ∧ t2 ≤ t3) {stop : Nat → Bool} {path : Vec K C P} {q0 q3 : C}
    (fuel it : Nat) (st : RSt K C P) (h : RInv E G n path q0 q3 st) (w : Vec K C P)
    (ho : rsLoop E eps n shoot stop path q0 q3 fuel it st = .path w) :
    Runs' E G q0 q3 w ∧ dlen E w.paths ≤ dlen E path.paths := by
  induction fuel generalizing it st with
  | zero => simp [rsLoop] at ho
  | succ fuel ih =>
    unfold rsLoop at ho
    split at ho
    · cases hi : rsIter E eps n (shoot it) q0 q3 st with
      | error e => rw [hi] at ho; simp at ho
      | ok st' =>
        rw [hi] at ho
        exact ih (it + 1) st' (rsIter_spec hC hn (hsh it) h hi).1 ho
    · rcases h.res with ⟨k1, k2⟩ | k1
      · rw [k1] at ho
        simp only [Out.path.injEq] at ho
        rw [← ho, ← k2]
        exact ⟨h.runs, le_refl _⟩
      · rw [k1] at ho
        simp only [Out.path.injEq] at ho
        rw [← ho]
        exact ⟨h.runs, h.le⟩

theorem rInv_start {n : Nat} (hn : n ≠ 0) {path : Vec K C P} {q0 q3 : C} (h : Runs' E G q0 q3 path) :
    RInv E G n path q0 q3 ⟨path, none, List.replicate (n - 1) none ++ [some (dlen E path.paths)], n, false⟩ :=
  ⟨h, Or.inl ⟨rfl, rfl⟩, by simp; omega, by simp, le_refl _⟩

theorem randomShortcut_eq {eps : K} {n : Nat} (hn : n ≠ 0) (shoot : Nat → K → K → Option (K × K)) (stop : Nat → Bool) (fuel : Nat)
    {path : Vec K C P} {q0 q3 : C} (h : Runs' E G q0 q3 path) : randomShortcut E eps n shoot stop fuel path =
      rsLoop E eps n shoot stop path q0 q3 fuel 0 ⟨path, none, List.replicate (n - 1) none ++ [some (dlen E path.paths)], n, false⟩ := by
  have e1 : vini E path = .ok q0 := by
    unfold vini
    cases hp : path.paths.head? with
    | none => exact absurd (List.head?_eq_none_iff.1 hp) h.2.2.1
    | some p => rw [← h.2.2.2.2.2.1 p hp]
  have e2 : vfin E path = .ok q3 := by
    unfold vfin
    cases hp : path.paths.getLast? with
    | none => exact absurd (List.getLast?_eq_none_iff.1 hp) h.2.2.1
    | some p => rw [← h.2.2.2.2.2.2 p hp]
  unfold randomShortcut
  rw [e1, e2]
  simp only [if_neg hn, pathLength_eq E path h.1]

/-- C42 for `RandomShortcut`: whatever the shots and the moment the optimizer is stopped, the path returned is continuous, has the same initial and final
configurations as the input, is not longer, and every predicate on configurations that holds along the input and along the validated steering paths between configurations where it holds is true along it. -/
theorem C42_random (hC : Contract E G) {eps : K} {n : Nat} (hn : n ≠ 0) (shoot : Nat → K → K → Option (K × K))
    (hsh : ∀ it t0 t3 t1 t2, t0 ≤ t3 → shoot it t0 t3 = some (t1, t2) → t0 ≤ t1 ∧ t1 ≤ t2 ∧ t2 ≤ t3) (stop : Nat → Bool) (fuel : Nat)
    (path w : Vec K C P) (hcons : path.cons = none) (hne : path.paths ≠ []) (hwf : WF E.O G path) (hch : Chained E.O path.paths)
    (ho : randomShortcut E eps n shoot stop fuel path = .path w) :
    w.cons = none ∧ WF E.O G w ∧ w.paths ≠ [] ∧ Chained E.O w.paths ∧
    evalV E.O w w.tr.1 = evalV E.O path path.tr.1 ∧ evalV E.O w w.tr.2 = evalV E.O path path.tr.2 ∧
    pathLength E w = .ok (dlen E w.paths) ∧ dlen E w.paths ≤ dlen E path.paths ∧
    ∀ Free : C → Prop,
      (∀ a b p, Free a → Free b → E.steer a b = some p → E.valid p = true → ∀ x, 0 ≤ x → x ≤ E.O.len p → ∀ q, E.O.eval p (E.O.lo p + x) = .ok q → Free q) →
      (∀ s, path.tr.1 ≤ s → s ≤ path.tr.2 → ∀ q, evalV E.O path s = .ok q → Free q) →
      ∀ s, w.tr.1 ≤ s → s ≤ w.tr.2 → ∀ q, evalV E.O w s = .ok q → Free q := by
  obtain ⟨q0, q3, hj⟩ : ∃ q0 q3, Joins E G q0 q3 path.paths := by
    rcases hd : path.paths.head? with _ | p
    · exact absurd (List.head?_eq_none_iff.1 hd) hne
    · rcases hl : path.paths.getLast? with _ | p'
      · exact absurd (List.getLast?_eq_none_iff.1 hl) hne
      · refine ⟨E.ini p, E.fin p', hne, hwf.2, hch, ?_, ?_⟩
        · intro x hx; rw [hd] at hx; rw [Option.some.inj hx]
        · intro x hx; rw [hl] at hx; rw [Option.some.inj hx]
  have hr : Runs' E G q0 q3 path := ⟨hcons, hwf.1, hj⟩
  have ends : ∀ {v : Vec K C P}, Runs' E G q0 q3 v → evalV E.O v v.tr.1 = .ok q0 ∧ evalV E.O v v.tr.2 = .ok q3 := by
    intro v hv
    obtain ⟨a, b⟩ := hv.2.2.eval hC
    rw [evalV_none _ v hv.1, evalV_none _ v hv.1, hv.2.1]
    exact ⟨a, b⟩
  have ho' := ho
  rw [randomShortcut_eq hn shoot stop fuel hr] at ho
  obtain ⟨k1, k2⟩ := rsLoop_spec hC hn hsh fuel 0 _ (rInv_start hn hr) w ho
  refine ⟨k1.1, ⟨k1.2.1, k1.2.2.2.1⟩, k1.2.2.1, k1.2.2.2.2.1, ?_, ?_, pathLength_eq E w k1.1, k2, ?_⟩
  · rw [(ends k1).1, (ends hr).1]
  · rw [(ends k1).2, (ends hr).2]
  · intro Free hst hp s hs0 hs1 q hq
    have hC' := hC.along Free hst
    have lenOK : ∀ p ∈ path.paths, 0 ≤ E.O.len p := fun p hp => hC.lawful.nonneg p (hwf.2 p hp)
    have hj' : Joins E (Along E G Free) q0 q3 path.paths := by
      refine ⟨hj.1, fun p hpm => ⟨hj.2.1 p hpm, fun x x0 x1 q' hq' => ?_⟩, hj.2.2⟩
      obtain ⟨A, B, hAB⟩ := List.append_of_mem hpm
      have lenA : ∀ z ∈ A, 0 ≤ E.O.len z := fun z hz => lenOK z (by rw [hAB]; simp [hz])
      have lenB : ∀ z ∈ B, 0 ≤ E.O.len z := fun z hz => lenOK z (by rw [hAB]; simp [hz])
      have := chained_at E.O A B p x lenA (by rw [← hAB]; exact hch) x0 x1
      rw [← hAB, ← evalV_none _ path hcons] at this
      have tA := total_nonneg _ A lenA
      have tB := total_nonneg _ B lenB
      refine hp (total E.O A + x) ?_ ?_ q' (this.trans hq')
      · rw [hwf.1]; show 0 ≤ _; linarith
      · rw [hwf.1, hAB]; simp only [total_append, total_cons]; linarith
    have hr' : Runs' E (Along E G Free) q0 q3 path := ⟨hcons, hwf.1, hj'⟩
    obtain ⟨m1, -⟩ := rsLoop_spec hC' hn hsh fuel 0 _ (rInv_start hn hr') w ho
    have hs0' : 0 ≤ s := by rw [m1.2.1] at hs0; exact hs0
    have hs1' : s ≤ total E.O w.paths := by rw [m1.2.1] at hs1; exact hs1
    obtain ⟨A, p, B, u, e, a1, a2, a3, a4⟩ := exists_pos E.O w.paths m1.2.2.1 s hs0' hs1'
    have hwl : ∀ p ∈ w.paths, 0 ≤ E.O.len p := fun p hp => hC'.lawful.nonneg p (m1.2.2.2.1 p hp)
    have := evalU_at E.O A B p u (fun z hz => hwl z (by rw [e]; simp [hz])) a3 a2
    rw [evalV_none _ w m1.1, e, a4, this] at hq
    exact (m1.2.2.2.1 p (by rw [e]; simp)).2 u a1 a2 q hq

/-! ## Termination -/

/-- A continuous path is at least as long as the distance between its ends. -/
theorem dist_le_dlen (hC : Contract E G) (htri : ∀ a b c, E.dist a c ≤ E.dist a b + E.dist b c) {a b : C} {ps : List P} (h : Joins E G a b ps) :
    E.dist a b ≤ dlen E ps := by
  obtain ⟨h1, h2, h3, h4, h5⟩ := h
  induction ps generalizing a with
  | nil => exact absurd rfl h1
  | cons p ps ih =>
    have ha : E.ini p = a := h4 p (by simp)
    cases ps with
    | nil =>
      have hb : E.fin p = b := h5 p (by simp)
      simp [dlen, ha, hb]
    | cons q ps =>
      have hc := List.isChain_cons_cons.1 h3
      have hj : E.fin p = E.ini q := by
        have := hc.1
        rw [hC.fin p (h2 p (by simp)), hC.ini q (h2 q (by simp))] at this
        exact Except.ok.inj this
      have := ih (a := E.fin p) (by simp) (fun z hz => h2 z (by simp [hz])) hc.2 (by simp [hj]) (by
        intro z hz
        exact h5 z (by rw [List.getLast?_cons_cons]; exact hz))
      have t := htri a (E.fin p) b
      have e : dlen E (p :: q :: ps) = E.dist (E.ini p) (E.fin p) + dlen E (q :: ps) := by simp [dlen]
      rw [e, ha]
      linarith

theorem rsLoop_ends (hC : Contract E G) {eps d : K} (heps : 0 < eps) (hd0 : 0 < d) {n : Nat} (hn : n ≠ 0) {shoot : Nat → K → K → Option (K × K)}
    (hsh : ∀ it t0 t3 t1 t2, t0 ≤ t3 → shoot it t0 t3 = some (t1, t2) → t0 ≤ t1 ∧ t1 ≤ t2 ∧ t2 ≤ t3) {stop : Nat → Bool} {path : Vec K C P} {q0 q3 : C}
    (hd : ∀ v, Runs' E G q0 q3 v → d ≤ dlen E v.paths) (fuel M j it : Nat) (st : RSt K C P) (l : K) (h : RInv E G n path q0 q3 st)
    (hl : st.lengths[j]? = some (some l)) (hle : dlen E st.tmp.paths ≤ l) (hM : l < d * (1 + eps) ^ M) (hj : (n = 1 ∧ j = 0) ∨ (1 ≤ j ∧ j ≤ n - 1))
    (hf : M * (n * (n + 1)) + j * (n + 1) + st.perr + 1 ≤ fuel) :
    rsLoop E eps n shoot stop path q0 q3 fuel it st ≠ .running := by
  have fin : ∀ (fuel it : Nat) (st : RSt K C P), 1 ≤ fuel → st.finished = true → rsLoop E eps n shoot stop path q0 q3 fuel it st ≠ .running := by
    intro fuel it st h1 h2
    cases fuel with
    | zero => omega
    | succ fuel =>
      unfold rsLoop
      rw [if_neg (by simp [h2])]
      cases st.result <;> simp
  induction fuel generalizing M j it st l with
  | zero => omega
  | succ fuel ih =>
    unfold rsLoop
    by_cases hc : stop it = false ∧ st.finished = false ∧ st.perr ≠ 0
    · rw [if_pos hc]
      cases hi : rsIter E eps n (shoot it) q0 q3 st with
      | error e => simp
      | ok st' =>
        simp only
        obtain ⟨k1, k2⟩ := rsIter_spec hC hn (hsh it) h hi
        rcases k2 with ⟨e1, e2, e3, e4⟩ | ⟨e1, e2, e3, e4⟩
        · refine ih M j (it + 1) st' l k1 (by rw [e2]; exact hl) (by rw [e1]; exact hle) hM hj ?_
          rw [e3]
          have := hc.2.2
          omega
        · have hdm := hd _ k1.runs
          have hpos : 0 < dlen E st'.tmp.paths := lt_of_lt_of_le hd0 hdm
          have hp := hc.2.2
          rcases hj with ⟨j1, j2⟩ | ⟨j1, j2⟩
          · refine fin fuel _ _ (by omega) ((e4 (dlen E st'.tmp.paths) ?_).2 ?_)
            · have := k1.last
              rwa [j1] at this
            · rw [sub_self]; exact le_of_lt (mul_pos heps hpos)
          · have hnew : st'.lengths[j - 1]? = some (some l) := by
              rw [e2, List.getElem?_append_left (by rw [List.length_tail, h.len]; omega), List.getElem?_tail]
              rw [show j - 1 + 1 = j by omega]
              exact hl
            by_cases hj0 : j - 1 = 0
            · rw [hj0] at hnew
              by_cases hfin : st'.finished = true
              · exact fin fuel _ _ (by
                  have : 1 * (n + 1) ≤ j * (n + 1) := Nat.mul_le_mul_right _ j1
                  omega) hfin
              · have hnf : ¬ (l - dlen E st'.tmp.paths ≤ eps * dlen E st'.tmp.paths) := fun hx => hfin ((e4 l hnew).2 hx)
                have hgt : dlen E st'.tmp.paths * (1 + eps) < l := by
                  have := not_le.1 hnf
                  linarith [mul_comm eps (dlen E st'.tmp.paths)]
                cases M with
                | zero =>
                  exfalso
                  rw [pow_zero, mul_one] at hM
                  have := mul_pos hpos heps
                  linarith
                | succ M =>
                  have h1e : (0 : K) < 1 + eps := by linarith
                  refine ih M (n - 1) (it + 1) st' (dlen E st'.tmp.paths) k1 k1.last (le_refl _) ?_ (Or.inr ⟨by omega, le_refl _⟩) ?_
                  · have : dlen E st'.tmp.paths * (1 + eps) < d * (1 + eps) ^ M * (1 + eps) := by
                      rw [mul_assoc, ← pow_succ]; linarith
                    exact lt_of_mul_lt_mul_right this (le_of_lt h1e)
                  · rw [e3]
                    have a1 : (M + 1) * (n * (n + 1)) = M * (n * (n + 1)) + n * (n + 1) := by ring
                    have a2 : (n - 1) * (n + 1) + (n + 1) = n * (n + 1) := by
                      rw [← Nat.succ_mul]; congr 1; omega
                    have a3 : 1 * (n + 1) ≤ j * (n + 1) := Nat.mul_le_mul_right _ j1
                    omega
            · refine ih M (j - 1) (it + 1) st' l k1 hnew (by linarith) hM (Or.inr ⟨by omega, by omega⟩) ?_
              rw [e3]
              have a2 : (j - 1) * (n + 1) + (n + 1) = j * (n + 1) := by
                rw [← Nat.succ_mul]; congr 1; omega
              omega
    · rw [if_neg hc]
      cases st.result <;> simp

/-- C69: with a distance that satisfies the triangle inequality and a path whose ends are at a positive distance, `RandomShortcut` terminates even without any
limit on iterations or time, after a number of iterations that does not depend on the shots. -/
theorem C69_random_terminates [Archimedean K] (hC : Contract E G) {eps : K} (heps : 0 < eps) {n : Nat} (hn : n ≠ 0)
    (htri : ∀ a b c, E.dist a c ≤ E.dist a b + E.dist b c)
    (path : Vec K C P) (hcons : path.cons = none) (hwf : WF E.O G path) (hch : Chained E.O path.paths)
    (q0 q3 : C) (h0 : vini E path = .ok q0) (h3 : vfin E path = .ok q3) (hpos : 0 < E.dist q0 q3) :
    ∃ N, ∀ (shoot : Nat → K → K → Option (K × K)),
      (∀ it t0 t3 t1 t2, t0 ≤ t3 → shoot it t0 t3 = some (t1, t2) → t0 ≤ t1 ∧ t1 ≤ t2 ∧ t2 ≤ t3) →
      ∀ (stop : Nat → Bool) (fuel : Nat), N ≤ fuel → randomShortcut E eps n shoot stop fuel path ≠ .running := by
  have hj : Joins E G q0 q3 path.paths := by
    unfold vini at h0
    unfold vfin at h3
    cases hd : path.paths.head? with
    | none => rw [hd] at h0; simp at h0
    | some p =>
      cases hl : path.paths.getLast? with
      | none => rw [hl] at h3; simp at h3
      | some p' =>
        rw [hd] at h0
        rw [hl] at h3
        refine ⟨fun hx => by rw [hx] at hd; simp at hd, hwf.2, hch, ?_, ?_⟩
        · intro x hx; rw [hd] at hx; rw [← Option.some.inj hx]; exact Except.ok.inj h0
        · intro x hx; rw [hl] at hx; rw [← Option.some.inj hx]; exact Except.ok.inj h3
  have hr : Runs' E G q0 q3 path := ⟨hcons, hwf.1, hj⟩
  obtain ⟨M, hM⟩ := pow_unbounded_of_one_lt (dlen E path.paths / E.dist q0 q3) (show (1 : K) < 1 + eps by linarith)
  rw [div_lt_iff₀ hpos, mul_comm] at hM
  refine ⟨M * (n * (n + 1)) + (n - 1) * (n + 1) + n + 1, fun shoot hsh stop fuel hf => ?_⟩
  rw [randomShortcut_eq hn shoot stop fuel hr]
  have hinv := rInv_start (G := G) hn hr
  refine rsLoop_ends hC heps hpos hn hsh (fun v hv => dist_le_dlen hC htri hv.2.2) fuel M (n - 1) 0 _ _ hinv hinv.last (le_refl _) hM ?_ hf
  rcases Nat.lt_or_ge n 2 with h | h
  · exact Or.inl ⟨by omega, by omega⟩
  · exact Or.inr ⟨by omega, le_refl _⟩

/-! ## An example: paths on a line, steering paths of length at most 2 are valid -/

/-- Steering at unit speed on the rational line. -/
def lineEnv : Env ℚ ℚ (Lin ℚ) where
  O := linOps
  ini p := p.c + p.m * p.lo
  fin p := p.c + p.m * p.hi
  dist a b := max (a - b) (b - a)
  steer a b := if a ≤ b then some ⟨0, b - a, a, 1, none⟩ else some ⟨0, a - b, a, -1, none⟩
  valid p := decide (p.hi - p.lo ≤ 2)

theorem line_contract : Contract lineEnv (fun p : Lin ℚ => p.lo ≤ p.hi ∧ p.cons = none) := by
  refine ⟨lin_lawful.forward, ?_, ?_, ?_, ?_⟩
  · intro p hp; simp [lineEnv, linOps, hp.2, constrained]
  · intro p hp; simp [lineEnv, linOps, hp.2, constrained]
  · intro a b p _ _ hp _
    simp only [lineEnv] at hp
    split at hp
    · rw [← Option.some.inj hp]; exact ⟨by simp; linarith, rfl⟩
    · rename_i h
      rw [← Option.some.inj hp]; exact ⟨by simp; linarith, rfl⟩
  · intro a b p hp
    simp only [lineEnv] at hp ⊢
    split at hp <;> rw [← Option.some.inj hp] <;> simp

/-- From 0 to 4, back to 1, to 3. -/
def lineVec : Vec ℚ ℚ (Lin ℚ) :=
  [(⟨0, 4, 0, 1, none⟩ : Lin ℚ), ⟨0, 3, 4, -1, none⟩, ⟨0, 2, 1, 1, none⟩].foldl (appendPath linOps) (create none)

/-- Result of the example. -/
def lineOut (r : Out ℚ ℚ (Lin ℚ)) : Option (List (ℚ × ℚ)) := match r with
  | .path v => some (v.paths.map (fun p => (lineEnv.ini p, lineEnv.fin p)))
  | _ => none

/-- Shots at 2 and 8: the steering path from 2 to 2 is valid, the end is replaced too. -/
example : lineOut (randomShortcut lineEnv (1/10000) 5 (fun _ => shootTimes (2/9, 8/9)) (fun _ => false) 100 lineVec) =
    some [(0, 2), (2, 2), (2, 3)] := by decide +kernel

example : lineVec.cons = none ∧ WF linOps (fun p => p.lo ≤ p.hi ∧ p.cons = none) lineVec ∧ Chained linOps lineVec.paths ∧
    vini lineEnv lineVec = .ok 0 ∧ vfin lineEnv lineVec = .ok 3 ∧ 0 < lineEnv.dist 0 3 := by
  refine ⟨rfl, (wf_of_list linOps _ _ (by intro p hp; fin_cases hp <;> exact ⟨by norm_num, rfl⟩)).1, ?_, ?_, ?_, by norm_num [lineEnv]⟩
  · show List.IsChain _ [(⟨0, 4, 0, 1, none⟩ : Lin ℚ), ⟨0, 3, 4, -1, none⟩, ⟨0, 2, 1, 1, none⟩]
    refine .cons_cons ?_ (.cons_cons ?_ (.singleton _)) <;> simp [linOps, constrained] <;> norm_num
  · show Except.ok (ε := Err) ((0 : ℚ) + 1 * 0) = .ok 0
    norm_num
  · show Except.ok (ε := Err) ((1 : ℚ) + 1 * 2) = .ok 3
    norm_num

end
end Verif.Optim
