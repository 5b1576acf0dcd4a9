import Verif.ContinuousValidation.BodyPairs
import Verif.Path.VectorProps
set_option linter.unusedSectionVars false

/-!
# Validation of path vectors (C33)

`ContinuousValidation::validate` on a `PathVector`; the validation of a piece is a parameter `val reverse p`, whose answer is the verdict, the
valid part and the parameter in the report.  Pieces may be vectors again (`nestValidate`).
-/
namespace Verif.CV
open Verif.PathV
variable {K C P : Type} [Field K] [LinearOrder K] [IsStrictOrderedRing K]

/-- Answer of a validation: verdict, valid part, parameter of the report. -/
abbrev Ans (K P : Type) := Bool × P × Option K

/-- Loop in forward direction: src/continuous-validation.cc:177-190. `n` pieces remain, from rank `i`. -/
def vecFwd (O : Ops K C P) (val : P → Except Err (Ans K P)) (v : Vec K C P) :
    Nat → Nat → K → Vec K C P → Except Err (Ans K (Vec K C P))
  | 0, _, _, acc => .ok (true, acc, none)
  | n + 1, i, param, acc => do
    let p ← pathAtRank O v i
    let r ← val p
    if r.1 then vecFwd O val v n (i + 1) (param + O.len p) (appendPath O acc p)
    else .ok (false, appendPath O acc r.2.1, r.2.2.map (· + param))

/-- Loop in reverse direction: continuous-validation.cc:156-176, with `i` from `numberPaths () + 1` down. The valid part is not filled on
success. -/
def vecRev (O : Ops K C P) (val : P → Except Err (Ans K P)) (v : Vec K C P) : Nat → K → List P → Except Err (Ans K (Vec K C P))
  | 0, _, _ => .ok (true, create none, none)
  | i + 1, param, ps => do
    let p ← pathAtRank O v i
    let r ← val p
    if r.1 then vecRev O val v i (param - O.len p) (p :: ps)
    else .ok (false, (r.2.1 :: ps).foldl (appendPath O) (create none), r.2.2.map (· + (param - O.len p)))

/-- `ContinuousValidation::validate` on a vector: continuous-validation.cc:150-191. -/
def validateVec (O : Ops K C P) (val : Bool → P → Except Err (Ans K P)) (reverse : Bool) (v : Vec K C P) : Except Err (Ans K (Vec K C P)) :=
  if reverse then vecRev O (val true) v (v.paths.length + 1) (v.tr.2 - v.tr.1) []
  else vecFwd O (val false) v v.paths.length 0 0 (create none)

/-- Validation of a path made of nested vectors: continuous-validation.cc:150-206, `leaf` is the part for other paths. -/
def nestValidate (O : Ops K C P) (leaf : Bool → P → Except Err (Ans K P)) :
    (d : Nat) → Bool → Nest K C P d → Except Err (Ans K (Nest K C P d))
  | 0, rev, p => leaf rev p
  | d + 1, rev, p => match p with
    | .inl p => (leaf rev p).map (fun r => (r.1, Sum.inl r.2.1, r.2.2))
    | .inr v => (validateVec (nestOps O d) (nestValidate O leaf d) rev v).map (fun r => (r.1, Sum.inr r.2.1, r.2.2))

/-! ## Specification -/

/-- `ps` are the pieces of a vector. -/
def Pieces (O : Ops K C P) (v : Vec K C P) (ps : List P) : Prop :=
  ps.length = v.paths.length ∧ ∀ i p, ps[i]? = some p → pathAtRank O v i = .ok p

theorem pieces_none (O : Ops K C P) (v : Vec K C P) (h : v.cons = none) : Pieces O v v.paths := by
  refine ⟨rfl, fun i p hp => ?_⟩
  unfold pathAtRank at'
  rw [hp, h]

/-! ## Proofs -/

theorem vecFwd_spec (O : Ops K C P) (val : P → Except Err (Ans K P)) (v : Vec K C P) (pre ps : List P) (hps : Pieces O v (pre ++ ps))
    (acc : Vec K C P) (r : Ans K (Vec K C P)) (h : vecFwd O val v ps.length pre.length (total O pre) acc = .ok r) :
    (r.1 = true → r.2.2 = none ∧ (∀ p ∈ ps, ∃ vp rep, val p = .ok (true, vp, rep)) ∧ r.2.1 = ps.foldl (appendPath O) acc) ∧
    (r.1 = false → ∃ A p B lv rep, ps = A ++ p :: B ∧ (∀ q ∈ A, ∃ vp rep, val q = .ok (true, vp, rep)) ∧ val p = .ok (false, lv, rep) ∧
      r.2.2 = rep.map (· + total O (pre ++ A)) ∧ r.2.1 = (A ++ [lv]).foldl (appendPath O) acc) := by
  induction ps generalizing pre acc with
  | nil =>
    simp [vecFwd] at h
    subst h
    simp
  | cons p ps ih =>
    simp only [List.length_cons] at h
    unfold vecFwd at h
    rw [hps.2 pre.length p (by simp)] at h
    simp only [bind, Except.bind] at h
    cases hv : val p with
    | error e => rw [hv] at h; simp at h
    | ok a =>
      obtain ⟨b, vp, rep⟩ := a
      rw [hv] at h
      simp only at h
      cases b with
      | true =>
        simp only [if_true] at h
        have := ih (pre ++ [p]) (by simpa using hps) (appendPath O acc p) (by simpa using h)
        obtain ⟨i1, i2⟩ := this
        constructor
        · intro hr
          obtain ⟨j1, j2, j3⟩ := i1 hr
          refine ⟨j1, ?_, by simpa using j3⟩
          intro q hq
          rcases List.mem_cons.1 hq with rfl | hq
          · exact ⟨_, _, hv⟩
          · exact j2 q hq
        · intro hr
          obtain ⟨A, q, B, lv, rep', j1, j2, j3, j4, j5⟩ := i2 hr
          refine ⟨p :: A, q, B, lv, rep', by rw [j1]; rfl, ?_, j3, by simpa using j4, by simpa using j5⟩
          intro q' hq'
          rcases List.mem_cons.1 hq' with rfl | hq'
          · exact ⟨_, _, hv⟩
          · exact j2 q' hq'
      | false =>
        simp at h
        subst h
        refine ⟨by simp, fun _ => ⟨[], p, ps, vp, rep, rfl, by simp, hv, by simp, by simp⟩⟩

theorem vecFwd_ok (O : Ops K C P) (val : P → Except Err (Ans K P)) (v : Vec K C P) (pre ps : List P) (hps : Pieces O v (pre ++ ps))
    (hval : ∀ p ∈ ps, ∃ a, val p = .ok a) (param : K) (acc : Vec K C P) : ∃ r, vecFwd O val v ps.length pre.length param acc = .ok r := by
  induction ps generalizing pre acc param with
  | nil => exact ⟨_, rfl⟩
  | cons p ps ih =>
    simp only [List.length_cons]
    unfold vecFwd
    rw [hps.2 pre.length p (by simp)]
    simp only [bind, Except.bind]
    obtain ⟨a, ha⟩ := hval p (by simp)
    rw [ha]
    simp only
    cases a.1 with
    | true =>
      have := ih (pre ++ [p]) (by simpa using hps) (fun q hq => hval q (by simp [hq])) (param + O.len p) (appendPath O acc p)
      simpa using this
    | false => exact ⟨_, rfl⟩

theorem foldl_append (O : Ops K C P) (ps : List P) (acc : Vec K C P) :
    ps.foldl (appendPath O) acc = ⟨acc.cons, (acc.tr.1, acc.tr.2 + total O ps), acc.paths ++ ps⟩ := by
  induction ps generalizing acc with
  | nil => simp
  | cons p ps ih => simp [ih, appendPath, add_assoc]

/-- C33, verdict in forward direction: for a vector whose pieces can be accessed and validated, the validation of the vector returns
a result, which is `true` iff each piece is valid. -/
theorem C33_forward (O : Ops K C P) (val : Bool → P → Except Err (Ans K P)) (v : Vec K C P) (ps : List P) (hps : Pieces O v ps)
    (hval : ∀ p ∈ ps, ∃ a, val false p = .ok a) :
    ∃ r, validateVec O val false v = .ok r ∧ (r.1 = true ↔ ∀ p ∈ ps, ∃ vp rep, val false p = .ok (true, vp, rep)) := by
  have hlen : v.paths.length = ps.length := hps.1.symm
  obtain ⟨r, hr⟩ := vecFwd_ok O (val false) v [] ps hps hval 0 (create none)
  refine ⟨r, by simpa [validateVec, hlen] using hr, ?_⟩
  obtain ⟨h1, h2⟩ := vecFwd_spec O (val false) v [] ps hps (create none) r hr
  constructor
  · exact fun h => (h1 h).2.1
  · intro h
    by_contra hf
    obtain ⟨A, p, B, lv, rep, e, -, e2, -⟩ := h2 (by simpa using hf)
    obtain ⟨vp, rep', e3⟩ := h p (by rw [e]; simp)
    rw [e2] at e3
    simp at e3

/-- C33, valid part in forward direction: all the pieces, or the pieces before the first invalid one and the valid part of that one. The
parameter of the report is that of the piece plus the lengths of the pieces before. -/
theorem C33_part (O : Ops K C P) (val : Bool → P → Except Err (Ans K P)) (v : Vec K C P) (ps : List P) (hps : Pieces O v ps)
    (r : Ans K (Vec K C P)) (h : validateVec O val false v = .ok r) :
    (r.1 = true ∧ r.2.2 = none ∧ r.2.1.paths = ps ∧ r.2.1.tr = (0, total O ps)) ∨
    (r.1 = false ∧ ∃ A p B lv rep, ps = A ++ p :: B ∧ (∀ q ∈ A, ∃ vp rep, val false q = .ok (true, vp, rep)) ∧
      val false p = .ok (false, lv, rep) ∧ r.2.1.paths = A ++ [lv] ∧ r.2.1.tr = (0, total O A + O.len lv) ∧
      r.2.2 = rep.map (· + total O A)) := by
  have hlen : v.paths.length = ps.length := hps.1.symm
  have hr : vecFwd O (val false) v ps.length 0 0 (create none) = .ok r := by simpa [validateVec, hlen] using h
  obtain ⟨h1, h2⟩ := vecFwd_spec O (val false) v [] ps hps (create none) r hr
  cases hb : r.1 with
  | true =>
    obtain ⟨a, b, c⟩ := h1 hb
    refine Or.inl ⟨rfl, a, ?_, ?_⟩ <;> rw [c, foldl_append] <;> simp [create]
  | false =>
    obtain ⟨A, p, B, lv, rep, e1, e2, e3, e4, e5⟩ := h2 hb
    refine Or.inr ⟨rfl, A, p, B, lv, rep, e1, e2, e3, ?_, ?_, by simpa using e4⟩ <;> rw [e5, foldl_append] <;> simp [create]

/-- C33, consequence: for a vector without constraints, if the valid part of an invalid piece is an initial part of it, the valid part
of the vector is an initial part of the vector. -/
theorem C33_prefix (O : Ops K C P) (val : Bool → P → Except Err (Ans K P)) (v : Vec K C P) (hv : v.cons = none)
    (hlen : ∀ p ∈ v.paths, 0 ≤ O.len p)
    (hpart : ∀ p lv rep, val false p = .ok (false, lv, rep) → 0 ≤ O.len lv ∧ O.len lv ≤ O.len p ∧
      ∀ x, 0 ≤ x → x ≤ O.len lv → O.eval lv (O.lo lv + x) = O.eval p (O.lo p + x))
    (r : Ans K (Vec K C P)) (h : validateVec O val false v = .ok r) :
    r.2.1.tr.1 = 0 ∧ r.2.1.tr.2 ≤ total O v.paths ∧
    ∀ s, 0 ≤ s → s ≤ r.2.1.tr.2 → r.2.1.paths ≠ [] → evalU O r.2.1.paths s = evalU O v.paths s := by
  rcases C33_part O val v v.paths (pieces_none O v hv) r h with ⟨-, -, h3, h4⟩ | ⟨-, A, p, B, lv, rep, e1, -, e3, e4, e5, -⟩
  · rw [h4, h3]
    exact ⟨rfl, le_rfl, fun _ _ _ _ => rfl⟩
  · obtain ⟨g1, g2, g3⟩ := hpart p lv rep e3
    rw [e5, e4, e1]
    have hB : 0 ≤ total O B := total_nonneg O B (fun q hq => hlen q (by rw [e1]; simp [hq]))
    refine ⟨rfl, by simp; linarith, ?_⟩
    intro s hs0 hs1 _
    have hA : ∀ q ∈ A, 0 ≤ O.len q := fun q hq => hlen q (by rw [e1]; simp [hq])
    obtain ⟨A', q, B', u, e, a1, a2, a3, a4⟩ := exists_pos O (A ++ [lv]) (by simp) s hs0 (by simpa using hs1)
    have hAl : ∀ x ∈ A ++ [lv], 0 ≤ O.len x := by
      intro x hx
      rcases List.mem_append.1 hx with hx | hx
      · exact hA x hx
      · simp at hx; rw [hx]; exact g1
    have hA' : ∀ x ∈ A', 0 ≤ O.len x := fun x hx => hAl x (by rw [e]; simp [hx])
    rw [a4]
    conv_lhs => rw [e]
    rw [evalU_at O A' B' q u hA' a3 a2]
    rcases List.eq_nil_or_concat B' with hB' | ⟨B'', z, hB'⟩
    · subst hB'
      have := List.append_inj' e (by simp)
      obtain ⟨rfl, h⟩ := this
      simp at h
      subst h
      rw [evalU_at O A B p u hA' a3 (le_trans a2 g2)]
      exact g3 u a1 a2
    · rw [List.concat_eq_append] at hB'
      subst hB'
      have e' : A ++ [lv] = (A' ++ q :: B'') ++ [z] := by rw [e]; simp
      have := List.append_inj' e' (by simp)
      obtain ⟨rfl, -⟩ := this
      have e'' : A' ++ q :: B'' ++ p :: B = A' ++ q :: (B'' ++ p :: B) := by simp
      rw [e'', evalU_at O A' _ q u hA' a3 a2]

/-- C33 in reverse direction fails for every vector: the loop first accesses the piece after the last one. -/
theorem C33_reverse_counterexample (O : Ops K C P) (val : Bool → P → Except Err (Ans K P)) (v : Vec K C P) :
    validateVec O val true v = .error .indexOutOfBounds := by
  unfold validateVec vecRev pathAtRank at'
  simp [bind, Except.bind]

/-! ## Nested vectors -/

/-- All the vectors in a nested path are free of constraints. -/
def Unconstrained : (d : Nat) → Nest K C P d → Prop
  | 0, _ => True
  | d + 1, p => match p with
    | .inl _ => True
    | .inr v => v.cons = none ∧ ∀ q ∈ v.paths, Unconstrained d q

/-- The paths that are not vectors, in order. -/
def leaves : (d : Nat) → Nest K C P d → List P
  | 0, p => [p]
  | d + 1, p => match p with
    | .inl p => [p]
    | .inr v => v.paths.flatMap (leaves d)

/-- C33 for nested vectors: the verdict is that all the leaves are valid. -/
theorem C33_nested (O : Ops K C P) (leaf : Bool → P → Except Err (Ans K P)) (d : Nat) (p : Nest K C P d) (hu : Unconstrained d p)
    (hleaf : ∀ q ∈ leaves d p, ∃ a, leaf false q = .ok a) :
    ∃ r, nestValidate O leaf d false p = .ok r ∧ (r.1 = true ↔ ∀ q ∈ leaves d p, ∃ vp rep, leaf false q = .ok (true, vp, rep)) := by
  induction d with
  | zero =>
    obtain ⟨a, ha⟩ := hleaf p (List.mem_singleton.2 rfl)
    refine ⟨a, ha, ?_⟩
    constructor
    · intro h q hq
      obtain rfl : q = p := List.mem_singleton.1 hq
      exact ⟨a.2.1, a.2.2, by rw [ha, ← h]⟩
    · intro h
      obtain ⟨vp, rep, e⟩ := h p (List.mem_singleton.2 rfl)
      rw [ha] at e
      rw [Except.ok.inj e]
  | succ d ih =>
    rcases p with p | v
    · obtain ⟨a, ha⟩ := hleaf p (by simp [leaves])
      refine ⟨(a.1, Sum.inl a.2.1, a.2.2), by simp only [nestValidate, ha]; rfl, ?_⟩
      constructor
      · intro h q hq
        simp only [leaves, List.mem_singleton] at hq
        subst hq
        exact ⟨a.2.1, a.2.2, by rw [ha]; simp only at h; rw [← h]⟩
      · intro h
        obtain ⟨vp, rep, e⟩ := h p (by simp [leaves])
        rw [ha] at e
        rw [Except.ok.inj e]
    · obtain ⟨hv, hq⟩ := hu
      have hmem : ∀ q ∈ v.paths, ∀ x ∈ leaves d q, x ∈ leaves (d + 1) (Sum.inr v : Nest K C P (d + 1)) := by
        intro q hq x hx
        simp only [leaves, List.mem_flatMap]
        exact ⟨q, hq, hx⟩
      have hi : ∀ q ∈ v.paths, _ := fun q hqm => ih q (hq q hqm) (fun x hx => hleaf x (hmem q hqm x hx))
      obtain ⟨r, hr, hiff⟩ := C33_forward (nestOps O d) (nestValidate O leaf d) v v.paths (pieces_none _ v hv)
        (fun q hqm => by obtain ⟨r, h, -⟩ := hi q hqm; exact ⟨r, h⟩)
      refine ⟨(r.1, Sum.inr r.2.1, r.2.2), by simp only [nestValidate, hr]; rfl, ?_⟩
      simp only
      rw [hiff]
      constructor
      · intro h x hx
        simp only [leaves, List.mem_flatMap] at hx
        obtain ⟨q, hqm, hx⟩ := hx
        obtain ⟨vp, rep, e⟩ := h q hqm
        obtain ⟨r', e1, e2⟩ := hi q hqm
        rw [e] at e1
        have := Except.ok.inj e1
        exact e2.1 (by rw [← this]) x hx
      · intro h q hqm
        obtain ⟨r', e1, e2⟩ := hi q hqm
        have : r'.1 = true := e2.2 (fun x hx => h x (hmem q hqm x hx))
        exact ⟨r'.2.1, r'.2.2, by rw [e1, ← this]⟩



/-- The parameter in the report is the parameter of the failure on the vector if the piece starts at 0. -/
theorem C33_report_partial (O : Ops K C P) (val : Bool → P → Except Err (Ans K P)) (v : Vec K C P) (hv : v.cons = none)
    (hlen : ∀ p ∈ v.paths, 0 ≤ O.len p) (h0 : ∀ p ∈ v.paths, O.lo p = 0)
    (hrep : ∀ p lv rep, val false p = .ok (false, lv, rep) → ∃ t, rep = some t ∧ O.lo p < t ∧ t ≤ O.hi p)
    (vp : Vec K C P) (rep : Option K) (h : validateVec O val false v = .ok (false, vp, rep)) :
    ∃ s p t, rep = some s ∧ p ∈ v.paths ∧ (∃ lv, val false p = .ok (false, lv, some t)) ∧ evalU O v.paths s = O.eval p t := by
  rcases C33_part O val v v.paths (pieces_none O v hv) _ h with ⟨h1, -⟩ | ⟨-, A, p, B, lv, rep', e1, -, e3, -, -, e6⟩
  · simp at h1
  · obtain ⟨t, rfl, t1, t2⟩ := hrep p lv rep' e3
    have hp : p ∈ v.paths := by rw [e1]; simp
    have hlo := h0 p hp
    refine ⟨t + total O A, p, t, by simpa using e6, hp, ⟨lv, e3⟩, ?_⟩
    rw [e1, add_comm, evalU_at O A B p t (fun q hq => hlen q (by rw [e1]; simp [hq])) (Or.inr (by linarith)) (by unfold Ops.len; linarith)]
    rw [hlo, zero_add]

/-- Validation of a piece of the line by dichotomy in the examples. -/
def exVal (rev : Bool) (p : ℚ × ℚ) : Except Err (Ans ℚ (ℚ × ℚ)) :=
  (dichotomy Validation.exOps exQuery2 () rev 40 p).map (fun r => (r.1, r.2.1, r.2.2.1))

def exVec : Vec ℚ ℚ (ℚ × ℚ) := [(0, 1), (1, 2), (2, 3)].foldl (appendPath Validation.exOps) (create none)

example : (validateVec Validation.exOps exVal false exVec).toOption.map (fun r => (r.1, r.2.1.paths)) = some (false, [(0, 1), (1, 9 / 8)]) := by
  decide +kernel

/-- The report is wrong for a piece that does not start at 0: the failure is at parameter `25/16`, the report says `41/16`. -/
theorem C33_report_counterexample :
    (validateVec Validation.exOps exVal false exVec).toOption.map (fun r => (r.1, r.2.2)) = some (false, some (41 / 16)) ∧
    (exVal false (1, 2)).toOption.map (·.2.2) = some (some (25 / 16)) ∧
    evalU Validation.exOps exVec.paths (25 / 16) = .ok (25 / 16) := by
  refine ⟨by decide +kernel, by decide +kernel, by decide +kernel⟩

end Verif.CV
