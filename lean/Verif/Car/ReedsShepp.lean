import Verif.Car.RSWords
set_option linter.unusedSectionVars false

/-!
# Words of Reeds and Shepp: symmetries, families, choice of a word (C88)
-/
namespace Verif.Car.RS
open Complex

/-- `SegmentType`: reeds-shepp-path.cc:71. -/
inductive Turn
  | nop | L | S | R

/-- Curvature of a segment for the radius 1: reeds-shepp-path.cc:650-664 (no curvature for `RS_NOP`: the segment is not built). -/
def Turn.curv : Turn → ℝ
  | .nop => 0
  | .L => 1
  | .S => 0
  | .R => -1

/-- `types`: reeds-shepp-path.cc:73-92. -/
def types : ℕ → List Turn
  | 0 => [.L, .R, .L, .nop, .nop]
  | 1 => [.R, .L, .R, .nop, .nop]
  | 2 => [.L, .R, .L, .R, .nop]
  | 3 => [.R, .L, .R, .L, .nop]
  | 4 => [.L, .R, .S, .L, .nop]
  | 5 => [.R, .L, .S, .R, .nop]
  | 6 => [.L, .S, .R, .L, .nop]
  | 7 => [.R, .S, .L, .R, .nop]
  | 8 => [.L, .R, .S, .R, .nop]
  | 9 => [.R, .L, .S, .L, .nop]
  | 10 => [.R, .S, .R, .L, .nop]
  | 11 => [.L, .S, .L, .R, .nop]
  | 12 => [.L, .S, .R, .nop, .nop]
  | 13 => [.R, .S, .L, .nop, .nop]
  | 14 => [.L, .S, .L, .nop, .nop]
  | 15 => [.R, .S, .R, .nop, .nop]
  | 16 => [.L, .R, .S, .L, .R]
  | 17 => [.R, .L, .S, .R, .L]
  | _ => []

/-- `xy.cwiseProduct (oneMP)`: reeds-shepp-path.cc:68. -/
def oneMP (z : ℂ) : ℂ := ⟨-1 * z.re, 1 * z.im⟩

/-- `xy.cwiseProduct (onePM)`: reeds-shepp-path.cc:69. -/
def onePM (z : ℂ) : ℂ := ⟨1 * z.re, -1 * z.im⟩

/-- `xyb`: reeds-shepp-path.cc:277-279, 488-490. -/
def xyb (z h : ℂ) : ℂ := ⟨z.re * h.re + z.im * h.im, z.re * h.im - z.im * h.re⟩

/-- Arguments of a call to `setupPath` and the length `L` it is subject to: reeds-shepp-path.cc:169-179. -/
structure Cand where
  typeId : ℕ
  lens : List ℝ
  L : ℝ

/-- Four calls to a formula: direct, time flipped, reflected, both: e.g. reeds-shepp-path.cc:184-208. The lengths are negated by time flips. -/
noncomputable def four (f : ℂ → ℂ → ℝ → Option Lens) (id1 id2 : ℕ) (lens : Lens → List ℝ) (L : Lens → ℝ) (z h : ℂ) (phi : ℝ) : List (Option Cand) :=
  [(f z h phi).map fun l => ⟨id1, lens l, L l⟩,
   (f (oneMP z) (onePM h) (-phi)).map fun l => ⟨id1, (lens l).map (- ·), L l⟩,
   (f (onePM z) (onePM h) (-phi)).map fun l => ⟨id2, lens l, L l⟩,
   (f (-z) h phi).map fun l => ⟨id2, (lens l).map (- ·), L l⟩]

/-- `fabs (t) + fabs (u) + fabs (v)` -/
def sumAbs (l : Lens) : ℝ := |l.t| + |l.p| + |l.q|

/-- `fabs (t) + 2 * fabs (u) + fabs (v)` -/
def sumAbs2 (l : Lens) : ℝ := |l.t| + 2 * |l.p| + |l.q|

/-- Calls of `CSC`: reeds-shepp-path.cc:181-231. -/
noncomputable def candCSC (zero : ℝ) (z h : ℂ) (phi : ℝ) : List (Option Cand) :=
  four (LpSpLp zero) 14 15 (fun l => [l.t, l.p, l.q, 0, 0]) sumAbs z h phi ++ four (LpSpRp zero) 12 13 (fun l => [l.t, l.p, l.q, 0, 0]) sumAbs z h phi

/-- Calls of `CCC`: reeds-shepp-path.cc:249-304. -/
noncomputable def candCCC (zero : ℝ) (z h : ℂ) (phi : ℝ) : List (Option Cand) :=
  four (LpRmL zero) 0 1 (fun l => [l.t, l.p, l.q, 0, 0]) sumAbs z h phi ++ four (LpRmL zero) 0 1 (fun l => [l.q, l.p, l.t, 0, 0]) sumAbs (xyb z h) h phi

/-- Calls of `CCCC`: reeds-shepp-path.cc:343-394. -/
noncomputable def candCCCC (zero : ℝ) (z h : ℂ) (phi : ℝ) : List (Option Cand) :=
  four (LpRupLumRm zero) 2 3 (fun l => [l.t, l.p, -l.p, l.q, 0]) sumAbs2 z h phi ++ four (LpRumLumRp zero) 2 3 (fun l => [l.t, l.p, l.p, l.q, 0]) sumAbs2 z h phi

/-- Calls of `CCSC`: reeds-shepp-path.cc:432-543. -/
noncomputable def candCCSC (zero : ℝ) (z h : ℂ) (phi : ℝ) : List (Option Cand) :=
  four (LpRmSmLm zero) 4 5 (fun l => [l.t, -(1 / 2 * Real.pi), l.p, l.q, 0]) sumAbs z h phi ++
  four (LpRmSmRm zero) 8 9 (fun l => [l.t, -(1 / 2 * Real.pi), l.p, l.q, 0]) sumAbs z h phi ++
  four (LpRmSmLm zero) 6 7 (fun l => [l.q, l.p, -(1 / 2 * Real.pi), l.t, 0]) sumAbs (xyb z h) h phi ++
  four (LpRmSmRm zero) 10 11 (fun l => [l.q, l.p, -(1 / 2 * Real.pi), l.t, 0]) sumAbs (xyb z h) h phi

/-- Calls of `CCSCC`: reeds-shepp-path.cc:565-590. -/
noncomputable def candCCSCC (zero : ℝ) (z h : ℂ) (phi : ℝ) : List (Option Cand) :=
  four (LpRmSLmRp zero) 16 17 (fun l => [l.t, -(1 / 2 * Real.pi), l.p, -(1 / 2 * Real.pi), l.q]) sumAbs z h phi

/-- `Data` without the radius: reeds-shepp-path.cc:49-57; `none`: type and lengths not set, infinite length. -/
structure Data where
  typeId : ℕ
  lens : List ℝ
  rsLength : ℝ

/-- `lengths.lpNorm<1> ()` -/
def l1 (l : List ℝ) : ℝ := (l.map (|·|)).sum

/-- `setupPath`: reeds-shepp-path.cc:169-179. -/
def setupPath (rho : ℝ) (c : Cand) : Data := ⟨c.typeId, c.lens, rho * l1 c.lens⟩

/-- One call of a family: e.g. reeds-shepp-path.cc:184-188. The state is the data and `Lmin` (`none`: infinity). -/
noncomputable def famStep (rho : ℝ) (st : Option Data × Option ℝ) (c : Option Cand) : Option Data × Option ℝ :=
  match c with
  | none => st
  | some c =>
    match st.2 with
    | none => (some (setupPath rho c), some c.L)
    | some m => if c.L < m then (some (setupPath rho c), some c.L) else st

/-- A family: `Lmin` is initialised with the length of the data minus `off`: reeds-shepp-path.cc:183, 251, 345, 434, 567. -/
noncomputable def family (rho off : ℝ) (cs : List (Option Cand)) (d : Option Data) : Option Data :=
  (cs.foldl (famStep rho) (d, d.map fun d => d.rsLength - off)).1

/-- The families, with their offsets: reeds-shepp-path.cc:638-642. -/
noncomputable def families (zero : ℝ) (z h : ℂ) (phi : ℝ) : List (ℝ × List (Option Cand)) :=
  [(0, candCSC zero z h phi), (0, candCCC zero z h phi), (0, candCCCC zero z h phi), (1 / 2 * Real.pi, candCCSC zero z h phi), (Real.pi, candCCSCC zero z h phi)]

/-- The choice of a word: reeds-shepp-path.cc:608, 638-642. -/
noncomputable def rsBest (zero rho : ℝ) (z h : ℂ) (phi : ℝ) : Option Data :=
  (families zero z h phi).foldl (fun d f => family rho f.1 f.2 d) none

/-- The word of a type and lengths. -/
def word (id : ℕ) (lens : List ℝ) : List (ℝ × ℝ) := ((types id).map Turn.curv).zip lens

/-! ## Symmetries -/

theorem disp_neg (k t : ℝ) : disp k (-t) = -(starRingEnd ℂ) (disp k t) := by
  unfold disp
  split
  · rw [Complex.ext_iff]; simp
  · rw [Complex.ext_iff]; simp [neg_div]

theorem disp_neg_curv (k t : ℝ) : disp (-k) t = (starRingEnd ℂ) (disp k t) := by
  unfold disp
  by_cases h : k = 0
  · simp only [h, neg_zero, if_true]; rw [Complex.ext_iff]; simp
  · rw [if_neg (neg_ne_zero.2 h), if_neg h, Complex.ext_iff]
    constructor
    · simp
    · simp; rw [← neg_div, div_neg, neg_div]

/-- Time flip. -/
def flipT (p : Pose) : Pose := (-(starRingEnd ℂ) p.1, (starRingEnd ℂ) p.2)

/-- Reflection. -/
def flipR (p : Pose) : Pose := ((starRingEnd ℂ) p.1, (starRingEnd ℂ) p.2)

theorem run_flipT (w : List (ℝ × ℝ)) (p : Pose) : run (w.map fun s => (s.1, -s.2)) (flipT p) = flipT (run w p) := by
  induction w generalizing p with
  | nil => rfl
  | cons a w ih =>
    obtain ⟨k, t⟩ := a
    show run _ (move k (-t) (flipT p)) = _
    have : move k (-t) (flipT p) = flipT (move k t p) := by
      unfold move flipT
      simp only [disp_neg, mul_neg, map_add, map_mul, cis_conj, Prod.mk.injEq, and_true]
      ring
    rw [this]
    exact ih _

theorem run_flipR (w : List (ℝ × ℝ)) (p : Pose) : run (w.map fun s => (-s.1, s.2)) (flipR p) = flipR (run w p) := by
  induction w generalizing p with
  | nil => rfl
  | cons a w ih =>
    obtain ⟨k, t⟩ := a
    show run _ (move (-k) t (flipR p)) = _
    have : move (-k) t (flipR p) = flipR (move k t p) := by
      unfold move flipR
      simp only [disp_neg_curv, neg_mul, map_add, map_mul, cis_conj]
    rw [this]
    exact ih _

theorem flipT_start : flipT start = start := by simp [flipT, start]
theorem flipR_start : flipR start = start := by simp [flipR, start]

/-- Composition of poses. -/
noncomputable def act (p q : Pose) : Pose := (p.1 + p.2 * q.1, p.2 * q.2)

theorem act_assoc (p q r : Pose) : act (act p q) r = act p (act q r) := by
  unfold act; simp only [Prod.mk.injEq]; constructor <;> ring

theorem act_start (p : Pose) : act p start = p := by simp [act, start]

theorem start_act (p : Pose) : act start p = p := by simp [act, start]

theorem move_act (k t : ℝ) (p : Pose) : move k t p = act p (move k t start) := by
  simp [move, act, start]

theorem run_act (w : List (ℝ × ℝ)) (p : Pose) : run w p = act p (run w start) := by
  induction w generalizing p with
  | nil => exact (act_start p).symm
  | cons a w ih =>
    show run w (move a.1 a.2 p) = act p (run w (move a.1 a.2 start))
    rw [ih, ih (move a.1 a.2 start), ← act_assoc, ← move_act]

theorem run_append (v w : List (ℝ × ℝ)) (p : Pose) : run (v ++ w) p = run w (run v p) := by
  induction v generalizing p with
  | nil => rfl
  | cons a v ih => exact ih _

theorem norm_run (w : List (ℝ × ℝ)) (p : Pose) : ‖(run w p).2‖ = ‖p.2‖ := by
  induction w generalizing p with
  | nil => rfl
  | cons a w ih =>
    show ‖(run w (move a.1 a.2 p)).2‖ = _
    rw [ih]
    simp [move, norm_cis]

/-- The same word in the opposite order. -/
noncomputable def flipB (p : Pose) : Pose := (p.2 * (starRingEnd ℂ) p.1, p.2)

theorem conj_unit {h : ℂ} (hh : ‖h‖ = 1) : h * (starRingEnd ℂ) h = 1 := by
  rw [Complex.mul_conj, Complex.normSq_eq_norm_sq, hh]; simp

theorem flipB_act (p q : Pose) (hp : ‖p.2‖ = 1) : flipB (act p q) = act (flipB q) (flipB p) := by
  unfold flipB act
  have := conj_unit hp
  simp only [map_add, map_mul, Prod.mk.injEq]
  constructor
  · linear_combination q.2 * (starRingEnd ℂ) q.1 * this
  · ring

theorem flipB_move (k t : ℝ) : flipB (move k t start) = move k t start := by
  unfold flipB move start
  simp only [zero_add, one_mul, Prod.mk.injEq, and_true]
  have h := disp_add k t (-t)
  rw [add_neg_cancel, disp_zero, disp_neg] at h
  linear_combination h

theorem run_reverse (w : List (ℝ × ℝ)) : run w.reverse start = flipB (run w start) := by
  induction w with
  | nil => simp [run, flipB, start]
  | cons a w ih =>
    rw [List.reverse_cons, run_append, ih]
    show move a.1 a.2 _ = flipB (run w (move a.1 a.2 start))
    rw [run_act w (move a.1 a.2 start), flipB_act _ _ (by simp [move, start, norm_cis]), flipB_move, ← move_act]

theorem oneMP_eq (z : ℂ) : oneMP z = -(starRingEnd ℂ) z := by
  unfold oneMP; rw [Complex.ext_iff]; simp

theorem onePM_eq (z : ℂ) : onePM z = (starRingEnd ℂ) z := by
  unfold onePM; rw [Complex.ext_iff]; simp

theorem xyb_eq (z h : ℂ) : xyb z h = h * (starRingEnd ℂ) z := by
  unfold xyb; rw [Complex.ext_iff]; simp; constructor <;> ring

theorem word_neg (id : ℕ) (lens : List ℝ) : word id (lens.map (- ·)) = (word id lens).map fun s => (s.1, -s.2) := by
  unfold word
  generalize (types id).map Turn.curv = ks
  induction ks generalizing lens with
  | nil => rfl
  | cons k ks ih =>
    cases lens with
    | nil => rfl
    | cons l lens => simp [ih]

/-! ## Candidates -/

/-- A word leads to the target. -/
def Leads (z h : ℂ) (w : List (ℝ × ℝ)) : Prop := run w start = (z, h)

/-- The lengths of the segments that are not built are null. -/
def Nops (ts : List Turn) (l : List ℝ) : Prop := ∀ s ∈ ts.zip l, s.1 = .nop → s.2 = 0

theorem Nops.neg {ts : List Turn} {l : List ℝ} (h : Nops ts l) : Nops ts (l.map (- ·)) := by
  induction ts generalizing l with
  | nil => intro s hs; cases hs
  | cons t ts ih =>
    cases l with
    | nil => intro s hs; cases hs
    | cons a l =>
      have h' : Nops ts l := fun s hs => h s (List.mem_cons_of_mem _ hs)
      intro s hs hn
      rcases List.mem_cons.1 hs with e | e
      · rw [e] at hn ⊢
        have := h (t, a) (List.mem_cons_self ..) hn
        simp only at this ⊢
        rw [this, neg_zero]
      · exact ih h' s e hn

theorem Nops.cons {t : Turn} {ts : List Turn} {a : ℝ} {l : List ℝ} (h1 : t ≠ .nop ∨ a = 0) (h : Nops ts l) : Nops (t :: ts) (a :: l) := by
  intro s hs hn
  rcases List.mem_cons.1 hs with e | e
  · rw [e] at hn ⊢
    rcases h1 with h1 | h1
    · exact absurd hn h1
    · exact h1
  · exact h s e hn

theorem Nops.nil : Nops [] [] := fun s hs => by cases hs

/-- A candidate leads to the target, and its length is `L` plus the offset of its family. -/
def Cand.Good (z h : ℂ) (off : ℝ) (c : Cand) : Prop :=
  Leads z h (word c.typeId c.lens) ∧ l1 c.lens = c.L + off ∧ (types c.typeId).length = 5 ∧ c.lens.length = 5 ∧ Nops (types c.typeId) c.lens

theorem l1_neg (l : List ℝ) : l1 (l.map (- ·)) = l1 l := by
  unfold l1
  rw [List.map_map]
  congr 1
  refine List.map_congr_left fun x _ => ?_
  simp

theorem four_good {f : ℂ → ℂ → ℝ → Option Lens} {id1 id2 : ℕ} {lens : Lens → List ℝ} {L : Lens → ℝ} {off : ℝ}
    (hf : ∀ z h phi l, cis phi = h → f z h phi = some l → Leads z h (word id1 (lens l)))
    (hL : ∀ z h phi l, f z h phi = some l → l1 (lens l) = L l + off) (h5 : ∀ l, (lens l).length = 5) (hn1 : ∀ l, Nops (types id1) (lens l)) (hn2 : ∀ l, Nops (types id2) (lens l)) (h1 : (types id1).length = 5)
    (h2 : (types id2).map Turn.curv = (types id1).map fun t => -t.curv) {z h : ℂ} {phi : ℝ} (hh : cis phi = h) {c : Cand} (hc : some c ∈ four f id1 id2 lens L z h phi) :
    c.Good z h off := by
  have h2' : (types id2).length = 5 := by
    have := congrArg List.length h2
    rw [List.length_map, List.length_map] at this
    rw [this, h1]
  have hw : ∀ l, word id2 l = (word id1 l).map fun s => (-s.1, s.2) := by
    intro l
    unfold word
    rw [h2]
    generalize types id1 = ts
    induction ts generalizing l with
    | nil => rfl
    | cons t ts ih =>
      cases l with
      | nil => rfl
      | cons a l => simp [ih]
  have hh' : cis (-phi) = onePM h := by rw [← cis_conj, hh, onePM_eq]
  unfold four at hc
  simp only [List.mem_cons, List.not_mem_nil, or_false] at hc
  unfold Cand.Good
  rcases hc with hc | hc | hc | hc
  · obtain ⟨l, hl, e⟩ := Option.map_eq_some_iff.1 hc.symm
    rw [← e]
    exact ⟨hf _ _ _ _ hh hl, hL _ _ _ _ hl, h1, h5 l, hn1 l⟩
  · obtain ⟨l, hl, e⟩ := Option.map_eq_some_iff.1 hc.symm
    rw [← e]
    refine ⟨?_, by simp only; rw [l1_neg]; exact hL _ _ _ _ hl, h1, by simp only; rw [List.length_map]; exact h5 l, (hn1 l).neg⟩
    have := hf _ _ _ _ hh' hl
    unfold Leads at this ⊢
    simp only
    rw [word_neg, ← flipT_start, run_flipT, this, oneMP_eq, onePM_eq]
    simp [flipT]
  · obtain ⟨l, hl, e⟩ := Option.map_eq_some_iff.1 hc.symm
    rw [← e]
    refine ⟨?_, hL _ _ _ _ hl, h2', h5 l, hn2 l⟩
    have := hf _ _ _ _ hh' hl
    unfold Leads at this ⊢
    simp only
    rw [hw, ← flipR_start, run_flipR, this, onePM_eq, onePM_eq]
    simp [flipR]
  · obtain ⟨l, hl, e⟩ := Option.map_eq_some_iff.1 hc.symm
    rw [← e]
    refine ⟨?_, by simp only; rw [l1_neg]; exact hL _ _ _ _ hl, h2', by simp only; rw [List.length_map]; exact h5 l, (hn2 l).neg⟩
    have := hf _ _ _ _ hh hl
    unfold Leads at this ⊢
    simp only
    rw [word_neg, hw, ← flipT_start, run_flipT, ← flipR_start, run_flipR, this]
    simp [flipT, flipR]

/-- Calls with the target seen backwards. -/
theorem four_back (f : ℂ → ℂ → ℝ → Option Lens) (id1 id2 : ℕ) (lens : Lens → List ℝ) (L : Lens → ℝ) (z h : ℂ) (phi : ℝ) :
    four f id1 id2 lens L (xyb z h) h phi = four (fun z h phi => f (xyb z h) h phi) id1 id2 lens L z h phi := by
  have e1 : oneMP (xyb z h) = xyb (oneMP z) (onePM h) := by
    rw [xyb_eq, xyb_eq, oneMP_eq, oneMP_eq, onePM_eq]; simp
  have e2 : onePM (xyb z h) = xyb (onePM z) (onePM h) := by
    rw [xyb_eq, xyb_eq, onePM_eq, onePM_eq, onePM_eq]; simp
  have e3 : -xyb z h = xyb (-z) h := by
    rw [xyb_eq, xyb_eq]; simp
  unfold four
  rw [e1, e2, e3]

/-- A word found with the target seen backwards. -/
theorem leads_back {z h : ℂ} {phi : ℝ} (hh : cis phi = h) {w : List (ℝ × ℝ)} (hw : Leads (xyb z h) h w) : Leads z h w.reverse := by
  have hu : ‖h‖ = 1 := by rw [← hh, norm_cis]
  have := conj_unit hu
  unfold Leads at hw ⊢
  rw [run_reverse, hw, xyb_eq]
  unfold flipB
  simp only [map_mul, Complex.conj_conj, Prod.mk.injEq, and_true]
  linear_combination z * this

theorem run_nop {w v : List (ℝ × ℝ)} (hw : ∀ p, run w p = run v p) {z h : ℂ} (hv : Leads z h v) : Leads z h w := (hw _).trans hv

theorem csc_good {zero : ℝ} {z h : ℂ} {phi : ℝ} (hh : cis phi = h) {c : Cand} (hc : some c ∈ candCSC zero z h phi) : c.Good z h 0 := by
  have hl : ∀ l : Lens, l1 [l.t, l.p, l.q, 0, 0] = sumAbs l + 0 := fun l => by simp [l1, sumAbs, add_assoc]
  rcases List.mem_append.1 hc with hc | hc
  · refine four_good (fun z h phi l hh hl => ?_) (fun _ _ _ l _ => hl l) (fun l => rfl) (fun l => by simp [Nops, types]) (fun l => by simp [Nops, types]) rfl (by simp [types, Turn.curv]) hh hc
    refine run_nop (fun p => ?_) (LpSpLp_reaches hh hl)
    simp [word, types, Turn.curv, run, move_zero]
  · refine four_good (fun z h phi l hh hl => ?_) (fun _ _ _ l _ => hl l) (fun l => rfl) (fun l => by simp [Nops, types]) (fun l => by simp [Nops, types]) rfl (by simp [types, Turn.curv]) hh hc
    refine run_nop (fun p => ?_) (LpSpRp_reaches hh hl)
    simp [word, types, Turn.curv, run, move_zero]

theorem ccc_good {zero : ℝ} {z h : ℂ} {phi : ℝ} (hh : cis phi = h) {c : Cand} (hc : some c ∈ candCCC zero z h phi) : c.Good z h 0 := by
  rcases List.mem_append.1 hc with hc | hc
  · refine four_good (fun z h phi l hh hl => ?_) (fun _ _ _ l _ => by simp [l1, sumAbs, add_assoc]) (fun l => rfl) (fun l => by simp [Nops, types]) (fun l => by simp [Nops, types]) rfl (by simp [types, Turn.curv]) hh hc
    refine run_nop (fun p => ?_) (LpRmL_reaches hh hl)
    simp [word, types, Turn.curv, run, move_zero]
  · rw [four_back] at hc
    refine four_good (fun z h phi l hh hl => ?_) (fun _ _ _ l _ => by simp [l1, sumAbs]; ring) (fun l => rfl) (fun l => by simp [Nops, types]) (fun l => by simp [Nops, types]) rfl (by simp [types, Turn.curv]) hh hc
    refine run_nop (fun p => ?_) (leads_back hh (LpRmL_reaches hh hl))
    simp [word, types, Turn.curv, run, move_zero]

theorem cccc_good {zero : ℝ} {z h : ℂ} {phi : ℝ} (hh : cis phi = h) {c : Cand} (hc : some c ∈ candCCCC zero z h phi) : c.Good z h 0 := by
  rcases List.mem_append.1 hc with hc | hc
  · refine four_good (fun z h phi l hh hl => ?_) (fun _ _ _ l _ => by simp [l1, sumAbs2]; ring) (fun l => rfl) (fun l => by simp [Nops, types]) (fun l => by simp [Nops, types]) rfl (by simp [types, Turn.curv]) hh hc
    refine run_nop (fun p => ?_) (LpRupLumRm_reaches hh hl)
    simp [word, types, Turn.curv, run, move_zero]
  · refine four_good (fun z h phi l hh hl => ?_) (fun _ _ _ l _ => by simp [l1, sumAbs2]; ring) (fun l => rfl) (fun l => by simp [Nops, types]) (fun l => by simp [Nops, types]) rfl (by simp [types, Turn.curv]) hh hc
    refine run_nop (fun p => ?_) (LpRumLumRp_reaches hh hl)
    simp [word, types, Turn.curv, run, move_zero]

theorem abs_half_pi : |1 / 2 * Real.pi| = 1 / 2 * Real.pi := abs_of_pos (by have := Real.pi_pos; positivity)

theorem ccsc_good {zero : ℝ} {z h : ℂ} {phi : ℝ} (hh : cis phi = h) {c : Cand} (hc : some c ∈ candCCSC zero z h phi) : c.Good z h (1 / 2 * Real.pi) := by
  have a1 : ∀ l : Lens, l1 [l.t, -(1 / 2 * Real.pi), l.p, l.q, 0] = sumAbs l + 1 / 2 * Real.pi := fun l => by
    simp only [l1, sumAbs, List.map_cons, List.map_nil, List.sum_cons, List.sum_nil, abs_neg, abs_half_pi, abs_zero]; ring
  have a2 : ∀ l : Lens, l1 [l.q, l.p, -(1 / 2 * Real.pi), l.t, 0] = sumAbs l + 1 / 2 * Real.pi := fun l => by
    simp only [l1, sumAbs, List.map_cons, List.map_nil, List.sum_cons, List.sum_nil, abs_neg, abs_half_pi, abs_zero]; ring
  rcases List.mem_append.1 hc with hc | hc
  · rcases List.mem_append.1 hc with hc | hc
    · rcases List.mem_append.1 hc with hc | hc
      · refine four_good (fun z h phi l hh hl => ?_) (fun _ _ _ l _ => a1 l) (fun l => rfl) (fun l => by simp [Nops, types]) (fun l => by simp [Nops, types]) rfl (by simp [types, Turn.curv]) hh hc
        refine run_nop (fun p => ?_) (LpRmSmLm_reaches hh hl)
        simp [word, types, Turn.curv, run, move_zero]
      · refine four_good (fun z h phi l hh hl => ?_) (fun _ _ _ l _ => a1 l) (fun l => rfl) (fun l => by simp [Nops, types]) (fun l => by simp [Nops, types]) rfl (by simp [types, Turn.curv]) hh hc
        refine run_nop (fun p => ?_) (LpRmSmRm_reaches hh hl)
        simp [word, types, Turn.curv, run, move_zero]
    · rw [four_back] at hc
      refine four_good (fun z h phi l hh hl => ?_) (fun _ _ _ l _ => a2 l) (fun l => rfl) (fun l => by simp [Nops, types]) (fun l => by simp [Nops, types]) rfl (by simp [types, Turn.curv]) hh hc
      refine run_nop (fun p => ?_) (leads_back hh (LpRmSmLm_reaches hh hl))
      simp [word, types, Turn.curv, run, move_zero]
  · rw [four_back] at hc
    refine four_good (fun z h phi l hh hl => ?_) (fun _ _ _ l _ => a2 l) (fun l => rfl) (fun l => by simp [Nops, types]) (fun l => by simp [Nops, types]) rfl (by simp [types, Turn.curv]) hh hc
    refine run_nop (fun p => ?_) (leads_back hh (LpRmSmRm_reaches hh hl))
    simp [word, types, Turn.curv, run, move_zero]

theorem ccscc_good {zero : ℝ} {z h : ℂ} {phi : ℝ} (hh : cis phi = h) {c : Cand} (hc : some c ∈ candCCSCC zero z h phi) : c.Good z h Real.pi := by
  refine four_good (fun z h phi l hh hl => ?_) (fun _ _ _ l _ => ?_) (fun l => rfl) (fun l => by simp [Nops, types]) (fun l => by simp [Nops, types]) rfl (by simp [types, Turn.curv]) hh hc
  · refine run_nop (fun p => ?_) (LpRmSLmRp_reaches hh hl)
    simp [word, types, Turn.curv, run]
  · simp only [l1, sumAbs, List.map_cons, List.map_nil, List.sum_cons, List.sum_nil, abs_neg, abs_half_pi]; ring

theorem families_good {zero : ℝ} {z h : ℂ} {phi : ℝ} (hh : cis phi = h) {f : ℝ × List (Option Cand)} (hf : f ∈ families zero z h phi) {c : Cand} (hc : some c ∈ f.2) :
    c.Good z h f.1 := by
  simp only [families, List.mem_cons, List.not_mem_nil, or_false] at hf
  rcases hf with rfl | rfl | rfl | rfl | rfl
  · exact csc_good hh hc
  · exact ccc_good hh hc
  · exact cccc_good hh hc
  · exact ccsc_good hh hc
  · exact ccscc_good hh hc

/-! ## The word chosen -/

/-- The candidates of all the families. -/
noncomputable def allCands (zero : ℝ) (z h : ℂ) (phi : ℝ) : List Cand := (families zero z h phi).flatMap fun f => f.2.filterMap id

theorem mem_all {zero : ℝ} {z h : ℂ} {phi : ℝ} {c : Cand} : c ∈ allCands zero z h phi ↔ ∃ f ∈ families zero z h phi, some c ∈ f.2 := by
  simp [allCands]

/-- The state of a family: the data come from a candidate or are those at the beginning. -/
theorem fam_from (rho : ℝ) (cs : List (Option Cand)) (st : Option Data × Option ℝ) :
    (cs.foldl (famStep rho) st).1 = st.1 ∨ ∃ c, some c ∈ cs ∧ (cs.foldl (famStep rho) st).1 = some (setupPath rho c) := by
  induction cs generalizing st with
  | nil => left; rfl
  | cons a cs ih =>
    rw [List.foldl_cons]
    rcases ih (famStep rho st a) with h | ⟨c, hc, h⟩
    · rw [h]
      cases a with
      | none => left; rfl
      | some c =>
        unfold famStep
        cases hm : st.2 with
        | none => right; exact ⟨c, List.mem_cons_self .., by simp only⟩
        | some m =>
          simp only
          by_cases hlt : c.L < m
          · rw [if_pos hlt]; right; exact ⟨c, List.mem_cons_self .., rfl⟩
          · rw [if_neg hlt]; left; rfl
    · right; exact ⟨c, List.mem_cons_of_mem _ hc, h⟩

theorem fam_some (rho : ℝ) (cs : List (Option Cand)) (st : Option Data × Option ℝ) (h : st.1.isSome) : (cs.foldl (famStep rho) st).1.isSome := by
  rcases fam_from rho cs st with e | ⟨c, _, e⟩
  · rw [e]; exact h
  · rw [e]; rfl

theorem fam_found (rho : ℝ) (cs : List (Option Cand)) (st : Option Data × Option ℝ) (hst : st.2.isSome → st.1.isSome) {c : Cand} (hc : some c ∈ cs) :
    (cs.foldl (famStep rho) st).1.isSome := by
  induction cs generalizing st with
  | nil => cases hc
  | cons a cs ih =>
    rw [List.foldl_cons]
    rcases List.mem_cons.1 hc with h | h
    · subst h
      refine fam_some rho cs _ ?_
      unfold famStep
      cases hm : st.2 with
      | none => rfl
      | some m =>
        simp only
        split
        · rfl
        · exact hst (by rw [hm]; rfl)
    · refine ih _ ?_ h
      cases a with
      | none => exact hst
      | some c =>
        unfold famStep
        cases hm : st.2 with
        | none => exact fun _ => rfl
        | some m =>
          simp only
          split
          · exact fun _ => rfl
          · exact hst

/-- With the radius 1, a family keeps the shortest of the candidates. -/
theorem fam_min {off : ℝ} {z h : ℂ} (cs : List (Option Cand)) (hg : ∀ c, some c ∈ cs → c.Good z h off) (st : Option Data × Option ℝ)
    (hst : st.2 = st.1.map fun d => d.rsLength - off) :
    let r := cs.foldl (famStep 1) st
    r.2 = (r.1.map fun d => d.rsLength - off) ∧ (∀ d, st.1 = some d → ∃ d', r.1 = some d' ∧ d'.rsLength ≤ d.rsLength) ∧
      ∀ c, some c ∈ cs → ∃ d', r.1 = some d' ∧ d'.rsLength ≤ l1 c.lens := by
  induction cs generalizing st with
  | nil => exact ⟨hst, fun d hd => ⟨d, hd, le_rfl⟩, fun c hc => by cases hc⟩
  | cons a cs ih =>
    intro r
    have step : (famStep 1 st a).2 = ((famStep 1 st a).1.map fun d => d.rsLength - off) ∧ (∀ d, st.1 = some d → ∃ d', (famStep 1 st a).1 = some d' ∧ d'.rsLength ≤ d.rsLength) ∧
        ∀ c, a = some c → ∃ d', (famStep 1 st a).1 = some d' ∧ d'.rsLength ≤ l1 c.lens := by
      cases a with
      | none => exact ⟨hst, fun d hd => ⟨d, hd, le_rfl⟩, fun c hc => by cases hc⟩
      | some c =>
        have hl := (hg c (List.mem_cons_self ..)).2.1
        have hset : (setupPath 1 c).rsLength = l1 c.lens := by simp [setupPath]
        unfold famStep
        obtain ⟨d, m⟩ := st
        simp only at hst
        subst hst
        cases d with
        | none =>
          refine ⟨?_, fun d hd => (by cases hd), fun c' hc' => ?_⟩
          · simp only [Option.map_some, hset, hl, add_sub_cancel_right, Option.map_none]
          · cases hc'; exact ⟨_, rfl, hset.le⟩
        | some d =>
          simp only [Option.map_some]
          by_cases hlt : c.L < d.rsLength - off
          · rw [if_pos hlt]
            refine ⟨?_, fun d' hd => ?_, fun c' hc' => ?_⟩
            · simp only [Option.map_some, hset, hl, add_sub_cancel_right]
            · cases hd; exact ⟨_, rfl, by rw [hset, hl]; linarith⟩
            · cases hc'; exact ⟨_, rfl, hset.le⟩
          · rw [if_neg hlt]
            refine ⟨rfl, fun d' hd => ⟨d', hd, le_rfl⟩, fun c' hc' => ?_⟩
            cases hc'; exact ⟨_, rfl, by rw [hl]; linarith [not_lt.1 hlt]⟩
    obtain ⟨i1, i2, i3⟩ := ih (fun c hc => hg c (List.mem_cons_of_mem _ hc)) (famStep 1 st a) step.1
    refine ⟨i1, fun d hd => ?_, fun c hc => ?_⟩
    · obtain ⟨d1, e1, l1⟩ := step.2.1 d hd
      obtain ⟨d2, e2, l2⟩ := i2 d1 e1
      exact ⟨d2, e2, l2.trans l1⟩
    · rcases List.mem_cons.1 hc with h | h
      · obtain ⟨d1, e1, l1⟩ := step.2.2 c h.symm
        obtain ⟨d2, e2, l2⟩ := i2 d1 e1
        exact ⟨d2, e2, l2.trans l1⟩
      · exact i3 c h

theorem best_from (rho : ℝ) (fs : List (ℝ × List (Option Cand))) (d : Option Data) :
    fs.foldl (fun d f => family rho f.1 f.2 d) d = d ∨ ∃ f ∈ fs, ∃ c, some c ∈ f.2 ∧ fs.foldl (fun d f => family rho f.1 f.2 d) d = some (setupPath rho c) := by
  induction fs generalizing d with
  | nil => left; rfl
  | cons f fs ih =>
    rw [List.foldl_cons]
    rcases ih (family rho f.1 f.2 d) with h | ⟨g, hg, c, hc, h⟩
    · rw [h]
      rcases fam_from rho f.2 (d, d.map fun d => d.rsLength - f.1) with e | ⟨c, hc, e⟩
      · left; exact e
      · right; exact ⟨f, List.mem_cons_self .., c, hc, e⟩
    · right; exact ⟨g, List.mem_cons_of_mem _ hg, c, hc, h⟩

theorem best_found (rho : ℝ) (fs : List (ℝ × List (Option Cand))) (d : Option Data) (h : d.isSome ∨ ∃ f ∈ fs, ∃ c, some c ∈ f.2) :
    (fs.foldl (fun d f => family rho f.1 f.2 d) d).isSome := by
  induction fs generalizing d with
  | nil =>
    rcases h with h | ⟨f, hf, _⟩
    · exact h
    · cases hf
  | cons f fs ih =>
    rw [List.foldl_cons]
    refine ih _ ?_
    rcases h with h | ⟨g, hg, c, hc⟩
    · left; exact fam_some rho _ _ h
    · rcases List.mem_cons.1 hg with e | e
      · left
        subst e
        exact fam_found rho _ _ (fun h => by simpa using h) hc
      · right; exact ⟨g, e, c, hc⟩

theorem best_min {z h : ℂ} (fs : List (ℝ × List (Option Cand))) (hg : ∀ f ∈ fs, ∀ c, some c ∈ f.2 → c.Good z h f.1) (d : Option Data) :
    (∀ e, d = some e → ∃ d', fs.foldl (fun d f => family 1 f.1 f.2 d) d = some d' ∧ d'.rsLength ≤ e.rsLength) ∧
      ∀ f ∈ fs, ∀ c, some c ∈ f.2 → ∃ d', fs.foldl (fun d f => family 1 f.1 f.2 d) d = some d' ∧ d'.rsLength ≤ l1 c.lens := by
  induction fs generalizing d with
  | nil => exact ⟨fun e he => ⟨e, he, le_rfl⟩, fun f hf => by cases hf⟩
  | cons f fs ih =>
    rw [List.foldl_cons]
    obtain ⟨i1, i2⟩ := ih (fun f hf => hg f (List.mem_cons_of_mem _ hf)) (family 1 f.1 f.2 d)
    obtain ⟨_, m1, m2⟩ := fam_min f.2 (hg f (List.mem_cons_self ..)) (d, d.map fun d => d.rsLength - f.1) rfl
    refine ⟨fun e he => ?_, fun g hgm c hc => ?_⟩
    · obtain ⟨d1, e1, l1⟩ := m1 e he
      obtain ⟨d2, e2, l2⟩ := i1 d1 e1
      exact ⟨d2, e2, l2.trans l1⟩
    · rcases List.mem_cons.1 hgm with h | h
      · subst h
        obtain ⟨d1, e1, l1⟩ := m2 c hc
        obtain ⟨d2, e2, l2⟩ := i1 d1 e1
        exact ⟨d2, e2, l2.trans l1⟩
      · exact i2 g h c hc

/-- C88: all the words the method of Reeds and Shepp considers lead to the target. -/
theorem C88_candidates {zero : ℝ} {z h : ℂ} {phi : ℝ} (hh : cis phi = h) {c : Cand} (hc : c ∈ allCands zero z h phi) :
    run (word c.typeId c.lens) start = (z, h) ∧ (types c.typeId).length = 5 ∧ c.lens.length = 5 ∧ Nops (types c.typeId) c.lens := by
  obtain ⟨f, hf, hc⟩ := mem_all.1 hc
  have := families_good hh hf hc
  exact ⟨this.1, this.2.2.1, this.2.2.2.1, this.2.2.2.2⟩

/-- C88: if one of the words leads to the target, a word is chosen, and it is one of them; its length is the radius times the sum of the lengths of its segments. -/
theorem C88_choice (zero rho : ℝ) (z h : ℂ) (phi : ℝ) :
    (∀ d, rsBest zero rho z h phi = some d → ∃ c ∈ allCands zero z h phi, d.typeId = c.typeId ∧ d.lens = c.lens ∧ d.rsLength = rho * l1 c.lens) ∧
      ((rsBest zero rho z h phi).isSome ↔ ∃ c, c ∈ allCands zero z h phi) := by
  have key : ∀ d, rsBest zero rho z h phi = some d → ∃ c ∈ allCands zero z h phi, d.typeId = c.typeId ∧ d.lens = c.lens ∧ d.rsLength = rho * l1 c.lens := by
    intro d hd
    rcases best_from rho (families zero z h phi) none with e | ⟨f, hf, c, hc, e⟩
    · rw [rsBest, e] at hd; cases hd
    · rw [rsBest, e] at hd
      cases hd
      exact ⟨c, mem_all.2 ⟨f, hf, hc⟩, rfl, rfl, rfl⟩
  refine ⟨key, fun h => ?_, fun ⟨c, hc⟩ => ?_⟩
  · obtain ⟨d, hd⟩ := Option.isSome_iff_exists.1 h
    obtain ⟨c, hc, _⟩ := key d hd
    exact ⟨c, hc⟩
  · obtain ⟨f, hf, hc⟩ := mem_all.1 hc
    exact best_found rho _ none (Or.inr ⟨f, hf, c, hc⟩)

/-- C88: with the radius 1, the word chosen is the shortest of the words considered. -/
theorem C88_shortest_partial {zero : ℝ} {z h : ℂ} {phi : ℝ} (hh : cis phi = h) {c : Cand} (hc : c ∈ allCands zero z h phi) :
    ∃ d, rsBest zero 1 z h phi = some d ∧ l1 d.lens ≤ l1 c.lens ∧ d.rsLength = l1 d.lens := by
  obtain ⟨f, hf, hc'⟩ := mem_all.1 hc
  obtain ⟨d, hd, hle⟩ := (best_min (families zero z h phi) (fun f hf c hc => families_good hh hf hc) none).2 f hf c hc'
  obtain ⟨c', _, _, e2, e3⟩ := (C88_choice zero 1 z h phi).1 d hd
  rw [one_mul, ← e2] at e3
  exact ⟨d, hd, e3 ▸ hle, e3⟩

end Verif.Car.RS
