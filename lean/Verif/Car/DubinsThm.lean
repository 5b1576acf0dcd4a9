import Verif.Car.Shorten
import Mathlib.Topology.Order.Compact
set_option linter.unusedSectionVars false

/-!
# The theorem of Dubins (C87)

No drive of a car, that only rolls forward with a bounded curvature, is shorter than the best word among the six ones of dubins.hh.
-/
namespace Verif.Car
open Complex Set Filter Topology
open scoped Interval ComplexConjugate

variable {E W : Type} [AddCommGroup E] [Module ℝ E]

/-! ## Symmetries -/

theorem disp_neg (k t : ℝ) : disp (-k) t = conj (disp k t) := by
  unfold disp
  by_cases h : k = 0
  · subst h; simp; apply Complex.ext <;> simp
  · rw [if_neg h, if_neg (neg_ne_zero.2 h)]
    apply Complex.ext
    · simp only [conj_re, neg_mul, Real.sin_neg]; field_simp
    · simp only [conj_im, neg_mul, Real.cos_neg]; field_simp

theorem move_frame (k l A' a) (p : Pose) : move k l (frame A' a p) = frame A' a (move k l p) := by
  unfold move frame; refine Prod.ext ?_ ?_ <;> simp only <;> ring

theorem move_mirror (k l) (p : Pose) : move (-k) l (mirror p) = mirror (move k l p) := by
  unfold move mirror
  refine Prod.ext ?_ ?_
  · simp only [disp_neg, map_add, map_mul]
  · simp only [map_mul, cis_conj, neg_mul]

theorem move_back {k : ℝ} (hk : k = 0 ∨ k = 1 ∨ k = -1) (l) (p : Pose) : move (-k) l (turnBack (move k l p)) = turnBack p := by
  have key : disp k l = cis (k * l) * disp (-k) l := by
    rcases hk with rfl | hk
    · simp [disp_line, cis_zero]
    · have hk' : -k = 1 ∨ -k = -1 := by rcases hk with rfl | rfl <;> simp
      rw [disp_unit hk, disp_unit hk']
      have e : cis (k * l) * cis (-k * l) = 1 := by rw [← cis_add, show k * l + -k * l = 0 by ring, cis_zero]
      push_cast
      linear_combination -(k : ℂ) * I * e
  have e : cis (k * l) * cis (-k * l) = 1 := by rw [← cis_add, show k * l + -k * l = 0 by ring, cis_zero]
  unfold move turnBack
  refine Prod.ext ?_ ?_
  · simp only; linear_combination p.2 * key
  · simp only; linear_combination (-p.2) * e

theorem turnBack_turnBack (p : Pose) : turnBack (turnBack p) = p := by unfold turnBack; simp
theorem mirror_mirror (p : Pose) : mirror (mirror p) = p := by unfold mirror; simp

theorem Shorter.frame {p q : Pose} {L : ℝ} (h : Shorter p q L) (A : ℂ) (a : ℝ) : Shorter (frame A a p) (frame A a q) L := by
  obtain ⟨T, h1, h2⟩ := h; exact ⟨T, h1, h2.frame A a⟩
theorem Shorter.mirror {p q : Pose} {L : ℝ} (h : Shorter p q L) : Shorter (mirror p) (mirror q) L := by
  obtain ⟨T, h1, h2⟩ := h; exact ⟨T, h1, h2.mirror⟩
theorem Shorter.back {p q : Pose} {L : ℝ} (h : Shorter p q L) : Shorter (turnBack q) (turnBack p) L := by
  obtain ⟨T, h1, h2⟩ := h; exact ⟨T, h1, h2.back⟩

/-- A heading of norm 1. -/
def Head (p : Pose) : Prop := ∃ a, p.2 = cis a

theorem Head.move {p : Pose} (h : Head p) (k l : ℝ) : Head (move k l p) := by
  obtain ⟨a, h⟩ := h; exact ⟨a + k * l, by rw [Car.move, cis_add, h]⟩

theorem Head.mirror {p : Pose} (h : Head p) : Head (mirror p) := by
  obtain ⟨a, h⟩ := h; exact ⟨-a, by rw [Car.mirror, h, cis_conj]⟩

theorem Head.back {p : Pose} (h : Head p) : Head (turnBack p) := by
  obtain ⟨a, h⟩ := h; exact ⟨a + Real.pi, by rw [turnBack, h, cis_add_pi]⟩

theorem Head.eq_frame {p : Pose} (h : Head p) : ∃ A a, p = Car.frame A a (0, 1) := by
  obtain ⟨a, h⟩ := h; exact ⟨p.1, a, by unfold Car.frame; refine Prod.ext ?_ ?_ <;> simp [h]⟩

theorem Head.eq_Lp {p : Pose} (h : Head p) : ∃ c a, p = Lp c a := by
  obtain ⟨a, h⟩ := h; exact ⟨p.1 + I * cis a, a, by unfold Lp; refine Prod.ext ?_ ?_ <;> simp [h]⟩

theorem mirror_start : mirror (0, 1) = (0, 1) := by unfold mirror; simp

/-- A line, a turn, and something else. -/
theorem shorter_SCX {p : Pose} (hp : Head p) {e f s b x : ℝ} (he : e = 1 ∨ e = -1) (hf : f = 0 ∨ f = -e) (hs : 0 < s) (hb : 0 < b) (hb' : b < 2 * Real.pi) (hx : 0 < x) :
    Shorter p (move f x (move e b (move 0 s p))) (s + b + x) := by
  obtain ⟨A, a, rfl⟩ := hp.eq_frame
  rw [move_frame, move_frame, move_frame]
  apply Shorter.frame
  rcases he with rfl | rfl
  · have key : ∀ g : ℝ, g = 0 ∨ g = 1 → Shorter (0, 1) (move g x (move (-1) b (move 0 s (0, 1)))) (s + b + x) := by
      rintro g (rfl | rfl)
      · exact shorter_SRS hs hb hb' hx
      · exact shorter_SRL hs hb hb' hx
    have := (key (-f) (by rcases hf with rfl | rfl <;> simp)).mirror
    rw [← move_mirror, ← move_mirror, ← move_mirror, mirror_start] at this
    simpa using this
  · rcases hf with rfl | rfl
    · exact shorter_SRS hs hb hb' hx
    · rw [neg_neg]; exact shorter_SRL hs hb hb' hx

/-- The same backward. -/
theorem shorter_XCS {p : Pose} (hp : Head p) {e f s b x : ℝ} (he : e = 1 ∨ e = -1) (hf : f = 0 ∨ f = -e) (hs : 0 < s) (hb : 0 < b) (hb' : b < 2 * Real.pi) (hx : 0 < x) :
    Shorter p (move 0 s (move e b (move f x p))) (x + b + s) := by
  have he' : e = 0 ∨ e = 1 ∨ e = -1 := Or.inr he
  have hf' : f = 0 ∨ f = 1 ∨ f = -1 := by rcases hf with h | h <;> rcases he with h' | h' <;> simp [h, h']
  have hq : Head (turnBack (move 0 s (move e b (move f x p)))) := (((hp.move f x).move e b).move 0 s).back
  have := shorter_SCX hq (e := -e) (f := -f) (s := s) (b := b) (x := x) (by rcases he with h | h <;> simp [h]) (by rcases hf with h | h <;> simp [h]) hs hb hb' hx
  have e0 := move_back (k := 0) (Or.inl rfl) s (move e b (move f x p))
  rw [neg_zero] at e0
  rw [e0, move_back he', move_back hf'] at this
  have := this.back
  rwa [turnBack_turnBack, turnBack_turnBack, show s + b + x = x + b + s by ring] at this

/-- Three turns. -/
theorem shorter_CCC {p : Pose} (hp : Head p) {e a b c : ℝ} (he : e = 1 ∨ e = -1) (ha : 0 < a) (hb : 0 < b) (hb' : b ≤ Real.pi) (hc : 0 < c) :
    Shorter p (move e c (move (-e) b (move e a p))) (a + b + c) := by
  rcases he with rfl | rfl
  · obtain ⟨C, η, rfl⟩ := hp.eq_Lp
    exact shorter_LRL C η ha hb hb' hc
  · obtain ⟨C, η, h⟩ := hp.mirror.eq_Lp
    have := (shorter_LRL C η ha hb hb' hc).mirror
    rw [← h, ← move_mirror, ← move_mirror, ← move_mirror, mirror_mirror] at this
    exact this

/-- Four turns. -/
theorem shorter_CCCC {p : Pose} (hp : Head p) {e a b c d : ℝ} (he : e = 1 ∨ e = -1) (ha : 0 < a) (hb : Real.pi < b) (hb' : b < 2 * Real.pi) (hc : Real.pi < c)
    (hc' : c < 2 * Real.pi) (hd : 0 < d) : Shorter p (move (-e) d (move e c (move (-e) b (move e a p)))) (a + b + c + d) := by
  rcases he with rfl | rfl
  · obtain ⟨C, η, rfl⟩ := hp.eq_Lp
    exact shorter_LRLR C η ha hb hb' hc hc' hd
  · obtain ⟨C, η, h⟩ := hp.mirror.eq_Lp
    have := (shorter_LRLR C η ha hb hb' hc hc' hd).mirror
    rw [← h, ← move_mirror, ← move_mirror, ← move_mirror, ← move_mirror, mirror_mirror] at this
    exact this

/-- A turn longer than a whole one. -/
theorem shorter_loop {p : Pose} (hp : Head p) {e b : ℝ} (he : e = 1 ∨ e = -1) (hb : 2 * Real.pi ≤ b) : Shorter p (move e b p) b := by
  have e1 : move e b p = move e (b - 2 * Real.pi) p := by
    have hc : cis (e * b) = cis (e * (b - 2 * Real.pi)) := by
      rcases he with rfl | rfl
      · have := cis_int (1 * (b - 2 * Real.pi)) 1
        rw [← this]; congr 1; push_cast; ring
      · have := cis_int (-1 * (b - 2 * Real.pi)) (-1)
        rw [← this]; congr 1; push_cast; ring
    unfold move
    rw [disp_unit he, disp_unit he, hc]
  rw [e1]
  refine ⟨b - 2 * Real.pi, by linarith [Real.pi_pos], Drivable.seg hp ?_ (by linarith)⟩
  rcases he with rfl | rfl <;> simp

/-! ## Words -/

/-- Driving along a word. -/
noncomputable def drv : List (Seg × ℝ) → Pose → Pose
  | [], p => p
  | x :: w, p => drv w (move x.1.curv x.2 p)

/-- Length of a word. -/
def wlen (w : List (Seg × ℝ)) : ℝ := (w.map Prod.snd).sum

/-- All the lengths are non-negative. -/
def NN (w : List (Seg × ℝ)) : Prop := ∀ x ∈ w, 0 ≤ x.2

theorem drv_append (u v : List (Seg × ℝ)) (p : Pose) : drv (u ++ v) p = drv v (drv u p) := by
  induction u generalizing p with
  | nil => rfl
  | cons x u ih => exact ih _

theorem wlen_append (u v : List (Seg × ℝ)) : wlen (u ++ v) = wlen u + wlen v := by simp [wlen]
theorem wlen_cons (x : Seg × ℝ) (v : List (Seg × ℝ)) : wlen (x :: v) = x.2 + wlen v := by simp [wlen]
theorem wlen_nil : wlen [] = 0 := rfl

theorem NN.append {u v : List (Seg × ℝ)} (hu : NN u) (hv : NN v) : NN (u ++ v) := by
  intro x hx; rcases List.mem_append.1 hx with h | h; exacts [hu x h, hv x h]

theorem curv_abs (s : Seg) : |s.curv| ≤ 1 := by cases s <;> simp [Seg.curv]

theorem Head.drv {p : Pose} (h : Head p) (w : List (Seg × ℝ)) : Head (drv w p) := by
  induction w generalizing p with
  | nil => exact h
  | cons x w ih => exact ih (h.move _ _)

theorem drivable_word {p : Pose} (h : Head p) {w : List (Seg × ℝ)} (hw : NN w) : Drivable p (drv w p) (wlen w) := by
  induction w generalizing p with
  | nil => exact Drivable.refl h
  | cons x w ih =>
    rw [wlen_cons]
    exact (Drivable.seg h (curv_abs _) (hw x (by simp))).trans (ih (h.move _ _) fun y hy => hw y (List.mem_cons_of_mem _ hy))

theorem unit_seg {e : ℝ} (he : e = 1 ∨ e = -1) : ∃ s : Seg, s.curv = e := by
  rcases he with rfl | rfl
  exacts [⟨.L, rfl⟩, ⟨.R, rfl⟩]

theorem Drivable.eq_of_zero {p q : Pose} (h : Drivable p q 0) : p = q := by
  obtain ⟨_, θ, _, a, b, c⟩ := h
  refine Prod.ext ?_ ?_
  · rw [c]; simp
  · rw [a, b]

/-- Every drive is no shorter than a word. -/
theorem cut {p q : Pose} {T : ℝ} (h : Drivable p q T) (N : ℕ) (hN : T ≤ N) : ∃ w : List (Seg × ℝ), w.length = 3 * N ∧ NN w ∧ wlen w ≤ T ∧ drv w p = q := by
  induction N generalizing p T with
  | zero =>
    have hT : T = 0 := le_antisymm (by simpa using hN) h.1
    subst hT
    exact ⟨[], rfl, by intro x hx; simp at hx, le_rfl, h.eq_of_zero⟩
  | succ N ih =>
    have h0 := h.1
    have e : T = min T 1 + (T - min T 1) := by ring
    rw [e] at h
    obtain ⟨r, h1, h2⟩ := h.split (le_min h0 zero_le_one) (by linarith [min_le_left T 1])
    have hle : T - min T 1 ≤ N := by
      push_cast at hN
      rcases le_total T 1 with h | h
      · rw [min_eq_left h]; simp
      · rw [min_eq_right h]; linarith
    obtain ⟨w, w1, w2, w3, w4⟩ := ih h2 hle
    obtain ⟨e, f, x, y, z, he, hf, hx, hy, hz, hs, hm⟩ := h1.short (min_le_right _ _)
    obtain ⟨s, hs1⟩ := unit_seg he
    obtain ⟨t, ht1⟩ := unit_seg hf
    refine ⟨(s, x) :: (.S, y) :: (t, z) :: w, ?_, ?_, ?_, ?_⟩
    · simp only [List.length_cons, w1]; ring
    · intro v hv
      simp only [List.mem_cons] at hv
      rcases hv with rfl | rfl | rfl | hv
      exacts [hx, hy, hz, w2 v hv]
    · rw [wlen_cons, wlen_cons, wlen_cons]; simp only; linarith
    · show drv w (move t.curv z (move 0 y (move s.curv x p))) = q
      rw [hs1, ht1, hm, w4]

/-! ## A shortest word -/

theorem disp_continuous (k : ℝ) : Continuous (disp k) := continuous_iff_continuousAt.2 fun t => (disp_hasDerivAt k t).continuousAt

theorem drv_continuous (n : ℕ) (c : Fin n → Seg) : Continuous fun x : (Fin n → ℝ) × Pose => drv (List.ofFn fun i => (c i, x.1 i)) x.2 := by
  induction n with
  | zero => exact (continuous_snd : Continuous fun x : (Fin 0 → ℝ) × Pose => x.2)
  | succ n ih =>
    simp only [List.ofFn_succ, drv]
    have hm : Continuous fun x : (Fin (n + 1) → ℝ) × Pose => move (c 0).curv (x.1 0) x.2 := by
      have h0 : Continuous fun x : (Fin (n + 1) → ℝ) × Pose => x.1 0 := (continuous_apply 0).comp continuous_fst
      have h1 := (disp_continuous (c 0).curv).comp h0
      have h2 := cis_continuous.comp (h0.const_mul (c 0).curv)
      unfold move
      exact ((continuous_fst.comp continuous_snd).add ((continuous_snd.comp continuous_snd).mul h1)).prodMk ((continuous_snd.comp continuous_snd).mul h2)
    have ht : Continuous fun x : (Fin (n + 1) → ℝ) × Pose => (fun i : Fin n => x.1 i.succ) :=
      continuous_pi fun i => (continuous_apply i.succ).comp continuous_fst
    exact (ih fun i => c i.succ).comp (ht.prodMk hm)

theorem wlen_ofFn (n : ℕ) (c : Fin n → Seg) (x : Fin n → ℝ) : wlen (List.ofFn fun i => (c i, x i)) = ∑ i, x i := by
  unfold wlen; rw [List.map_ofFn, List.sum_ofFn]; rfl

/-- Lengths that words with `n` letters need. -/
def totals (p q : Pose) (N : ℝ) (n : ℕ) : Set ℝ :=
  ⋃ c : Fin n → Seg, (fun x : Fin n → ℝ => ∑ i, x i) '' (Set.pi univ (fun _ => Icc 0 N) ∩ {x | drv (List.ofFn fun i => (c i, x i)) p = q})

instance : Fintype Seg := ⟨{.L, .S, .R}, fun s => by cases s <;> simp⟩

theorem totals_compact (p q : Pose) (N : ℝ) (n : ℕ) : IsCompact (totals p q N n) := by
  refine isCompact_iUnion fun c => ?_
  refine IsCompact.image ?_ (by fun_prop)
  refine (isCompact_univ_pi fun _ => isCompact_Icc).inter_right ?_
  have : Continuous fun x : Fin n → ℝ => drv (List.ofFn fun i => (c i, x i)) p := (drv_continuous n c).comp (continuous_id.prodMk continuous_const)
  exact isClosed_eq this continuous_const

theorem mem_totals {p q : Pose} {N : ℝ} {w : List (Seg × ℝ)} (hw : NN w) (hl : wlen w ≤ N) (hd : drv w p = q) : wlen w ∈ totals p q N w.length := by
  have hof : (List.ofFn fun i : Fin w.length => ((w.get i).1, (w.get i).2)) = w := by
    simp
  refine mem_iUnion.2 ⟨fun i => (w.get i).1, fun i => (w.get i).2, ⟨?_, ?_⟩, ?_⟩
  · intro i _
    have h0 : 0 ≤ (w.get i).2 := hw _ (List.get_mem w i)
    refine ⟨h0, le_trans ?_ hl⟩
    have hs : ∑ j : Fin w.length, (w.get j).2 = wlen w := by
      have := wlen_ofFn w.length (fun i => (w.get i).1) (fun i => (w.get i).2)
      rw [hof] at this; exact this.symm
    rw [← hs]
    exact Finset.single_le_sum (f := fun j : Fin w.length => (w.get j).2) (fun j _ => hw _ (List.get_mem w j)) (Finset.mem_univ i)
  · show drv _ p = q
    rw [hof]; exact hd
  · have := wlen_ofFn w.length (fun i => (w.get i).1) (fun i => (w.get i).2)
    rw [hof] at this
    exact this.symm

/-- A word with the least length among all drives, and the fewest letters among those words. -/
structure Best (w : List (Seg × ℝ)) (p : Pose) : Prop where
  nn : NN w
  min : ∀ T, Drivable p (drv w p) T → wlen w ≤ T
  few : ∀ w', NN w' → drv w' p = drv w p → wlen w' ≤ wlen w → w.length ≤ w'.length

theorem exists_best {p q : Pose} {T : ℝ} (h : Drivable p q T) : ∃ w, Best w p ∧ drv w p = q := by
  obtain ⟨N, hN⟩ := exists_nat_ge T
  obtain ⟨w0, l0, n0, t0, d0⟩ := cut h N hN
  have hne : (totals p q N (3 * N)).Nonempty := ⟨wlen w0, by rw [← l0]; exact mem_totals n0 (t0.trans hN) d0⟩
  obtain ⟨t, ht, hmin⟩ := (totals_compact p q N (3 * N)).exists_isLeast hne
  obtain ⟨c, x, ⟨hx, hd⟩, hs⟩ := mem_iUnion.1 ht
  have hlow : ∀ T, Drivable p q T → t ≤ T := by
    intro T' h'
    rcases le_total T' N with hle | hle
    · obtain ⟨w, l, n, t', d⟩ := cut h' N hle
      exact (hmin (by rw [← l]; exact mem_totals n (t'.trans hle) d)).trans t'
    · have : t ≤ wlen w0 := hmin (by rw [← l0]; exact mem_totals n0 (t0.trans hN) d0)
      linarith
  have hex : ∃ n, ∃ w : List (Seg × ℝ), w.length = n ∧ NN w ∧ drv w p = q ∧ wlen w ≤ t := by
    refine ⟨_, List.ofFn fun i => (c i, x i), rfl, ?_, hd, ?_⟩
    · intro y hy
      obtain ⟨i, rfl⟩ := List.mem_ofFn.1 hy
      exact (hx i (mem_univ i)).1
    · rw [wlen_ofFn]; exact hs.le
  classical
  obtain ⟨w, hl, hn, hd', ht'⟩ := Nat.find_spec hex
  refine ⟨w, ⟨hn, ?_, ?_⟩, hd'⟩
  · intro T' h'
    rw [hd'] at h'
    exact ht'.trans (hlow T' h')
  · intro w' n' d' l'
    rw [hl]
    exact Nat.find_min' hex ⟨w', rfl, n', d'.trans hd', l'.trans ht'⟩

/-- Parts of a shortest word. -/
theorem Best.part {u m v : List (Seg × ℝ)} {p : Pose} (hp : Head p) (h : Best (u ++ (m ++ v)) p) : Best m (drv u p) := by
  have nu : NN u := fun x hx => h.nn x (by simp [hx])
  have nm : NN m := fun x hx => h.nn x (by simp [hx])
  have nv : NN v := fun x hx => h.nn x (by simp [hx])
  refine ⟨nm, ?_, ?_⟩
  · intro T hT
    have d := ((drivable_word hp nu).trans hT).trans (drivable_word ((hp.drv u).drv m) nv)
    have := h.min _ (by rw [drv_append, drv_append]; exact d)
    rw [wlen_append, wlen_append] at this
    linarith
  · intro m' n' d' l'
    have := h.few (u ++ (m' ++ v)) (nu.append (n'.append nv)) (by simp only [drv_append, d']) (by simp only [wlen_append]; linarith)
    simp only [List.length_append] at this
    omega

theorem Best.not_shorter {w : List (Seg × ℝ)} {p : Pose} (h : Best w p) : ¬ Shorter p (drv w p) (wlen w) := by
  rintro ⟨T, h1, h2⟩
  exact absurd (h.min T h2) (not_le.2 h1)

/-! ## Shape of the shortest words -/

theorem Seg.turn {s : Seg} (h : s ≠ .S) : s.curv = 1 ∨ s.curv = -1 := by cases s <;> simp_all [Seg.curv]

theorem Seg.other {s t : Seg} (hs : s ≠ .S) (ht : t ≠ .S) (h : s ≠ t) : t.curv = -s.curv := by cases s <;> cases t <;> simp_all [Seg.curv]

theorem Seg.apart {s t : Seg} (hs : s ≠ .S) (h : t ≠ s) : t.curv = 0 ∨ t.curv = -s.curv := by cases s <;> cases t <;> simp_all [Seg.curv]

theorem Seg.third {s t u : Seg} (hs : s ≠ .S) (ht : t ≠ .S) (hu : u ≠ .S) (h1 : s ≠ t) (h2 : t ≠ u) : s = u := by cases s <;> cases t <;> cases u <;> simp_all

theorem best1 {x : Seg × ℝ} {p : Pose} (hp : Head p) (h : Best [x] p) : 0 < x.2 ∧ (x.1 ≠ .S → x.2 < 2 * Real.pi) := by
  have h0 : 0 ≤ x.2 := h.nn x (by simp)
  constructor
  · refine lt_of_le_of_ne h0 fun e => ?_
    have := h.few [] (by intro y hy; simp at hy) (by show p = move _ _ p; rw [← e, move_zero]) (by rw [wlen_nil, wlen_cons, wlen_nil]; linarith)
    simp at this
  · intro ht
    by_contra hge
    have := shorter_loop hp (Seg.turn ht) (not_lt.1 hge)
    refine h.not_shorter ?_
    rw [wlen_cons, wlen_nil, add_zero]
    exact this

theorem best2 {x y : Seg × ℝ} {p : Pose} (h : Best [x, y] p) : x.1 ≠ y.1 := by
  intro e
  have hx : 0 ≤ x.2 := h.nn x (by simp)
  have hy : 0 ≤ y.2 := h.nn y (by simp)
  have := h.few [(x.1, x.2 + y.2)] (by intro z hz; simp at hz; subst hz; simp only; linarith) (by show move _ _ p = move _ _ (move _ _ p); rw [← e, move_add])
    (by simp only [wlen_cons, wlen_nil]; linarith)
  simp at this

/-- Three letters. -/
def Good (x y z : Seg × ℝ) : Prop :=
  (x.1 ≠ .S ∧ y.1 = .S ∧ z.1 ≠ .S) ∨ (x.1 ≠ .S ∧ y.1 ≠ .S ∧ x.1 ≠ y.1 ∧ z.1 = x.1 ∧ Real.pi < y.2 ∧ y.2 < 2 * Real.pi)

theorem best3 {x y z : Seg × ℝ} {p : Pose} (hp : Head p) (h : Best [x, y, z] p) : Good x y z := by
  have bx : Best [x] p := Best.part (u := []) (m := [x]) (v := [y, z]) hp h
  have by' : Best [y] (drv [x] p) := Best.part (u := [x]) (m := [y]) (v := [z]) hp h
  have bz : Best [z] (drv [x, y] p) := Best.part (u := [x, y]) (m := [z]) (v := []) hp h
  have bxy : Best [x, y] p := Best.part (u := []) (m := [x, y]) (v := [z]) hp h
  have byz : Best [y, z] (drv [x] p) := Best.part (u := [x]) (m := [y, z]) (v := []) hp h
  obtain ⟨x0, _⟩ := best1 hp bx
  obtain ⟨y0, y1⟩ := best1 (hp.drv _) by'
  obtain ⟨z0, _⟩ := best1 (hp.drv _) bz
  have hxy := best2 bxy
  have hyz := best2 byz
  have hl : wlen [x, y, z] = x.2 + y.2 + z.2 := by simp only [wlen_cons, wlen_nil]; ring
  by_cases hy : y.1 = .S
  · exact Or.inl ⟨fun e => hxy (e.trans hy.symm), hy, fun e => hyz (hy.trans e.symm)⟩
  right
  have hx : x.1 ≠ .S := by
    intro hx
    refine h.not_shorter ?_
    rw [hl]
    have := shorter_SCX hp (s := x.2) (b := y.2) (x := z.2) (Seg.turn hy) (Seg.apart hy (Ne.symm hyz)) x0 y0 (y1 hy) z0
    show Shorter p (move z.1.curv z.2 (move y.1.curv y.2 (move x.1.curv x.2 p))) _
    rw [hx]; exact this
  have hz : z.1 ≠ .S := by
    intro hz
    refine h.not_shorter ?_
    rw [hl]
    have := shorter_XCS hp (s := z.2) (b := y.2) (x := x.2) (Seg.turn hy) (Seg.apart hy hxy) z0 y0 (y1 hy) x0
    show Shorter p (move z.1.curv z.2 (move y.1.curv y.2 (move x.1.curv x.2 p))) _
    rw [hz]; exact this
  have hzx : z.1 = x.1 := (Seg.third hx hy hz hxy hyz).symm
  refine ⟨hx, hy, hxy, hzx, ?_, y1 hy⟩
  by_contra hle
  refine h.not_shorter ?_
  rw [hl]
  have := shorter_CCC hp (Seg.turn hx) x0 y0 (not_lt.1 hle) z0
  show Shorter p (move z.1.curv z.2 (move y.1.curv y.2 (move x.1.curv x.2 p))) _
  rw [hzx, Seg.other hx hy hxy]; exact this

theorem best4 {x y z t : Seg × ℝ} {p : Pose} (hp : Head p) (h : Best [x, y, z, t] p) : False := by
  have g1 := best3 hp (Best.part (u := []) (m := [x, y, z]) (v := [t]) hp h)
  have g2 := best3 (hp.drv _) (Best.part (u := [x]) (m := [y, z, t]) (v := []) hp h)
  obtain ⟨x0, _⟩ := best1 hp (Best.part (u := []) (m := [x]) (v := [y, z, t]) hp h)
  obtain ⟨t0, _⟩ := best1 (hp.drv _) (Best.part (u := [x, y, z]) (m := [t]) (v := []) hp h)
  rcases g1 with ⟨_, hy, hz⟩ | ⟨hx, hy, hxy, hzx, a1, a2⟩
  · rcases g2 with ⟨hy', _⟩ | ⟨hy', _⟩ <;> exact hy' hy
  rcases g2 with ⟨_, hz, _⟩ | ⟨_, hz, hyz, hty, b1, b2⟩
  · exact hx (hzx ▸ hz)
  refine h.not_shorter ?_
  have hl : wlen [x, y, z, t] = x.2 + y.2 + z.2 + t.2 := by simp only [wlen_cons, wlen_nil]; ring
  rw [hl]
  have := shorter_CCCC hp (Seg.turn hx) x0 a1 a2 b1 b2 t0
  show Shorter p (move t.1.curv t.2 (move z.1.curv z.2 (move y.1.curv y.2 (move x.1.curv x.2 p)))) _
  rw [hty, hzx, Seg.other hx hy hxy]; exact this

theorem best_short {w : List (Seg × ℝ)} {p : Pose} (hp : Head p) (h : Best w p) : w.length ≤ 3 := by
  match w, h with
  | [], _ => simp
  | [_], _ => simp
  | [_, _], _ => simp
  | [_, _, _], _ => simp
  | x :: y :: z :: t :: r, h => exact (best4 hp (Best.part (u := []) (m := [x, y, z, t]) (v := r) hp h)).elim

/-- Driving along three segments of radius 1. -/
noncomputable def drive1 (W : Seg × Seg × Seg) (l : Lens) (p : Pose) : Pose := move W.2.2.curv l.q (move W.2.1.curv l.p (move W.1.curv l.t p))

/-- The theorem of Dubins: every drive is at least as long as a word of Dubins with the same ends. -/
theorem dubins {p q : Pose} {T : ℝ} (h : Drivable p q T) : ∃ W l, DubinsWord W l ∧ l.cost ≤ T ∧ drive1 W l p = q := by
  have hp : Head p := h.start
  obtain ⟨w, hb, hd⟩ := exists_best h
  have hT : wlen w ≤ T := hb.min T (by rw [hd]; exact h)
  have hlen := best_short hp hb
  match w, hb, hd, hT, hlen with
  | [], _, hd, hT, _ =>
    refine ⟨(.L, .S, .L), ⟨0, 0, 0⟩, ⟨le_rfl, le_rfl, le_rfl, Or.inl ⟨by decide, rfl, by decide⟩⟩, ?_, ?_⟩
    · rw [wlen_nil] at hT; simpa [Lens.cost] using hT
    · simp only [drive1, move_zero]; exact hd
  | [x], hb, hd, hT, _ =>
    have h0 := (best1 hp hb).1.le
    rw [wlen_cons, wlen_nil, add_zero] at hT
    by_cases hx : x.1 = .S
    · refine ⟨(.L, .S, .L), ⟨0, x.2, 0⟩, ⟨le_rfl, h0, le_rfl, Or.inl ⟨by decide, rfl, by decide⟩⟩, by simpa [Lens.cost] using hT, ?_⟩
      simp only [drive1, move_zero]; rw [← hx]; exact hd
    · refine ⟨(x.1, .S, .L), ⟨x.2, 0, 0⟩, ⟨h0, le_rfl, le_rfl, Or.inl ⟨hx, rfl, Seg.noConfusion⟩⟩, by simpa [Lens.cost] using hT, ?_⟩
      simp only [drive1, move_zero]; exact hd
  | [x, y], hb, hd, hT, _ =>
    have hx0 : 0 ≤ x.2 := hb.nn x (by simp)
    have hy0 : 0 ≤ y.2 := hb.nn y (by simp)
    have hxy := best2 hb
    rw [wlen_cons, wlen_cons, wlen_nil, add_zero] at hT
    have hd' : move y.1.curv y.2 (move x.1.curv x.2 p) = q := hd
    by_cases hx : x.1 = .S
    · refine ⟨(.L, .S, y.1), ⟨0, x.2, y.2⟩, ⟨le_rfl, hx0, hy0, Or.inl ⟨Seg.noConfusion, rfl, fun e => hxy (hx.trans e.symm)⟩⟩, by simpa [Lens.cost] using hT, ?_⟩
      simp only [drive1, move_zero]; rw [← hx]; exact hd'
    by_cases hy : y.1 = .S
    · refine ⟨(x.1, .S, .L), ⟨x.2, y.2, 0⟩, ⟨hx0, hy0, le_rfl, Or.inl ⟨hx, rfl, Seg.noConfusion⟩⟩, by simpa [Lens.cost] using hT, ?_⟩
      simp only [drive1, move_zero]; rw [← hy]; exact hd'
    · refine ⟨(x.1, .S, y.1), ⟨x.2, 0, y.2⟩, ⟨hx0, le_rfl, hy0, Or.inl ⟨hx, rfl, hy⟩⟩, by simpa [Lens.cost] using hT, ?_⟩
      simp only [drive1, move_zero]; exact hd'
  | [x, y, z], hb, hd, hT, _ =>
    have hx0 : 0 ≤ x.2 := hb.nn x (by simp)
    have hy0 : 0 ≤ y.2 := hb.nn y (by simp)
    have hz0 : 0 ≤ z.2 := hb.nn z (by simp)
    rw [wlen_cons, wlen_cons, wlen_cons, wlen_nil, add_zero] at hT
    refine ⟨(x.1, y.1, z.1), ⟨x.2, y.2, z.2⟩, ⟨hx0, hy0, hz0, ?_⟩, by unfold Lens.cost; simp only; linarith, hd⟩
    rcases best3 hp hb with ⟨h1, h2, h3⟩ | ⟨h1, h2, h3, h4, h5, h6⟩
    · exact Or.inl ⟨h1, h2, h3⟩
    · refine Or.inr ⟨?_, h5.le, h6⟩
      rw [h4]
      revert h1 h2 h3
      cases x.1 <;> cases y.1 <;> simp
  | _ :: _ :: _ :: _ :: _, _, _, _, hl => simp only [List.length_cons] at hl; omega

/-! ## Cars -/

/-- The car drives from a pose to another one along a curve of length `D`, forward: its heading is `θ t` after a distance `t`, it moves along its heading, and it turns by at most
`1 / rho` per unit of length. -/
def CarDrive (rho : ℝ) (p q : Pose) (D : ℝ) : Prop :=
  0 ≤ D ∧ ∃ θ : ℝ → ℝ, (∀ s t, 0 ≤ s → s ≤ t → t ≤ D → |θ t - θ s| ≤ (t - s) / rho) ∧ p.2 = cis (θ 0) ∧ q.2 = cis (θ D) ∧ q.1 = p.1 + ∫ t in (0 : ℝ)..D, cis (θ t)

/-- A pose, when the unit of length is the radius. -/
noncomputable def scaled (rho : ℝ) (p : Pose) : Pose := (p.1 / rho, p.2)

theorem unnorm_scaled {rho : ℝ} (hr : 0 < rho) (p : Pose) : unnorm 0 rho 0 (scaled rho p) = p := by
  have hr' : (rho : ℂ) ≠ 0 := by exact_mod_cast hr.ne'
  unfold unnorm scaled
  refine Prod.ext ?_ ?_
  · simp only [cis_zero]; field_simp; ring
  · simp only [cis_zero]; ring

theorem CarDrive.scaled {rho : ℝ} (hr : 0 < rho) {p q : Pose} {D : ℝ} (h : CarDrive rho p q D) : Drivable (scaled rho p) (scaled rho q) (D / rho) := by
  obtain ⟨hD, θ, l, p0, q0, P⟩ := h
  have hr' : (rho : ℂ) ≠ 0 := by exact_mod_cast hr.ne'
  have hin : ∀ t, 0 ≤ t → t ≤ D / rho → max 0 (min (rho * t) D) = rho * t := by
    intro t h0 h1
    have : rho * t ≤ D := by rw [le_div_iff₀ hr] at h1; linarith
    rw [min_eq_left this, max_eq_right (by positivity)]
  refine ⟨by positivity, fun t => θ (max 0 (min (rho * t) D)), ?_, ?_, ?_, ?_⟩
  · intro s t hst
    have hm : rho * s ≤ rho * t := mul_le_mul_of_nonneg_left hst hr.le
    refine (l _ _ (le_max_left _ _) (max_le_max_left _ (min_le_min_right _ hm)) (max_le hD (min_le_right _ _))).trans ?_
    rw [div_le_iff₀ hr]
    have : max 0 (min (rho * t) D) - max 0 (min (rho * s) D) ≤ rho * t - rho * s := by
      rcases max_cases 0 (min (rho * t) D) with h1 | h1 <;> rcases max_cases 0 (min (rho * s) D) with h2 | h2 <;>
        rcases min_cases (rho * t) D with h3 | h3 <;> rcases min_cases (rho * s) D with h4 | h4 <;> linarith
    linarith
  · show p.2 = cis (θ (max 0 (min (rho * 0) D)))
    rw [p0, hin 0 le_rfl (by positivity), mul_zero]
  · show q.2 = cis (θ (max 0 (min (rho * (D / rho)) D)))
    rw [q0, hin (D / rho) (by positivity) le_rfl, mul_div_cancel₀ _ hr.ne']
  · have e : (∫ t in (0 : ℝ)..(D / rho), cis (θ (max 0 (min (rho * t) D)))) = ∫ t in (0 : ℝ)..(D / rho), cis (θ (rho * t)) :=
      intervalIntegral.integral_congr fun t ht => by
        rw [uIcc_of_le (by positivity)] at ht
        show cis (θ (max 0 (min (rho * t) D))) = cis (θ (rho * t))
        rw [hin t ht.1 ht.2]
    have e2 := intervalIntegral.integral_comp_mul_left (fun t => cis (θ t)) (a := 0) (b := D / rho) hr.ne'
    rw [mul_zero, mul_div_cancel₀ _ hr.ne'] at e2
    show q.1 / rho = p.1 / rho + ∫ t in (0 : ℝ)..(D / rho), cis (θ (max 0 (min (rho * t) D)))
    rw [e, e2, P, Complex.real_smul]
    push_cast
    field_simp

theorem Drivable.car {rho : ℝ} (hr : 0 < rho) {p q : Pose} {T : ℝ} (h : Drivable (Car.scaled rho p) (Car.scaled rho q) T) : CarDrive rho p q (rho * T) := by
  obtain ⟨hT, θ, l, p0, q0, P⟩ := h
  have hr' : (rho : ℂ) ≠ 0 := by exact_mod_cast hr.ne'
  refine ⟨by positivity, fun t => θ (t / rho), ?_, ?_, ?_, ?_⟩
  · intro s t _ hst _
    have := l (s / rho) (t / rho) (by gcongr)
    rwa [← sub_div] at this
  · show p.2 = cis (θ (0 / rho))
    rw [zero_div]; exact p0
  · show q.2 = cis (θ (rho * T / rho))
    rw [mul_div_cancel_left₀ _ hr.ne']; exact q0
  · have e2 := intervalIntegral.integral_comp_div (fun t => cis (θ t)) (a := 0) (b := rho * T) hr.ne'
    rw [zero_div, mul_div_cancel_left₀ _ hr.ne'] at e2
    simp only [Car.scaled] at P
    rw [e2, Complex.real_smul]
    field_simp at P
    linear_combination P

theorem drive_scaled {rho : ℝ} (hr : 0 < rho) (W : Seg × Seg × Seg) (l : Lens) (p : Pose) : drive rho W l p = unnorm 0 rho 0 (drive1 W l (scaled rho p)) := by
  unfold drive drive1
  rw [← unnorm_move hr, ← unnorm_move hr, ← unnorm_move hr, unnorm_scaled hr]

/-- The theorem of Dubins, at any radius. -/
theorem dubins_car {rho : ℝ} (hr : 0 < rho) {p q : Pose} {D : ℝ} (h : CarDrive rho p q D) : ∃ W l, DubinsWord W l ∧ rho * l.cost ≤ D ∧ drive rho W l p = q := by
  obtain ⟨W, l, h1, h2, h3⟩ := dubins (h.scaled hr)
  refine ⟨W, l, h1, ?_, ?_⟩
  · rw [le_div_iff₀ hr] at h2; linarith
  · rw [drive_scaled hr, h3, unnorm_scaled hr]

/-- Words are drives. -/
theorem car_word {rho : ℝ} (hr : 0 < rho) {p q : Pose} (hp : Head p) {W : Seg × Seg × Seg} {l : Lens} (ht : 0 ≤ l.t) (hpp : 0 ≤ l.p) (hq : 0 ≤ l.q) (h : drive rho W l p = q) :
    CarDrive rho p q (rho * l.cost) := by
  refine Drivable.car hr ?_
  have e : scaled rho q = drive1 W l (scaled rho p) := by
    rw [drive_scaled hr] at h
    exact unnorm_inj hr ((unnorm_scaled hr q).trans h.symm)
  have hs : Head (scaled rho p) := hp
  rw [e]
  exact ((Drivable.seg hs (curv_abs W.1) ht).trans (Drivable.seg (hs.move _ _) (curv_abs W.2.1) hpp)).trans (Drivable.seg ((hs.move _ _).move _ _) (curv_abs W.2.2) hq)

/-- C87: the path of Dubins between two different poses is the shortest one a car may drive, among all the curves, words or not, along which it rolls forward and turns by at most
the inverse of the radius per unit of length. -/
theorem C87_shortest {rho extra : ℝ} (hr : 0 < rho) (he : 0 ≤ extra) {q0 q1 : Cfg E W} (h0 : q0.Unit) (h1 : q1.Unit) (hne : q0.pose ≠ q1.pose)
    {interp : Cfg E W → Cfg E W → ℝ → Cfg E W} (hi : ∀ a b u, (interp a b u).o = lerp a.o b.o u) (wheel : ℝ → W) :
    ∃ K1 K2 K3 : CC E W, dubinsPath interp wheel rho extra q0 q1 = .ok [K1, K2, K3] ∧
      IsLeast {D | CarDrive rho q0.pose q1.pose D} (K1.curveLength + K2.curveLength + K3.curveLength) := by
  obtain ⟨l, T, ⟨ht, hp, hq⟩, hd, hmin, hpath⟩ := dubins_best hr h0 h1 interp wheel extra
  obtain ⟨K1, K2, K3, hok, _, _, _, _, _, _, hw⟩ := C87_dubins_partial hr he h0 h1 hne hi wheel
  have hL : l.cost ≠ 0 := by
    intro h; rw [if_pos h] at hpath; rw [hpath] at hok; cases hok
  rw [if_neg hL, hok] at hpath
  simp only [Except.ok.injEq, List.cons.injEq, and_true] at hpath
  obtain ⟨e1, e2, e3⟩ := hpath
  have hsum : K1.curveLength + K2.curveLength + K3.curveLength = rho * l.cost := by
    rw [e1, e2, e3]
    show rho * l.t + rho * l.p + rho * l.q = rho * l.cost
    unfold Lens.cost; ring
  refine ⟨K1, K2, K3, hok, ?_, ?_⟩
  · rw [hsum]
    exact car_word hr ⟨_, (heading_cis h0).symm⟩ ht hp hq hd
  · intro D hD
    obtain ⟨W', l', a, b, c⟩ := dubins_car hr hD
    exact (hw W' l' a c).trans b

theorem CarDrive.trans {rho : ℝ} (hr : 0 < rho) {p q r : Pose} {D D' : ℝ} (h : CarDrive rho p q D) (h' : CarDrive rho q r D') : CarDrive rho p r (D + D') := by
  have := Drivable.car hr ((h.scaled hr).trans (h'.scaled hr))
  rwa [mul_add, mul_div_cancel₀ _ hr.ne', mul_div_cancel₀ _ hr.ne'] at this

/-- C87: driving to a configuration through another one is never shorter than driving straight away: replacing two paths of Dubins by one does not lengthen the drive. -/
theorem C87_triangle {rho x01 x12 x02 : ℝ} (hr : 0 < rho) (he01 : 0 ≤ x01) (he12 : 0 ≤ x12) (he02 : 0 ≤ x02) {q0 q1 q2 : Cfg E W} (h0 : q0.Unit) (h1 : q1.Unit) (h2 : q2.Unit)
    (hne01 : q0.pose ≠ q1.pose) (hne12 : q1.pose ≠ q2.pose) (hne02 : q0.pose ≠ q2.pose)
    {interp : Cfg E W → Cfg E W → ℝ → Cfg E W} (hi : ∀ a b u, (interp a b u).o = lerp a.o b.o u) (wheel : ℝ → W) :
    ∃ K L M : List (CC E W), dubinsPath interp wheel rho x01 q0 q1 = .ok K ∧ dubinsPath interp wheel rho x12 q1 q2 = .ok L ∧ dubinsPath interp wheel rho x02 q0 q2 = .ok M ∧
      (M.map (·.curveLength)).sum ≤ (K.map (·.curveLength)).sum + (L.map (·.curveLength)).sum := by
  obtain ⟨K1, K2, K3, hK, kK, _⟩ := C87_shortest hr he01 h0 h1 hne01 hi wheel
  obtain ⟨L1, L2, L3, hL, kL, _⟩ := C87_shortest hr he12 h1 h2 hne12 hi wheel
  obtain ⟨M1, M2, M3, hM, _, kM⟩ := C87_shortest hr he02 h0 h2 hne02 hi wheel
  refine ⟨_, _, _, hK, hL, hM, ?_⟩
  have := kM (CarDrive.trans hr kK kL)
  simp only [List.map_cons, List.map_nil, List.sum_cons, List.sum_nil, add_zero]
  linarith

example : ∃ q0 q1 : Cfg ℝ ℝ, q0.Unit ∧ q1.Unit ∧ q0.pose ≠ q1.pose ∧ ∃ D, CarDrive 1 q0.pose q1.pose D := by
  refine ⟨⟨0, 0, 1, 0, 0, 0⟩, ⟨2, 0, 1, 0, 0, 0⟩, by simp [Cfg.Unit], by simp [Cfg.Unit], by simp [Cfg.pose, Complex.ext_iff], 2, by norm_num, fun _ => 0, ?_, ?_, ?_, ?_⟩
  · intro s t _ h _; simpa using h
  · apply Complex.ext <;> simp [Cfg.pose, cis]
  · apply Complex.ext <;> simp [Cfg.pose, cis]
  · rw [intervalIntegral.integral_const]; apply Complex.ext <;> simp [Cfg.pose, cis]

end Verif.Car
