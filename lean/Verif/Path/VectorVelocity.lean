import Verif.Path.Extracted

/-!
# Velocity bound of path vectors (C61)
-/
set_option linter.unusedSectionVars false
namespace Verif.PathV
variable {K P ι : Type} [Field K] [LinearOrder K] [IsStrictOrderedRing K]

/-- The loop over the middle pieces in `impl_velocityBound`: path-vector.cc:161-166, in the forward direction. -/
def velMid (O : Ops K (ι → K) P) (vb : P → K → K → ι → K) (v : Vec K (ι → K) P) (iend : Nat) : Nat → Nat → (ι → K) → Except Err (ι → K)
  | 0, i, acc => if i < iend then .error .outOfFuel else .ok acc
  | f + 1, i, acc =>
    if i < iend then
      match at' v i with
      | .error e => .error e
      | .ok p => velMid O vb v iend f (i + 1) (fun j => max (acc j) (vb p (O.lo p) (O.hi p) j))
    else .ok acc

/-- `impl_velocityBound`: path-vector.cc:147-172, for `param0 ≤ param1` (asserted by the caller, path.hh:173); `vb` is the method
`velocityBound` of the pieces. -/
def velV (O : Ops K (ι → K) P) (vb : P → K → K → ι → K) (v : Vec K (ι → K) P) (a b : K) : Except Err (ι → K) :=
  match rankAtParam O v a with
  | .error e => .error e
  | .ok (iinit, tinit) =>
    match rankAtParam O v b with
    | .error e => .error e
    | .ok (iend, tend) =>
      match at' v iinit with
      | .error e => .error e
      | .ok p =>
        if iinit = iend then .ok (vb p tinit tend)
        else
          match velMid O vb v iend v.paths.length (iinit + 1) (vb p tinit (O.hi p)) with
          | .error e => .error e
          | .ok acc =>
            match at' v iend with
            | .error e => .error e
            | .ok q => .ok fun j => max (acc j) (vb q (O.lo q) tend j)

theorem BoundOK.mono {f : K → Except Err (ι → K)} {lo hi : K} {B R : ι → K} (h : BoundOK f lo hi B) (hR : ∀ i, B i ≤ R i) : BoundOK f lo hi R := by
  intro s s' h1 h2 h3 q q' hq hq' i
  exact (h s s' h1 h2 h3 q q' hq hq' i).trans (mul_le_mul_of_nonneg_right (hR i) (sub_nonneg.2 h2))

theorem BoundOK.glue {f : K → Except Err (ι → K)} {a b c : K} {R : ι → K} (h1 : BoundOK f a b R) (h2 : BoundOK f b c R)
    (hd : ∃ q, f b = .ok q) : BoundOK f a c R := by
  obtain ⟨m, hm⟩ := hd
  intro s s' k1 k2 k3 q q' hq hq' i
  rcases le_total s' b with hn | hn
  · exact h1 s s' k1 k2 hn q q' hq hq' i
  · rcases le_total b s with hn' | hn'
    · exact h2 s s' hn' k2 k3 q q' hq hq' i
    · have a1 := h1 s b k1 hn' (le_refl _) q m hq hm i
      have a2 := h2 b s' (le_refl _) hn k3 m q' hm hq' i
      have e : q' i - q i = (q' i - m i) + (m i - q i) := by ring
      rw [e]
      refine (abs_add_le _ _).trans ?_
      linarith

/-- Bound on one piece, in the parameters of the vector. -/
theorem seg_bound (O : Ops K (ι → K) P) (A B : List P) (p : P) (hlen : ∀ z ∈ A ++ p :: B, 0 ≤ O.len z) (hc : Chained O (A ++ p :: B))
    (x0 x1 : K) (R : ι → K) (h0 : 0 ≤ x0) (h1 : x1 ≤ O.len p) (h : BoundOK (O.eval p) (O.lo p + x0) (O.lo p + x1) R) :
    BoundOK (evalU O (A ++ p :: B)) (total O A + x0) (total O A + x1) R := by
  intro s s' k1 k2 k3 q q' hq hq' i
  have hA : ∀ z ∈ A, 0 ≤ O.len z := fun z hz => hlen z (by simp [hz])
  have e1 := chained_at O A B p (s - total O A) hA hc (by linarith) (by linarith)
  have e2 := chained_at O A B p (s' - total O A) hA hc (by linarith) (by linarith)
  rw [add_sub_cancel] at e1 e2
  rw [e1] at hq
  rw [e2] at hq'
  have := h (O.lo p + (s - total O A)) (O.lo p + (s' - total O A)) (by linarith) (by linarith) (by linarith) q q' hq hq' i
  rwa [show O.lo p + (s' - total O A) - (O.lo p + (s - total O A)) = s' - s by ring] at this

/-- Bound on a run of whole pieces. -/
theorem run_bound (O : Ops K (ι → K) P) (vb : P → K → K → ι → K) (A M B : List P) (hlen : ∀ z ∈ A ++ M ++ B, 0 ≤ O.len z)
    (hc : Chained O (A ++ M ++ B)) (hvb : ∀ p ∈ M, BoundOK (O.eval p) (O.lo p) (O.hi p) (vb p (O.lo p) (O.hi p)))
    (hdef : ∀ s, 0 ≤ s → s ≤ total O (A ++ M ++ B) → ∃ q, evalU O (A ++ M ++ B) s = .ok q)
    (R : ι → K) (hR : ∀ p ∈ M, ∀ i, vb p (O.lo p) (O.hi p) i ≤ R i) :
    BoundOK (evalU O (A ++ M ++ B)) (total O A) (total O (A ++ M)) R := by
  induction M generalizing A with
  | nil =>
    intro s s' k1 k2 k3 q q' hq hq' i
    have e : s = s' := le_antisymm k2 ((by simpa using k3 : s' ≤ total O A).trans k1)
    subst e
    rw [hq] at hq'
    rw [← Except.ok.inj hq']
    simp
  | cons m M ih =>
    have e : A ++ m :: M ++ B = A ++ [m] ++ M ++ B := by simp
    have e' : A ++ m :: M ++ B = A ++ m :: (M ++ B) := by simp
    have hAn := total_nonneg O A (fun z hz => hlen z (by simp [hz]))
    have hmn := hlen m (by simp)
    have hrest := total_nonneg O (M ++ B) (fun z hz => hlen z (by
      rw [e']; exact List.mem_append_right _ (List.mem_cons_of_mem _ hz)))
    have h1 : BoundOK (evalU O (A ++ m :: M ++ B)) (total O A) (total O (A ++ [m])) R := by
      have := seg_bound O A (M ++ B) m (by rw [← e']; exact hlen) (by rw [← e']; exact hc) 0 (O.len m) R (le_refl _) (le_refl _) (by
        rw [add_zero, show O.lo m + O.len m = O.hi m by unfold Ops.len; ring]
        exact (hvb m (by simp)).mono (hR m (by simp)))
      rw [← e', add_zero] at this
      simpa using this
    have h2 := ih (A ++ [m]) (by rw [← e]; exact hlen) (by rw [← e]; exact hc) (fun p hp => hvb p (by simp [hp]))
      (by rw [← e]; exact hdef) (fun p hp => hR p (by simp [hp]))
    rw [← e] at h2
    have e3 : A ++ [m] ++ M = A ++ m :: M := by simp
    rw [e3] at h2
    refine h1.glue h2 (hdef _ ?_ ?_)
    · simp only [total_append, total_cons, total_nil]; linarith
    · simp only [total_append, total_cons, total_nil] at hrest ⊢; linarith

theorem velMid_spec (O : Ops K (ι → K) P) (vb : P → K → K → ι → K) (v : Vec K (ι → K) P) (A M B : List P) (hv : v.paths = A ++ M ++ B)
    (fuel : Nat) (hf : M.length ≤ fuel) (acc : ι → K) :
    ∃ r, velMid O vb v (A ++ M).length fuel A.length acc = .ok r ∧ (∀ j, acc j ≤ r j) ∧ ∀ p ∈ M, ∀ j, vb p (O.lo p) (O.hi p) j ≤ r j := by
  induction M generalizing A fuel acc with
  | nil =>
    refine ⟨acc, ?_, fun _ => le_refl _, by simp⟩
    cases fuel <;> simp [velMid]
  | cons m M ih =>
    cases fuel with
    | zero => simp at hf
    | succ fuel =>
      have hlt : A.length < (A ++ m :: M).length := by simp
      have hat : at' v A.length = .ok m := by
        simp [at', hv]
      have e : A ++ m :: M = A ++ [m] ++ M := by simp
      obtain ⟨r, h1, h2, h3⟩ := ih (A ++ [m]) (by rw [hv]; simp) fuel (by simpa using hf) (fun j => max (acc j) (vb m (O.lo m) (O.hi m) j))
      refine ⟨r, ?_, fun j => (le_max_left _ _).trans (h2 j), fun p hp j => ?_⟩
      · rw [velMid, if_pos hlt, hat]
        simp only
        rw [e, ← h1]
        simp
      · rcases List.mem_cons.1 hp with rfl | hp
        · exact (le_max_right _ _).trans (h2 j)
        · exact h3 p hp j

/-- **C61**: on a vector whose pieces are defined, agree at their junctions and give right bounds, `velocityBound(a, b)` bounds the
variation of each coordinate along the vector on `[a, b]`. -/
theorem C61_velocityBound (O : Ops K (ι → K) P) (vb : P → K → K → ι → K) (v : Vec K (ι → K) P) (hne : v.paths ≠ [])
    (hlen : ∀ p ∈ v.paths, O.lo p ≤ O.hi p) (hc : Chained O v.paths) (hcons : v.cons = none)
    (hdef : ∀ p ∈ v.paths, ∀ l, O.lo p ≤ l → l ≤ O.hi p → ∃ q, O.eval p l = .ok q)
    (hvb : ∀ p ∈ v.paths, ∀ l l', O.lo p ≤ l → l ≤ l' → l' ≤ O.hi p → BoundOK (O.eval p) l l' (vb p l l'))
    (a b : K) (h0 : 0 ≤ a) (hab : a ≤ b) (h1 : b ≤ (v.paths.map (fun p => O.hi p - O.lo p)).sum) :
    ∃ R, velV O vb v a b = .ok R ∧ BoundOK (evalV O v) a b R := by
  have hlen' : ∀ p ∈ v.paths, 0 ≤ O.len p := fun p hp => sub_nonneg.2 (hlen p hp)
  have htot : (v.paths.map (fun p => O.hi p - O.lo p)).sum = total O v.paths := rfl
  rw [htot] at h1
  have hev : evalV O v = evalU O v.paths := funext fun s => evalV_none O v hcons s
  rw [hev]
  have hdefU : ∀ s, 0 ≤ s → s ≤ total O v.paths → ∃ q, evalU O v.paths s = .ok q := by
    intro s s0 s1
    obtain ⟨A, p, B, u, e, a1, a2, a3, rfl⟩ := exists_pos O v.paths hne s s0 s1
    rw [e, evalU_at O A B p u (fun z hz => hlen' z (by rw [e]; simp [hz])) a3 a2]
    refine hdef p (by rw [e]; simp) _ (by linarith) ?_
    have : O.len p = O.hi p - O.lo p := rfl
    linarith
  obtain ⟨A, p, B, u, e, a1, a2, a3, rfl⟩ := exists_pos O v.paths hne a h0 (hab.trans h1)
  obtain ⟨A', q, B', w, e', b1, b2, b3, rfl⟩ := exists_pos O v.paths hne b (h0.trans hab) h1
  have r1 := rank_at O v A B p u e (fun z hz => hlen' z (by rw [e]; simp [hz])) a3 a2
  have r2 := rank_at O v A' B' q w e' (fun z hz => hlen' z (by rw [e']; simp [hz])) b3 b2
  have at1 : at' v A.length = .ok p := by simp [at', e]
  have at2 : at' v A'.length = .ok q := by simp [at', e']
  have lp : O.len p = O.hi p - O.lo p := rfl
  have lq : O.len q = O.hi q - O.lo q := rfl
  unfold velV
  rw [r1, r2]
  simp only [at1, at2]
  rcases pos_order O A B A' B' p q u w (e ▸ e') (by rw [← e]; exact hlen') a3 b2 hab with ⟨rfl, rfl, rfl, huw⟩ | ⟨M, hA', hB⟩
  · rw [if_pos rfl]
    refine ⟨_, rfl, ?_⟩
    have := seg_bound O A B p (by rw [← e]; exact hlen') (by rw [← e]; exact hc) u w _ a1 b2
      (hvb p (by rw [e]; simp) (O.lo p + u) (O.lo p + w) (by linarith) (by linarith) (by linarith))
    rw [← e] at this
    rwa [add_comm u, add_comm w]
  · have hneq : A.length ≠ A'.length := by rw [hA']; simp
    rw [if_neg hneq]
    have hv3 : v.paths = (A ++ [p]) ++ M ++ (q :: B') := by rw [e', hA']; simp
    have hA3 : A' = (A ++ [p]) ++ M := by rw [hA']; simp
    obtain ⟨R, m1, m2, m3⟩ := velMid_spec O vb v (A ++ [p]) M (q :: B') hv3 v.paths.length (by rw [hv3]; simp; omega)
      (vb p (u + O.lo p) (O.hi p))
    rw [← hA3] at m1
    have hl : A.length + 1 = (A ++ [p]).length := by simp
    rw [hl, m1]
    refine ⟨_, rfl, ?_⟩
    -- the three parts
    have p1 := seg_bound O A B p (by rw [← e]; exact hlen') (by rw [← e]; exact hc) u (O.len p) _ a1 (le_refl _)
      (hvb p (by rw [e]; simp) (O.lo p + u) (O.lo p + O.len p) (by linarith) (by linarith) (by linarith))
    have p2 := run_bound O vb (A ++ [p]) M (q :: B') (by rw [← hv3]; exact hlen') (by rw [← hv3]; exact hc)
      (fun m hm => hvb m (by rw [hv3]; simp [hm]) _ _ (le_refl _) (hlen m (by rw [hv3]; simp [hm])) (le_refl _))
      (by rw [← hv3]; exact hdefU) R m3
    have p3 := seg_bound O A' B' q (by rw [← e']; exact hlen') (by rw [← e']; exact hc) 0 w _ (le_refl _) b2
      (hvb q (by rw [e']; simp) (O.lo q + 0) (O.lo q + w) (by linarith) (by linarith) (by linarith))
    rw [← e] at p1
    rw [← hv3, ← hA3] at p2
    rw [← e'] at p3
    have hpm : p ∈ v.paths := by rw [e]; simp
    have tA : total O (A ++ [p]) = total O A + O.len p := by simp
    have nA := total_nonneg O A (fun z hz => hlen' z (by rw [e]; simp [hz]))
    have np := hlen' p hpm
    have nM := total_nonneg O M (fun z hz => hlen' z (by rw [hv3]; simp [hz]))
    have nB := total_nonneg O B' (fun z hz => hlen' z (by rw [e']; simp [hz]))
    have nq := hlen' q (by rw [e']; simp)
    have tA' : total O A' = total O A + O.len p + total O M := by rw [hA3]; simp [add_assoc]
    have tv : total O v.paths = total O A' + (O.len q + total O B') := by rw [e']; simp
    rw [tA] at p2
    rw [add_zero] at p3
    refine BoundOK.glue ?_ (p3.mono fun i => ?_) (hdefU _ (by linarith) (by linarith))
    · refine BoundOK.glue (p1.mono fun i => ?_) (p2.mono fun i => le_max_left _ _) (hdefU _ (by linarith) (by linarith))
      rw [show O.lo p + u = u + O.lo p by ring, show O.lo p + O.len p = O.hi p by rw [lp]; ring]
      exact (m2 i).trans (le_max_left _ _)
    · rw [show O.lo q + w = w + O.lo q by ring, show O.lo q + 0 = O.lo q by ring]
      exact le_max_right _ _

/-- Two straight pieces at speeds 1 and 3: the bound over both is the larger. -/
def exTwo : Vec ℚ (Unit → ℚ) (Straight ℚ (Unit → ℚ)) :=
  [(⟨(0, 1), fun _ => 0, fun _ => 1, none⟩ : Straight ℚ (Unit → ℚ)), ⟨(2, 3), fun _ => 1, fun _ => -2, none⟩].foldl
    (appendPath (straightOps (vecSpace ℚ Unit))) (create none)

example : exTwo.paths ≠ [] ∧ (∀ p ∈ exTwo.paths, (straightOps (vecSpace ℚ Unit)).lo p ≤ (straightOps (vecSpace ℚ Unit)).hi p) ∧
    Chained (straightOps (vecSpace ℚ Unit)) exTwo.paths ∧
    (∀ p ∈ exTwo.paths, ∀ l l', BoundOK ((straightOps (vecSpace ℚ Unit)).eval p) l l' p.velocityBound) ∧
    (velV (straightOps (vecSpace ℚ Unit)) (fun p _ _ => p.velocityBound) exTwo (1 / 2) (3 / 2)).toOption.map (· ()) = some 3 := by
  have hmem : ∀ p ∈ exTwo.paths, p = ⟨(0, 1), fun _ => 0, fun _ => 1, none⟩ ∨ p = ⟨(2, 3), fun _ => 1, fun _ => -2, none⟩ := by
    intro p hp
    simpa [exTwo, appendPath, create] using hp
  refine ⟨by simp [exTwo, appendPath], fun p hp => ?_, ?_, fun p hp l l' s s' _ h _ q q' hq hq' i => ?_, by decide +kernel⟩
  · rcases hmem p hp with rfl | rfl <;> (simp [straightOps]; try norm_num)
  · show List.IsChain _ [_, _]
    refine List.isChain_cons_cons.2 ⟨?_, .singleton _⟩
    simp only [straightOps, Straight.eval, constrained]
    congr 1
    funext i
    simp [Straight.impl]
  · have hle : p.pr.1 ≤ p.pr.2 ∧ p.cons = none := by rcases hmem p hp with rfl | rfl <;> (simp; try norm_num)
    simp only [straightOps, Straight.eval, hle.2, constrained, Except.ok.injEq] at hq hq'
    rw [← hq, ← hq', (C26_speed p hle.1 s s' i).2, abs_of_nonneg (sub_nonneg.2 h)]

end Verif.PathV
