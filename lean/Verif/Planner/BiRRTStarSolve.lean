import Verif.Planner.BiRRTStarProps
import Verif.Planner.BiRRT
set_option linter.unusedSectionVars false

/-! # BiRRT*: steps and resolution (C66, C67, C83) -/
namespace Verif.Planner.Star
open Verif.Roadmap Verif.Planner Relation
variable {Q P K : Type} [DecidableEq Q] [AddCommGroup K] [LinearOrder K] [IsOrderedAddMonoid K]
  {C : SEnv Q P K} {Valid : P → Prop} {r : Roadmap Q P} {m : PMap P} {root : Nat}

/-! ## `sample` -/

theorem Up.relabel {K' : Type} [Zero K'] [Add K'] {len : P → K} (len' : P → K') {n d : Nat} {c : K} (h : Up len m root n d c) :
    ∃ c', Up len' m root n d c' := by
  induction h with
  | root h0 => exact ⟨0, Up.root h0⟩
  | step h0 _ ih => obtain ⟨c', hc⟩ := ih; exact ⟨_, Up.step h0 hc⟩

theorem Up.count {n d : Nat} {c : Int} (h : Up (fun _ : P => (1 : Int)) m root n d c) : c = d := by
  induction h with
  | root _ => rfl
  | step _ _ ih => rw [ih]; simp

theorem climb_spec {len : P → K} {n d : Nat} {c : K} (h : Up len m root n d c) (k : Nat) (hk : k < d) :
    ∃ e x c', climb m k n = .ok e ∧ m x = some (some e) ∧ (k = 0 → x = n) ∧ Up len m root e.src (d - 1 - k) c' := by
  induction k generalizing n d c with
  | zero =>
    cases h with
    | root _ => omega
    | @step n d e c h0 h1 => exact ⟨e, n, c, by rw [climb, h0], h0, fun _ => rfl, by simpa using h1⟩
  | succ k ih =>
    cases h with
    | root _ => omega
    | @step n d e c h0 h1 =>
      obtain ⟨e', x, c', k1, k2, -, k4⟩ := ih h1 (by omega)
      exact ⟨e', x, c', by rw [climb, h0]; exact k1, k2, by simp, by rw [show d + 1 - 1 - (k + 1) = d - 1 - k by omega]; exact k4⟩

theorem sample_spec (h : Good C.toPEnv Valid [] r) {t : Trees P} (hT : Tree C.len r t.map0 t.root0) (w : Draw Q)
    (hm : r.live.length = 1 → w.informed = true → t.map0 t.root1 ≠ none) : ∃ q, sample C w r t = .ok q := by
  unfold sample
  by_cases h0 : r.live.length = 1 ∧ w.informed = true
  · rw [if_pos h0]
    obtain ⟨d, c, hu⟩ := hT.up _ (hm h0.1 h0.2)
    obtain ⟨c1, hu1⟩ := hu.relabel (fun _ => (1 : Int))
    have hd := hT.depth_lt hu
    rw [computeCost_up hu1 (show d < r.configs.length + 1 by omega), hu1.count]
    simp only
    by_cases h2 : (2 : Int) ≤ d
    · rw [if_pos h2]
      have hd2 : 2 ≤ d := by omega
      simp only [Int.toNat_natCast]
      have hlt : w.pick % (d - 1) < d - 1 := Nat.mod_lt _ (by omega)
      obtain ⟨e1, x1, c', k1, k2, -, k3⟩ := climb_spec hu (w.pick % (d - 1)) (by omega)
      obtain ⟨e0, x0, c'', l1, l2, l3, -⟩ := climb_spec k3 0 (by omega)
      simp only [k1, l1]
      obtain ⟨a1, a2⟩ := hT.edge _ _ k2
      obtain ⟨b1, b2⟩ := hT.edge _ _ l2
      rw [if_neg (by rw [b2, l3 rfl]; simp)]
      rw [List.getElem?_eq_getElem (h.inv.adj.ends e0 b1).1, List.getElem?_eq_getElem (h.inv.adj.ends e0 b1).2,
        List.getElem?_eq_getElem (h.inv.adj.ends e1 a1).2]
      exact ⟨_, rfl⟩
    · rw [if_neg h2]; exact ⟨_, rfl⟩
  · rw [if_neg h0]; exact ⟨_, rfl⟩

theorem sample_end {t : Trees P} (w : Draw Q) (h1 : r.live.length = 1) (h2 : w.informed = true) (h3 : t.map0 t.root1 = none) :
    sample C w r t = .error .endIterator := by
  unfold sample
  rw [if_pos ⟨h1, h2⟩]
  simp only [computeCost, h3]

/-! ## Steps -/

/-- What the steps maintain.  Either the roadmap has two components, each spanned by a tree rooted at a root; or it has one and the trees have not been computed again
since they met; or it has one and both trees span it. -/
structure SInv (C : SEnv Q P K) (Valid : P → Prop) (r : Roadmap Q P) (t : Trees P) : Prop where
  good : Good C.toPEnv Valid [] r
  l0 : t.root0 < r.configs.length
  l1 : t.root1 < r.configs.length
  tree0 : Tree C.len r t.map0 t.root0
  tree1 : Tree C.len r t.map1 t.root1
  phase : Split C.len r t.root0 t.root1 t.map0 t.map1 ∨ (Joined r ∧ t.map1 t.root0 = none) ∨
    (Joined r ∧ Full C.len r t.map0 t.root0 ∧ Full C.len r t.map1 t.root1)

/-- The roots are the same (maybe exchanged) and no cost increases. -/
def Improves (len : P → K) (t t' : Trees P) : Prop :=
  (t'.root0 = t.root0 ∧ t'.root1 = t.root1 ∧ Better len t.map0 t'.map0 t.root0 ∧ Better len t.map1 t'.map1 t.root1) ∨
  (t'.root0 = t.root1 ∧ t'.root1 = t.root0 ∧ Better len t.map1 t'.map0 t.root1 ∧ Better len t.map0 t'.map1 t.root0)

/-- The roots are the same, maybe exchanged. -/
def SameRoots (t t' : Trees P) : Prop := (t'.root0 = t.root0 ∧ t'.root1 = t.root1) ∨ (t'.root0 = t.root1 ∧ t'.root1 = t.root0)

theorem Improves.roots {len : P → K} {t t' : Trees P} (h : Improves len t t') : SameRoots t t' := by
  rcases h with ⟨h1, h2, -⟩ | ⟨h1, h2, -⟩
  · exact Or.inl ⟨h1, h2⟩
  · exact Or.inr ⟨h1, h2⟩

/-- The trees met and have not been computed again. -/
def Pending (r : Roadmap Q P) (t : Trees P) : Prop := r.live.length = 1 ∧ t.map1 t.root0 = none

theorem pmLoop_mono {len : P → K} {out : Nat → List (Edge P)} {pop : List (WNode P K) → Option (WNode P K × List (WNode P K))} (f : Nat) (v : Visited P K)
    (q : List (WNode P K)) (v' : Visited P K) (h : pmLoop len out pop f v q = some v') (g : Nat) (hg : f ≤ g) : pmLoop len out pop g v q = some v' := by
  induction f generalizing v q g with
  | zero => simp [pmLoop] at h
  | succ f ih =>
    obtain ⟨g, rfl⟩ : ∃ g', g = g' + 1 := ⟨g - 1, by omega⟩
    rw [pmLoop] at h ⊢
    cases hp : pop q with
    | none => rw [hp] at h; exact h
    | some x =>
      obtain ⟨w, q'⟩ := x
      rw [hp] at h
      simp only at h ⊢
      by_cases ha : accepts v w = true
      · rw [if_pos ha] at h ⊢; exact ih _ _ h _ (by omega)
      · rw [if_neg ha] at h ⊢; exact ih _ _ h _ (by omega)

theorem computeParentMap_mono {len : P → K} {out : Nat → List (Edge P)} {pop : List (WNode P K) → Option (WNode P K × List (WNode P K))} {f : Nat}
    {m : PMap P} (h : computeParentMap len out pop f root = some m) {g : Nat} (hg : f ≤ g) : computeParentMap len out pop g root = some m := by
  unfold computeParentMap at h ⊢
  cases hp : pmLoop len out pop f (fun _ => none) [⟨root, none, 0⟩] with
  | none => rw [hp] at h; simp at h
  | some v => rw [hp] at h; rw [pmLoop_mono f _ _ v hp g hg]; exact h

/-- The maps computed from the roots of a roadmap with one component. -/
theorem computeParentMap_full (hC : SContract C Valid) {pop : List (WNode P K) → Option (WNode P K × List (WNode P K))} (hp : PopOk pop)
    (h : Good C.toPEnv Valid [] r) (hJ : Joined r) (hr : root < r.configs.length) :
    ∃ F, ∀ f, (F ≤ f → computeParentMap C.len r.out pop f root ≠ none) ∧
      ∀ m, computeParentMap C.len r.out pop f root = some m → Full C.len r m root := by
  obtain ⟨F, m, h1, h2, h3, -⟩ := C84_computeParentMap h.inv hC.nonneg hp hr
  refine ⟨F, fun f => ⟨fun hf => by rw [h1 f hf]; simp, fun m' hm => ?_⟩⟩
  have := computeParentMap_mono hm (le_max_left f F)
  rw [h1 _ (le_max_right f F)] at this
  rw [← Option.some.inj this]
  refine ⟨h2, fun n hn => (h3 n).2 ?_⟩
  exact ((same_iff h.inv hr hn).1 (hJ root n hr hn)).1

/-- A step from any state of the invariant: it ends normally and keeps the invariant, or one of the loops does not end within the allotted number of iterations, or the trees have
just met and the sampling uses `end()`. -/
theorem C83_step_partial (hC : SContract C Valid) {pop : List (WNode P K) → Option (WNode P K × List (WNode P K))} (hp : PopOk pop) {t : Trees P} (h : SInv C Valid r t)
    (w : Draw Q) (fc : Nat) : ∃ F, ∀ fp,
    (∃ r' t', oneStep C pop fc fp w r t = .ok (r', t') ∧ SInv C Valid r' t' ∧ Ext r r' ∧ SameRoots t t' ∧ (¬ Pending r t → Improves C.len t t')) ∨
    (oneStep C pop fc fp w r t = .error .fuel ∧ ((Pending r t ∧ fp < F) ∨ r.live.length = 2)) ∨
    (oneStep C pop fc fp w r t = .error .endIterator ∧ Pending r t ∧ w.informed = true ∧ t.map0 t.root1 = none) := by
  have one : Joined r → r.live.length = 1 := fun hJ => live_one h.good.inv.wf h.l0 (fun x hx => hJ x _ hx h.l0)
  -- the improvement phase
  have hfull : ∀ (t1 : Trees P) (q : Q), t1.root0 = t.root0 → t1.root1 = t.root1 → Joined r → Full C.len r t1.map0 t1.root0 → Full C.len r t1.map1 t1.root1 →
      ∃ r' t', improve C q r t1 = .ok (r', t') ∧ SInv C Valid r' t' ∧ Ext r r' ∧ t'.root0 = t.root0 ∧ t'.root1 = t.root1 ∧
        Better C.len t1.map0 t'.map0 t.root0 ∧ Better C.len t1.map1 t'.map1 t.root1 := by
    intro t1 q e0 e1 hJ f0 f1
    obtain ⟨r', t', k1, k2, k3, k4, k5, k6, k7, k8, k9, k10⟩ := improve_spec hC h.good f0 f1 (by rw [e0]; exact h.l0) hJ q
    refine ⟨r', t', k1, ⟨k2, ?_, ?_, ?_, ?_, Or.inr (Or.inr ⟨k4, ?_, ?_⟩)⟩, k3, by rw [k5, e0], by rw [k6, e1], by rw [← e0]; exact k9, by rw [← e1]; exact k10⟩
    · rw [k5, e0]; exact lt_of_lt_of_le h.l0 k3.grow.length
    · rw [k6, e1]; exact lt_of_lt_of_le h.l1 k3.grow.length
    · rw [k5]; exact k7.tree
    · rw [k6]; exact k8.tree
    · rw [k5]; exact k7
    · rw [k6]; exact k8
  rcases h.phase with S | ⟨hJ, hm⟩ | ⟨hJ, f0, f1⟩
  · -- two components
    refine ⟨0, fun fp => ?_⟩
    have h2 := live_two h.good.inv.wf S.la S.lb S.ne S.cover
    obtain ⟨q, hq⟩ := sample_spec (C := C) h.good h.tree0 w (fun hh => by rw [h2] at hh; simp at hh)
    unfold oneStep
    simp only [hq]
    rw [if_pos h2]
    obtain ⟨r1, m0, q1, ok, k1, k2, k3, k4, k5, k6⟩ := extend_spec hC h.good S q
    rw [k1]
    have hm1 : t.map1 t.root0 = none := by
      by_contra hh
      exact S.ne ((S.hb.dom _).1 hh).2
    have hm0 : t.map0 t.root1 = none := by
      by_contra hh
      exact S.ne ((S.ha.dom _).1 hh).2.symm
    have l0' := lt_of_lt_of_le h.l0 k3.grow.length
    have l1' := lt_of_lt_of_le h.l1 k3.grow.length
    cases ok with
    | false =>
      left
      rcases k6 with k6 | ⟨hh, -⟩
      · refine ⟨r1, _, rfl, ⟨k2, l1', l0', h.tree1.grow k3.grow, k4, Or.inl k6.symm⟩, k3, Or.inr ⟨rfl, rfl⟩, fun _ => Or.inr ⟨rfl, rfl, Better.refl _ _ _, k5⟩⟩
      · simp at hh
    | true =>
      simp only
      by_cases hcc : r1.cc t.root0 = r1.cc t.root1
      · rw [if_pos hcc]
        left
        rcases k6 with k6 | ⟨-, k6⟩
        · exact absurd hcc k6.ne
        · exact ⟨r1, _, rfl, ⟨k2, l0', l1', k4, h.tree1.grow k3.grow, Or.inr (Or.inl ⟨k6, hm1⟩)⟩, k3, Or.inl ⟨rfl, rfl⟩,
            fun _ => Or.inl ⟨rfl, rfl, k5, Better.refl _ _ _⟩⟩
      · rw [if_neg hcc]
        rcases k6 with k6 | ⟨-, k6⟩
        · rcases connectLoop_spec hC fc k2 k6.symm q1 with c1 | ⟨r2, m1, ok, c1, c2, c3, c4, c5, c6⟩
          · right; left
            rw [c1]
            exact ⟨rfl, Or.inr h2⟩
          · left
            rw [c1]
            refine ⟨r2, _, rfl, ⟨c2, lt_of_lt_of_le l1' c3.grow.length, lt_of_lt_of_le l0' c3.grow.length, c4, k4.grow c3.grow, ?_⟩, k3.trans c3, Or.inr ⟨rfl, rfl⟩,
              fun _ => Or.inr ⟨rfl, rfl, c5, k5⟩⟩
            rcases c6 with c6 | c6
            · exact Or.inl c6
            · refine Or.inr (Or.inl ⟨c6, ?_⟩)
              by_contra hh
              have := (k6.ha.dom t.root1).1 hh
              exact k6.ne this.2.symm
        · exact absurd (k6 _ _ l0' l1') hcc
  · -- one component, maps to be computed
    have h1 := one hJ
    have hpend : Pending r t := ⟨h1, hm⟩
    obtain ⟨F0, hF0⟩ := computeParentMap_full hC hp h.good hJ h.l0
    obtain ⟨F1, hF1⟩ := computeParentMap_full hC hp h.good hJ h.l1
    refine ⟨max F0 F1, fun fp => ?_⟩
    by_cases hs : w.informed = true ∧ t.map0 t.root1 = none
    · right; right
      refine ⟨?_, hpend, hs.1, hs.2⟩
      unfold oneStep
      simp only [sample_end (C := C) w h1 hs.1 hs.2]
    · obtain ⟨q, hq⟩ := sample_spec (C := C) h.good h.tree0 w (fun _ hh => fun hh' => hs ⟨hh, hh'⟩)
      unfold oneStep
      simp only [hq]
      rw [if_neg (by rw [h1]; decide), if_pos hm]
      cases e0 : computeParentMap C.len r.out pop fp t.root0 with
      | none =>
        right; left
        refine ⟨rfl, Or.inl ⟨hpend, ?_⟩⟩
        by_contra hh
        exact (hF0 fp).1 (le_trans (le_max_left _ _) (not_lt.1 hh)) e0
      | some m0 =>
        cases e1 : computeParentMap C.len r.out pop fp t.root1 with
        | none =>
          right; left
          refine ⟨rfl, Or.inl ⟨hpend, ?_⟩⟩
          by_contra hh
          exact (hF1 fp).1 (le_trans (le_max_right _ _) (not_lt.1 hh)) e1
        | some m1 =>
          left
          obtain ⟨r', t', k1, k2, k3, k4, k5, -⟩ := hfull ⟨t.root0, t.root1, m0, m1⟩ q rfl rfl hJ ((hF0 fp).2 m0 e0) ((hF1 fp).2 m1 e1)
          exact ⟨r', t', k1, k2, k3, Or.inl ⟨k4, k5⟩, fun hh => absurd hpend hh⟩
  · -- one component, both trees span it
    refine ⟨0, fun fp => Or.inl ?_⟩
    have h1 := one hJ
    obtain ⟨q, hq⟩ := sample_spec (C := C) h.good h.tree0 w (fun _ _ => f0.dom _ h.l1)
    unfold oneStep
    simp only [hq]
    rw [if_neg (by rw [h1]; decide), if_neg (f1.dom _ h.l0)]
    obtain ⟨r', t', k1, k2, k3, k4, k5, k6, k7⟩ := hfull t q rfl rfl hJ f0 f1
    exact ⟨r', t', k1, k2, k3, Or.inl ⟨k4, k5⟩, fun _ => Or.inl ⟨k4, k5, k6, k7⟩⟩

/-! ## Start -/

omit [IsOrderedAddMonoid K] in
theorem addAll_configs (l : List (Nat × Nat × P)) (h : Good C.toPEnv Valid [] r) {r' : Roadmap Q P} (ho : addAll l r = .ok r')
    (hl : ∀ x ∈ l, FutureOk C.toPEnv Valid r x) : r'.configs = r.configs := by
  induction l generalizing r with
  | nil => rw [← Except.ok.inj ho]
  | cons x l ih =>
    obtain ⟨a, b, p⟩ := x
    obtain ⟨h1, h2, h3⟩ := hl (a, b, p) (by simp)
    obtain ⟨r1, k1, k2, k3, k4, -⟩ := h.addEdge h1 h2 h3
    simp only [addAll, k1] at ho
    rw [ih k2 ho (fun x hx => (hl x (by simp [hx])).mono k3.grow), k4]

theorem tryConnect_configs (hC : Contract C.toPEnv Valid) (h : Good C.toPEnv Valid [] r) {i : Nat} (hi : r.init = some i) :
    ∃ r', tryConnect C.toPEnv r = .ok r' ∧ Good C.toPEnv Valid [] r' ∧ Ext r r' ∧ r'.configs = r.configs := by
  obtain ⟨l, h1, h2⟩ := futureEdges_spec hC h.inv true (h.inv.init i hi) r.live (fun _ hc => hc)
  obtain ⟨l', h3, h4⟩ := goalEdges_spec hC h.inv r.goals h.inv.goals
  have hl : ∀ x ∈ l ++ l', FutureOk C.toPEnv Valid r x := fun x hx => by
    rcases List.mem_append.1 hx with hx | hx
    · exact h2 x hx
    · exact h4 x hx
  obtain ⟨r', h5, h6, h7⟩ := addAll_spec (l ++ l') h hl
  refine ⟨r', ?_, h6, h7, addAll_configs _ h h5 hl⟩
  unfold tryConnect
  rw [hi]
  simp only [h1, h3, h5]

/-- A tree reduced to its root. -/
theorem Tree.single {len : P → K} (hr : root < r.configs.length) : Tree len r (set (fun _ => none) root (some none)) root := by
  have hv : ∀ n x, (set (fun _ => none) root (some none) : PMap P) n = some x → n = root ∧ x = none := by
    intro n x hx
    by_cases hn : n = root
    · subst hn; rw [set_eq] at hx; exact ⟨rfl, (Option.some.inj hx).symm⟩
    · rw [set_ne _ _ hn] at hx; simp at hx
  refine ⟨?_, ?_, ?_⟩
  · intro n hn
    obtain ⟨x, hx⟩ := Option.ne_none_iff_exists'.1 hn
    obtain ⟨rfl, rfl⟩ := hv n x hx
    exact ⟨0, 0, Up.root hx⟩
  · intro n e hn
    have := (hv n _ hn).2
    simp at this
  · intro n hn
    obtain ⟨x, hx⟩ := Option.ne_none_iff_exists'.1 hn
    rw [(hv n x hx).1]; exact hr

theorem setParent_root (n : Nat) : setParent (fun _ => none : PMap P) n none true = .ok (set (fun _ => none) n (some none)) := by
  unfold setParent
  rw [if_neg (by simp), if_neg (by simp)]

/-- The state after `startSolve` and the direct connection, with one goal and an empty roadmap. -/
theorem start_state (hC : SContract C Valid) (q0 g : Q) :
    ∃ r t, starStart C q0 [g] Roadmap.empty = .ok (r, t) ∧ SInv C Valid r t ∧ Tagged q0 [g] r ∧ r.init = some t.root0 ∧ r.goals = [t.root1] ∧
      (∀ x, x < r.configs.length → x = t.root0 ∨ x = t.root1) ∧ t.map0 = set (fun _ => none) t.root0 (some none) ∧ t.map1 = set (fun _ => none) t.root1 (some none) ∧
      ∃ r1 : Roadmap Q P, r1.edges = [] ∧ r1.init = some t.root0 ∧ r1.goals = [t.root1] ∧ tryConnect C.toPEnv r1 = .ok r := by
  have hg0 : Good C.toPEnv Valid [] (resetGoalNodes (Roadmap.empty : Roadmap Q P)) := ⟨⟨Inv.empty.wf, Inv.empty.adj, Inv.empty.sem, by simp [resetGoalNodes, Roadmap.empty], by simp [resetGoalNodes]⟩, by
    intro e he; simp [resetGoalNodes, Roadmap.empty] at he⟩
  obtain ⟨r1, n, a1, a2, a3, a4, a5, a6, a7⟩ := addNode_good hg0 q0
  have hn : n = 0 := by simpa [resetGoalNodes, Roadmap.empty] using a6
  subst hn
  have hlen1 : r1.configs.length = 1 := by rw [a7]; simp [resetGoalNodes, Roadmap.empty]
  have hgood1 : Good C.toPEnv Valid [] { r1 with init := some 0 } := a2.setInit (by omega)
  obtain ⟨r2, n, b1, b2, b3, b4, b5, b6, b7⟩ := addNode_good hgood1 g
  have hlen2 : r2.configs.length = max 1 (n + 1) := by rw [b7]; exact congrArg (fun x => max x (n + 1)) hlen1
  have hnle : n ≤ 1 := by rw [← hlen1]; exact b6
  have hgoals : r2.goals = [] := by rw [b3.goals]; show r1.goals = []; rw [a3.goals]; rfl
  have hstart : startSolve C.toPEnv q0 [g] Roadmap.empty = .ok { r2 with goals := r2.goals ++ [n] } := by
    simp only [startSolve, Roadmap.setInit, a1, addGoals, addGoalNode, bind, Except.bind, pure, Except.pure, b1]
  have hgood2 : Good C.toPEnv Valid [] { r2 with goals := r2.goals ++ [n] } := by
    refine b2.setGoals ?_
    intro x hx
    rw [hgoals, List.nil_append, List.mem_singleton] at hx
    rw [hx, hlen2]; omega
  have hinit : ({ r2 with goals := r2.goals ++ [n] } : Roadmap Q P).init = some 0 := b3.init
  obtain ⟨r3, c1, c2, c3, c4⟩ := tryConnect_configs hC.base hgood2 hinit
  obtain ⟨-, -, -, -, -, htag⟩ : ∃ r', startSolve C.toPEnv q0 [g] Roadmap.empty = .ok r' ∧ Good C.toPEnv Valid [] r' ∧ Grow Roadmap.empty r' ∧ Tagged q0 [g] r' :=
    startSolve_spec ⟨Inv.empty, by simp [Roadmap.empty]⟩ q0 [g]
  have htag : Tagged q0 [g] { r2 with goals := r2.goals ++ [n] } := by
    obtain ⟨r', s1, -, -, s2⟩ := startSolve_spec (C := C.toPEnv) (Valid := Valid) (V := []) (r := Roadmap.empty) ⟨Inv.empty, by simp [Roadmap.empty]⟩ q0 [g]
    rw [hstart] at s1
    rw [Except.ok.inj s1]; exact s2
  have hlen3 : r3.configs.length = max 1 (n + 1) := by rw [c4]; exact hlen2
  have l0 : 0 < r3.configs.length := by rw [hlen3]; omega
  have ln : n < r3.configs.length := by rw [hlen3]; omega
  have hlt : ∀ x, x < r3.configs.length → x = 0 ∨ x = n := by intro x hx; rw [hlen3] at hx; omega
  refine ⟨r3, ⟨0, n, set (fun _ => none) 0 (some none), set (fun _ => none) n (some none)⟩, ?_, ⟨c2, l0, ln, Tree.single l0, Tree.single ln, ?_⟩,
    htag.mono c3, by rw [c3.init]; exact hinit, by rw [c3.goals, hgoals]; rfl, hlt, rfl, rfl, _, ?_, hinit, by rw [hgoals]; rfl, c1⟩
  · unfold starStart
    rw [hstart]
    simp only [hgoals, List.nil_append, setParent_root]
    rw [hgoals, List.nil_append] at c1
    have : ({ r2 with goals := [n] } : Roadmap Q P) = { r2 with goals := r2.goals ++ [n] } := by rw [hgoals]; rfl
    rw [b3.init] at *
    simp only [c1]
  rotate_left
  · show r2.edges = []
    rw [b5]
    show r1.edges = []
    rw [a5]
    rfl
  · by_cases hn0 : n = 0
    · subst hn0
      right; right
      have hall : ∀ x, x < r3.configs.length → x = 0 := fun x hx => by rcases hlt x hx with h | h <;> exact h
      refine ⟨fun x y hx hy => by rw [hall x hx, hall y hy], ⟨Tree.single l0, ?_⟩, ⟨Tree.single l0, ?_⟩⟩
      · intro x hx; rw [hall x hx]; simp [Roadmap.set]
      · intro x hx; rw [hall x hx]; simp [Roadmap.set]
    · have hn1 : (set (fun _ => none) n (some none) : PMap P) 0 = none := set_ne _ _ (fun hh => hn0 hh.symm)
      by_cases hcc : r3.cc 0 = r3.cc n
      · right; left
        refine ⟨?_, hn1⟩
        have hall : ∀ x, x < r3.configs.length → r3.cc x = r3.cc 0 := fun x hx => by
          rcases hlt x hx with rfl | rfl
          · rfl
          · exact hcc.symm
        intro x y hx hy
        rw [hall x hx, hall y hy]
      · left
        refine ⟨l0, ln, hcc, fun x hx => ?_, ⟨Tree.single l0, ?_⟩, ⟨Tree.single ln, ?_⟩⟩
        · rcases hlt x hx with rfl | rfl
          · exact Or.inl rfl
          · exact Or.inr rfl
        · intro x
          constructor
          · intro hx
            by_cases hx0 : x = 0
            · subst hx0; exact ⟨l0, rfl⟩
            · exact absurd (show (Roadmap.set (fun _ => none) _ (some none) : PMap P) x = none from set_ne _ _ hx0) hx
          · rintro ⟨hx, hx'⟩
            rcases hlt x hx with rfl | rfl
            · simp [Roadmap.set]
            · exact absurd hx'.symm hcc
        · intro x
          constructor
          · intro hx
            by_cases hx0 : x = n
            · subst hx0; exact ⟨ln, rfl⟩
            · exact absurd (show (Roadmap.set (fun _ => none) _ (some none) : PMap P) x = none from set_ne _ _ hx0) hx
          · rintro ⟨hx, hx'⟩
            rcases hlt x hx with rfl | rfl
            · exact absurd hx' hcc
            · simp [Roadmap.set]

/-- With one goal and an empty roadmap, the resolution starts in a state of the invariant. -/
theorem C83_start (hC : SContract C Valid) (q0 g : Q) :
    ∃ r t, starStart C q0 [g] Roadmap.empty = .ok (r, t) ∧ SInv C Valid r t ∧ Tagged q0 [g] r ∧ r.init = some t.root0 ∧ r.goals = [t.root1] := by
  obtain ⟨r, t, h1, h2, h3, h4, h5, -⟩ := start_state hC q0 g
  exact ⟨r, t, h1, h2, h3, h4, h5⟩

/-- With a number of goals other than one, `startSolve` throws (the goals are the goal nodes after `startSolve` of the base class). -/
theorem C83_start_goals (q0 : Q) (gs : List Q) {V : List (Nat × Nat)} (h : Good C.toPEnv Valid V r) (hl : ∀ r1, startSolve C.toPEnv q0 gs r = .ok r1 → r1.goals.length ≠ 1) :
    starStart C q0 gs r = .error .invalidArgument := by
  obtain ⟨r1, h1, -⟩ := startSolve_spec h q0 gs
  have := hl r1 h1
  unfold starStart
  rw [h1]
  simp only
  split
  · rename_i g hg; rw [hg] at this; simp at this
  · rfl

/-! ## Resolution -/

/-- Errors of the planner as errors of the resolution: reading `end()` is recorded as a null pointer. -/
def starErr : SErr → PlanErr
  | .road e => .road e
  | .endIterator => .road .nullPointer
  | .logic => .failed
  | .invalidArgument => .badParameter
  | .fuel => .road .outOfFuel

/-- The planner: state `Trees`, number of steps. -/
def birrtstar (C : SEnv Q P K) (heur : Roadmap Q P → Nat → K) (pop : List (WNode P K) → Option (WNode P K × List (WNode P K))) (fc fp : Nat) (q0 : Q) (gs : List Q)
    (draws : Nat → Draw Q) : Calls ((Trees P × Nat) × Roadmap Q P) (List P) PlanErr :=
  planCalls C.toPEnv heur
    (fun s => match starStart C q0 gs s.2 with
      | .error e => .error (starErr e)
      | .ok (r, t) => .ok ((t, s.1.2), r))
    (fun s => match oneStep C pop fc fp (draws s.1.2) s.2 s.1.1 with
      | .error e => .error (starErr e)
      | .ok (r, t) => .ok ((t, s.1.2 + 1), r))

/-- C67 for BiRRT*: from an empty roadmap, the path returned is a continuous sequence of validated paths from the init to the goal configuration. -/
theorem C67_birrtstar (hC : SContract C Valid) {pop : List (WNode P K) → Option (WNode P K × List (WNode P K))} (hp : PopOk pop) (heur : Roadmap Q P → Nat → K)
    (fc fp : Nat) (q0 g : Q) (draws : Nat → Draw Q) (x : Trees P × Nat) (st : Settings K) (late intr : Nat → Bool) (fuel : Nat) (l : List P)
    (hl : solve (birrtstar C heur pop fc fp q0 [g] draws) st late intr fuel (x, Roadmap.empty) = .path l) : Solves C.toPEnv Valid q0 [g] l := by
  obtain ⟨r, t, h1, h2, h3, -⟩ := C83_start hC q0 g
  refine solve_solves C.toPEnv Valid heur _ _ q0 [g] (fun s => SInv C Valid s.2 s.1.1 ∧ Tagged q0 [g] s.2)
    (fun s hs => ⟨⟨[], hs.1.good⟩, hs.2⟩) (x, Roadmap.empty) ((t, x.2), r) (by simp only [h1]) ⟨h2, h3⟩ ?_ st late intr fuel l hl
  rintro u u' ⟨k1, k2⟩ hu
  obtain ⟨F, hF⟩ := C83_step_partial hC hp k1 (draws u.1.2) fc
  rcases hF fp with ⟨r', t', a1, a2, a3, -⟩ | ⟨a1, -⟩ | ⟨a1, -⟩
  · simp only [a1] at hu
    rw [← Except.ok.inj hu]
    exact ⟨a2, k2.mono a3⟩
  · simp only [a1] at hu; simp at hu
  · simp only [a1] at hu; simp at hu

/-- C66 for BiRRT*: from an empty roadmap, a resolution fails only when a loop does not end, or when a step that follows the connection of the trees draws its
configuration near the best path. -/
theorem C66_birrtstar_partial (hC : SContract C Valid) {pop : List (WNode P K) → Option (WNode P K × List (WNode P K))} (hp : PopOk pop) (heur : Roadmap Q P → Nat → K)
    (fc fp : Nat) (q0 g : Q) (draws : Nat → Draw Q) (hq : ∀ q, C.steer q q ≠ none) (x : Trees P × Nat) (st : Settings K) (late intr : Nat → Bool) (fuel : Nat)
    (e : PlanErr) (hl : solve (birrtstar C heur pop fc fp q0 [g] draws) st late intr fuel (x, Roadmap.empty) = .error e) :
    e = .road .outOfFuel ∨ (e = .road .nullPointer ∧ ∃ k, (draws k).informed = true) := by
  by_contra hcon
  push Not at hcon
  obtain ⟨r, t, h1, h2, h3, -⟩ := C83_start hC q0 g
  have hm := C39_outcome (birrtstar C heur pop fc fp q0 [g] draws) (fun _ => rfl) st late intr fuel (x, Roadmap.empty) ((t, x.2), r)
    (by simp only [birrtstar, planCalls, h1])
  rw [hl] at hm
  obtain ⟨n, u, k1, k2⟩ := hm
  have step : ∀ u : (Trees P × Nat) × Roadmap Q P, SInv C Valid u.2 u.1.1 ∧ Tagged q0 [g] u.2 → ∀ u', (birrtstar C heur pop fc fp q0 [g] draws).step u = .ok u' →
      SInv C Valid u'.2 u'.1.1 ∧ Tagged q0 [g] u'.2 := by
    rintro u ⟨k1, k2⟩ u' hu
    obtain ⟨F, hF⟩ := C83_step_partial hC hp k1 (draws u.1.2) fc
    simp only [birrtstar, planCalls] at hu
    rcases hF fp with ⟨r', t', a1, a2, a3, -⟩ | ⟨a1, -⟩ | ⟨a1, -⟩
    · simp only [a1] at hu
      rw [← Except.ok.inj hu]
      exact ⟨a2, k2.mono a3⟩
    · simp only [a1] at hu; simp at hu
    · simp only [a1] at hu; simp at hu
  obtain ⟨i1, i2⟩ := after_inv (birrtstar C heur pop fc fp q0 [g] draws) (fun s => SInv C Valid s.2 s.1.1 ∧ Tagged q0 [g] s.2) ((t, x.2), r) ⟨h2, h3⟩
    (fun u u' hu => step u hu u') n u k1
  rcases k2 with k2 | ⟨k2, k3⟩
  · obtain ⟨F, hF⟩ := C83_step_partial hC hp i1 (draws u.1.2) fc
    simp only [birrtstar, planCalls] at k2
    rcases hF fp with ⟨r', t', a1, -⟩ | ⟨a1, -⟩ | ⟨a1, -, a2, -⟩
    · simp only [a1] at k2; simp at k2
    · simp only [a1, Except.error.injEq] at k2
      exact hcon.1 k2.symm
    · simp only [a1, Except.error.injEq] at k2
      exact hcon.2 k2.symm _ a2
  · obtain ⟨l, hl⟩ := computePath_some hq i1.good i2 heur k2
    have k3' : computePath C.toPEnv heur u.2 = .error e := k3
    rw [hl] at k3'
    simp at k3'

/-! ## Examples on the line -/
namespace LineStar

/-- Parameters of BiRRT* on the line: radius 3, paths of length at most 3 and at least 1. -/
def env : SEnv Int Line.LP Int where
  toPEnv := Line.env
  adjust _ q := q
  radius _ := 3
  maxLen := 3
  minLen := 1
  eps := 0
  between _ _ y _ := y

theorem contract : SContract env Line.Free := by
  refine ⟨Line.contract, ?_, ?_, by decide⟩
  · intro p; simp only [env, Line.env, Line.dur]; omega
  · intro p; simp only [env, Line.env, Line.dur]; omega

/-- C83 (lengths): the line meets the hypotheses. -/
theorem lengthOk : LengthOk env.toPEnv := by
  constructor
  · rintro ⟨a, b, t⟩ l h1 h2
    simp only [env, Line.env, Line.dur, Line.pos] at *
    by_cases h : a ≤ b
    · simp only [if_pos h]; omega
    · simp only [if_neg h]; omega
  · rintro ⟨a, b, t⟩
    simp only [env, Line.env, Line.dur]
    by_cases h : a < 10 ∧ b < 10
    · simp only [if_pos h]; omega
    · by_cases h' : a < 10
      · simp only [if_neg h, if_true, if_pos h']; omega
      · simp only [if_neg h, if_true, if_neg h']; omega

example : buildPath env.toPEnv 0 3 (some 2) true = (true, some (0, 2, 0)) := by decide +kernel
example : (match starStart env 0 [8] Roadmap.empty with
    | .ok (r, t) => (match extend { env with maxLen := 2 } 0 3 r t.map0 with
      | .ok (_, _, q, b) => some (q, b)
      | _ => none)
    | _ => none) = some (2, true) := by decide +kernel

/-- Steps that draw from the shooter. -/
def shots (f : Nat → Int) : Nat → Draw Int := fun k => ⟨f k, false, 0, k⟩
/-- Steps that draw near the best path when there is one. -/
def near (f : Nat → Int) : Nat → Draw Int := fun k => ⟨f k, true, 0, k⟩

def noTrees : Trees Line.LP := ⟨0, 0, fun _ => none, fun _ => none⟩

/-- a resolution stopped as soon as the goal is reached -/
example : Line.out (solve (birrtstar env (fun _ _ => 0) popMax 5 100 0 [8] (shots (fun n => if n = 0 then 3 else 5))) (Settings.default (K := Int))
    (fun _ => false) (fun _ => false) 10 ((noTrees, 0), Roadmap.empty)) = some [(0, 3), (3, 5), (5, 8)] := by decide +kernel

/-- a resolution that continues after the trees met: the maps are computed again and the trees improved -/
example : Line.out (solve (birrtstar env (fun _ _ => 0) popMax 5 100 0 [8] (shots (fun n => if n = 0 then 3 else 5))) (⟨4, none, false⟩ : Settings Int)
    (fun _ => false) (fun _ => false) 20 ((noTrees, 0), Roadmap.empty)) = some [(0, 3), (3, 5), (5, 8)] := by decide +kernel

/-- C66: BiRRT* continues after the trees meet (`stopWhenProblemIsSolved` is false by default for this planner), and the next step draws near the best path
with a map that does not contain the other root. -/
theorem C66_birrtstar_counterexample : SContract env Line.Free ∧
    roadErr (solve (birrtstar env (fun _ _ => 0) popMax 5 100 0 [5] (near (fun _ => 3))) (⟨10, none, false⟩ : Settings Int)
      (fun _ => false) (fun _ => false) 20 ((noTrees, 0), Roadmap.empty)) = some .nullPointer := by
  refine ⟨contract, by decide +kernel⟩

/-- The error of a run of steps on a second resolution: a first one with one step, a second one with one step on the same roadmap. -/
def secondSolve : Option SErr :=
  match starStart env 0 [9] Roadmap.empty with
  | .error _ => none
  | .ok (r, t) => match oneStep env popMax 5 100 (shots (fun _ => 3) 0) r t with
    | .error _ => none
    | .ok (r1, _) => match starStart env 0 [9] r1 with
      | .error _ => none
      | .ok (r2, t2) => match oneStep env popMax 5 100 (shots (fun _ => 4) 1) r2 t2 with
        | .error e => some e
        | .ok _ => none

deriving instance DecidableEq for SErr

/-- C66: a second call of `solve` on the roadmap of an unfinished resolution reads `end()`: `startSolve` resets the maps to the roots but keeps the nodes. -/
theorem C66_birrtstar_second_counterexample : secondSolve = some .endIterator := by decide +kernel

end LineStar

end Verif.Planner.Star
