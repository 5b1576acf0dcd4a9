import Verif.Planner.Diffusing
import Verif.Planner.BiRRTStarProps
set_option linter.unusedSectionVars false

/-!
# Completeness of the diffusing planner (C152)

`DiffusingPlanner` solves every problem whose shots contain, in order and possibly among others, a chain of configurations that leads from the init configuration to a goal, each of which can be reached by an accepted path from
all configurations closer than some radius `R`.
-/
namespace Verif.Planner
open Verif.Roadmap Relation
variable {Q P K : Type} [DecidableEq Q] [AddCommGroup K] [Mul K] [One K] [LinearOrder K]

/-! ## Specification -/

/-- Each node can be reached from the other one along the edges. -/
def Both (r : Roadmap Q P) (a b : Nat) : Prop := NodeReach r a b ∧ NodeReach r b a

/-- From any configuration at distance at most `R` the extension towards `q` is wholly accepted and ends at `q`, and it has positive duration unless it starts at `q`. -/
def SeesBall (C : PEnv Q P K) (D : DiffParams K) (R : K) (q : Q) : Prop :=
  ∀ x, C.dist x q ≤ R → ∃ p, extend C D x q = some p ∧ (C.validate false p).1 = true ∧ C.fin p = q ∧ (x ≠ q → C.t1 (C.validate false p).2 ≠ C.t0 p)

/-- The part of an extension that is inserted in the roadmap: diffusing-planner.cc:217-224. -/
def inserted (C : PEnv Q P K) (D : DiffParams K) (p : P) : P :=
  if (C.validate false p).1 = false ∧ 0 < D.stepRatio ∧ D.stepRatio < 1 then
    C.extract (C.validate false p).2 (C.t0 (C.validate false p).2) (C.t0 (C.validate false p).2 + C.len (C.validate false p).2 * D.stepRatio) else (C.validate false p).2

/-- The accepted part of a refused extension towards `q` stops before `q`. -/
def Sharp (C : PEnv Q P K) (D : DiffParams K) (q : Q) : Prop :=
  ∀ x p, extend C D x q = some p → (C.validate false p).1 = false → C.fin (inserted C D p) ≠ q

/-! ## Proofs -/

variable {C : PEnv Q P K} {Valid : P → Prop} {D : DiffParams K} {r : Roadmap Q P} {R : K} {q : Q}

theorem Both.refl (r : Roadmap Q P) (a : Nat) : Both r a a := ⟨ReflTransGen.refl, ReflTransGen.refl⟩
theorem Both.symm {a b : Nat} (h : Both r a b) : Both r b a := ⟨h.2, h.1⟩
theorem Both.trans {a b c : Nat} (h : Both r a b) (h' : Both r b c) : Both r a c := ⟨ReflTransGen.trans h.1 h'.1, ReflTransGen.trans h'.2 h.2⟩
theorem Both.grow {r' : Roadmap Q P} {a b : Nat} (h : Both r a b) (g : Grow r r') : Both r' a b :=
  ⟨ReflTransGen.mono (fun _ _ hh => g.hasEdge hh) _ _ h.1, ReflTransGen.mono (fun _ _ hh => g.hasEdge hh) _ _ h.2⟩
theorem Both.edges {a b : Nat} (h : HasEdge r a b) (h' : HasEdge r b a) : Both r a b := ⟨ReflTransGen.single h, ReflTransGen.single h'⟩
theorem Both.of_cc (h : Inv [] r) {a b : Nat} (ha : a < r.configs.length) (hb : b < r.configs.length) (hab : r.cc a = r.cc b) : Both r a b :=
  ⟨h.semNil.same a b ha hb hab, h.semNil.same b a hb ha hab.symm⟩

/-- Inserting a node with its two edges does not change the component of the other nodes. -/
theorem addNodeAndEdges_cc {V : List (Nat × Nat)} (h : Inv V r) {a : Nat} (hla : a < r.configs.length) (q : Q) (p : P) {r' : Roadmap Q P} {n : Nat}
    (hok : addNodeAndEdges C.toEnv r a q p = .ok (r', n)) : ∀ m, m < r.configs.length → r'.cc m = r.cc m := by
  obtain ⟨r1, m, h1, h2, h3, h4⟩ := h.addNodeIn C.toEnv q hla
  have hlive : (∀ k, k < r.configs.length → r1.cc k = r.cc k) ∧ r1.cc m = r1.cc a := by
    rcases h4 with ⟨rfl, k1, k2⟩ | ⟨hr1, hn, -⟩
    · exact ⟨fun _ _ => rfl, k2⟩
    · subst hr1 hn
      refine ⟨fun k hk => ?_, ?_⟩
      · simp only [pushNodeIn]
        rw [set_ne _ _ (by omega)]
      · simp only [pushNodeIn, set_eq]
        rw [set_ne _ _ (by omega)]
  unfold addNodeAndEdges at hok
  rw [if_neg (by omega), h1] at hok
  change (do let r2 ← Roadmap.addEdges C.toEnv r1 a m p; return (r2, m)) = _ at hok
  cases hE : Roadmap.addEdges C.toEnv r1 a m p with
  | error e => rw [hE] at hok; simp [bind, Except.bind] at hok
  | ok r2 =>
    rw [hE] at hok
    have hh : (r2, m) = (r', n) := Except.ok.inj hok
    obtain ⟨rfl, rfl⟩ := Prod.mk.inj hh
    unfold Roadmap.addEdges at hE
    cases hA : addEdge r1 a m p with
    | error e => rw [hA] at hE; simp [bind, Except.bind] at hE
    | ok r3 =>
      rw [hA] at hE
      have hE' : addReverseEdge r3 a m (C.rev p) = .ok r2 := hE
      obtain ⟨k1, k2⟩ := addEdge_live_same hA hlive.2.symm
      obtain ⟨k3, k4⟩ := addReverseEdge_live_same hE' (by rw [k2]; exact hlive.2.symm)
      intro k hk
      rw [k4, k2, hlive.1 k hk]

/-- What the body of the loop on the components does. -/
theorem growOne_cases {s s' : Local Q P} (h : Inv [] s.r) {c : Nat} (hc : c ∈ s.r.live) (hs : growOne C D q s c = .ok s') :
    ∃ near x, s.r.configs[near]? = some x ∧ s.r.cc near = c ∧ (∀ m y, s.r.configs[m]? = some y → s.r.cc m = c → C.dist x q ≤ C.dist y q) ∧
      ((s'.r = s.r ∧ s'.delayed = s.delayed ∧ s'.newNodes = s.newNodes ∧ ∀ p, extend C D x q = some p → C.t1 (C.validate false p).2 = C.t0 p) ∨
       (∃ p n, extend C D x q = some p ∧ C.t1 (C.validate false p).2 ≠ C.t0 p ∧ ((C.validate false p).1 = false ∨ belongs s.r (C.fin (inserted C D p)) s.newNodes = false) ∧
          addNodeAndEdges C.toEnv s.r near (C.fin (inserted C D p)) (inserted C D p) = .ok (s'.r, n) ∧ s'.delayed = s.delayed ∧ s'.newNodes = s.newNodes ++ [n]) ∨
       (∃ p, extend C D x q = some p ∧ C.t1 (C.validate false p).2 ≠ C.t0 p ∧ (C.validate false p).1 = true ∧ s'.r = s.r ∧ s'.newNodes = s.newNodes ∧
          belongs s.r (C.fin (inserted C D p)) s.newNodes = true ∧ s'.delayed = s.delayed ++ [(near, C.fin (inserted C D p), inserted C D p)])) := by
  obtain ⟨d, near, h1, h2⟩ := search_spec C.toEnv h.wf q hc false
  obtain ⟨x, hx, hd⟩ := h2.config
  obtain ⟨ho1, ho2⟩ := h.wf.owned _ hc near h2.mem
  refine ⟨near, x, hx, ho2, ?_, ?_⟩
  · intro m y hm hmc
    have := h2.le m (by rw [← hmc]; exact h.wf.mem m (lt_of_get hm)) y hm
    rw [hd] at this
    simpa [qdist] using this
  · unfold growOne at hs
    simp only [h1, hx] at hs
    cases he : extend C D x q with
    | none =>
      rw [he] at hs
      have := Except.ok.inj hs
      subst this
      exact Or.inl ⟨rfl, rfl, rfl, by simp⟩
    | some p =>
      rw [he] at hs
      simp only at hs
      by_cases ht : C.t1 (C.validate false p).2 ≠ C.t0 p
      · rw [if_pos ht] at hs
        change (if (C.validate false p).1 = false ∨ belongs s.r (C.fin (inserted C D p)) s.newNodes = false then
            match addNodeAndEdges C.toEnv s.r near (C.fin (inserted C D p)) (inserted C D p) with
            | Except.error e => Except.error e
            | Except.ok (r', n) => Except.ok (⟨r', s.newNodes ++ [n], s.nearest ++ [near], s.delayed⟩ : Local Q P)
          else Except.ok ⟨s.r, s.newNodes, s.nearest ++ [near], s.delayed ++ [(near, C.fin (inserted C D p), inserted C D p)]⟩) = Except.ok s' at hs
        by_cases hb : (C.validate false p).1 = false ∨ belongs s.r (C.fin (inserted C D p)) s.newNodes = false
        · rw [if_pos hb] at hs
          right; left
          cases ha : addNodeAndEdges C.toEnv s.r near (C.fin (inserted C D p)) (inserted C D p) with
          | error e => rw [ha] at hs; simp at hs
          | ok z =>
            rw [ha] at hs
            have := Except.ok.inj hs
            subst this
            exact ⟨p, z.2, rfl, ht, hb, ha, rfl, rfl⟩
        · rw [if_neg hb] at hs
          right; right
          have := Except.ok.inj hs
          subst this
          push Not at hb
          exact ⟨p, rfl, ht, by simpa using hb.1, rfl, rfl, by simpa using hb.2, rfl⟩
      · rw [if_neg ht] at hs
        have := Except.ok.inj hs
        subst this
        refine Or.inl ⟨rfl, rfl, rfl, ?_⟩
        intro p' hp'
        rw [← Option.some.inj hp']
        exact not_not.1 ht

/-- Invariant of the loop on the components: nodes of the components that have been extended and are close to the shot are linked to it, or will be by a delayed edge. -/
structure Spread (C : PEnv Q P K) (R : K) (q : Q) (r : Roadmap Q P) (cs : List Nat) (s : Local Q P) : Prop where
  cc : ∀ m, m < r.configs.length → s.r.cc m = r.cc m
  done : ∀ m x, r.configs[m]? = some x → r.cc m ∈ cs → C.dist x q ≤ R →
    ∃ near, Both s.r m near ∧ ((∃ n, s.r.configs[n]? = some q ∧ Both s.r near n) ∨ ∃ p, (near, q, p) ∈ s.delayed)

/-- At most one node has the shot as configuration, and it is new. -/
def Uniq (q : Q) (s : Local Q P) : Prop := ∀ n, s.r.configs[n]? = some q → n ∈ s.newNodes ∧ ∀ n', s.r.configs[n']? = some q → n' = n

theorem inserted_valid {p : P} (hv : (C.validate false p).1 = true) : inserted C D p = (C.validate false p).2 := by
  unfold inserted
  rw [hv]
  simp

theorem growOne_spread (hC : Contract C Valid) (hq : SeesBall C D R q) {s s' : Local Q P} (h : LocalOk C Valid [] r s) {c : Nat} (hc : c ∈ r.live)
    (hs : growOne C D q s c = .ok s') {cs : List Nat} (hS : Spread C R q r cs s) : Spread C R q r (c :: cs) s' := by
  obtain ⟨near, x, h1, h2, h3, h4⟩ := growOne_cases h.good.inv (h.live ▸ hc) hs
  have hgrow : Grow s.r s'.r := by
    rcases h4 with ⟨h4, -⟩ | ⟨p, n, -, -, -, h4, -⟩ | ⟨p, -, -, -, h4, -⟩
    · rw [h4]; exact Grow.refl _
    · obtain ⟨r', n', k1, k2, k3, k4⟩ := h.good.inv.addNodeAndEdges C.toEnv (C.fin (inserted C D p)) (lt_of_get h1) (inserted C D p)
      rw [h4] at k1
      obtain ⟨rfl, rfl⟩ := Prod.mk.inj (Except.ok.inj k1)
      exact k3.grow
    · rw [h4]; exact Grow.refl _
  have hdel : ∀ z ∈ s.delayed, z ∈ s'.delayed := by
    rcases h4 with ⟨-, h4, -⟩ | ⟨p, n, -, -, -, -, h4, -⟩ | ⟨p, -, -, -, -, -, -, h4⟩
    · rw [h4]; exact fun _ hz => hz
    · rw [h4]; exact fun _ hz => hz
    · rw [h4]; exact fun _ hz => List.mem_append_left _ hz
  constructor
  · intro m hm
    have hm' : m < s.r.configs.length := lt_of_lt_of_le hm h.ext.grow.length
    rw [← hS.cc m hm]
    rcases h4 with ⟨h4, -⟩ | ⟨p, n, -, -, -, h4, -⟩ | ⟨p, -, -, -, h4, -⟩
    · rw [h4]
    · exact addNodeAndEdges_cc h.good.inv (lt_of_get h1) _ _ h4 m hm'
    · rw [h4]
  · intro m y hm hmc hd
    rcases List.mem_cons.1 hmc with hmc | hmc
    · have hms := h.ext.grow.get hm
      have hmcc : s.r.cc m = c := by rw [hS.cc m (lt_of_get hm), hmc]
      have hx : C.dist x q ≤ R := (h3 m y hms hmcc).trans hd
      obtain ⟨p, e1, e2, e3, e4⟩ := hq x hx
      have hin := inserted_valid (C := C) (D := D) e2
      have hfin : C.fin (inserted C D p) = q := by rw [hin, (hC.valid_true false p e2).2.2.2, e3]
      refine ⟨near, (Both.of_cc h.good.inv (lt_of_get hms) (lt_of_get h1) (by rw [hmcc, h2])).grow hgrow, ?_⟩
      rcases h4 with ⟨h4, -, -, h5⟩ | ⟨p', n, e, -, -, h4, -, -⟩ | ⟨p', e, -, -, -, -, -, h4⟩
      · have hxq : x = q := by
          by_contra hne
          exact e4 hne (h5 p e1)
        exact Or.inl ⟨near, by rw [h4, h1, hxq], Both.refl _ _⟩
      · rw [e1] at e
        obtain rfl := Option.some.inj e
        obtain ⟨r', n', k1, k2, k3, k4⟩ := h.good.inv.addNodeAndEdges C.toEnv (C.fin (inserted C D p)) (lt_of_get h1) (inserted C D p)
        rw [h4] at k1
        obtain ⟨rfl, rfl⟩ := Prod.mk.inj (Except.ok.inj k1)
        exact Or.inl ⟨n, by rw [k3.get, hfin], Both.edges ((k4 _ _).2 (Or.inr (Or.inl ⟨rfl, rfl⟩))) ((k4 _ _).2 (Or.inr (Or.inr ⟨rfl, rfl⟩)))⟩
      · rw [e1] at e
        obtain rfl := Option.some.inj e
        exact Or.inr ⟨inserted C D p, by rw [h4, hfin]; simp⟩
    · obtain ⟨nr, k1, k2⟩ := hS.done m y hm hmc hd
      refine ⟨nr, k1.grow hgrow, ?_⟩
      rcases k2 with ⟨n, k2, k3⟩ | ⟨p, k2⟩
      · exact Or.inl ⟨n, hgrow.get k2, k3.grow hgrow⟩
      · exact Or.inr ⟨p, hdel _ k2⟩

theorem growOne_uniq (hsh : Sharp C D q) {s s' : Local Q P} (h : LocalOk C Valid [] r s) {c : Nat} (hc : c ∈ r.live) (hs : growOne C D q s c = .ok s') (hU : Uniq q s) : Uniq q s' := by
  obtain ⟨near, x, h1, h2, h3, h4⟩ := growOne_cases h.good.inv (h.live ▸ hc) hs
  rcases h4 with ⟨h4, -, h5, -⟩ | ⟨p, n, e1, -, hb, h4, -, h5⟩ | ⟨p, -, -, -, h4, h5, -⟩
  · unfold Uniq
    rw [h4, h5]
    exact hU
  · obtain ⟨r', n', k1, k2, k3, k4⟩ := h.good.inv.addNodeAndEdges C.toEnv (C.fin (inserted C D p)) (lt_of_get h1) (inserted C D p)
    rw [h4] at k1
    obtain ⟨hr, rfl⟩ := Prod.mk.inj (Except.ok.inj k1)
    rw [← hr] at k3
    unfold Uniq
    rw [h5]
    by_cases hf : C.fin (inserted C D p) = q
    · have hv : (C.validate false p).1 = true := by
        by_contra hv
        exact hsh x p e1 (by simpa using hv) hf
      have hb' : belongs s.r q s.newNodes = false := by
        rcases hb with hb | hb
        · rw [hv] at hb; simp at hb
        · rw [← hf]; exact hb
      have hno : ∀ k : Nat, s.r.configs[k]? ≠ some q := by
        intro k hk
        have := (hU k hk).1
        unfold belongs at hb'
        simp only [List.any_eq_false, decide_eq_true_eq] at hb'
        exact hb' k this hk
      rw [hf] at k3
      have hall : ∀ k, s'.r.configs[k]? = some q → k = n := by
        intro k hk
        rcases k3.configs with ⟨-, hcf⟩ | ⟨hn, hcf⟩
        · rw [hcf] at hk; exact absurd hk (hno k)
        · rw [hcf] at hk
          by_cases hkl : k < s.r.configs.length
          · rw [List.getElem?_append_left hkl] at hk
            exact absurd hk (hno k)
          · have := lt_of_get hk
            simp at this
            omega
      intro k hk
      have := hall k hk
      subst this
      exact ⟨by simp, fun k' hk' => hall k' hk'⟩
    · have hsame : ∀ k : Nat, s'.r.configs[k]? = some q → s.r.configs[k]? = some q := by
        intro k hk
        rcases k3.configs with ⟨-, hcf⟩ | ⟨hn, hcf⟩
        · rw [hcf] at hk; exact hk
        · rw [hcf] at hk
          by_cases hkl : k < s.r.configs.length
          · rw [List.getElem?_append_left hkl] at hk
            exact hk
          · have := lt_of_get hk
            simp at this
            have hkn : k = s.r.configs.length := by omega
            subst hkn
            simp at hk
            exact absurd hk hf
      intro k hk
      obtain ⟨m1, m2⟩ := hU k (hsame k hk)
      exact ⟨List.mem_append_left _ m1, fun k' hk' => m2 k' (hsame k' hk')⟩
  · unfold Uniq
    rw [h4, h5]
    exact hU

theorem growAll_spread (hC : Contract C Valid) (hq : SeesBall C D R q) (cs : List Nat) {s : Local Q P} (h : LocalOk C Valid [] r s) (hcs : ∀ c ∈ cs, c ∈ r.live) {ds : List Nat}
    (hS : Spread C R q r ds s) : ∃ s', growAll C D q cs s = .ok s' ∧ LocalOk C Valid [] r s' ∧ Spread C R q r (cs.reverse ++ ds) s' ∧ (Sharp C D q → Uniq q s → Uniq q s') := by
  induction cs generalizing s ds with
  | nil => exact ⟨s, rfl, h, by simpa using hS, fun _ hu => hu⟩
  | cons c cs ih =>
    obtain ⟨s1, h1, h2⟩ := growOne_spec (D := D) hC q h (hcs c (by simp))
    have hS1 := growOne_spread hC hq h (hcs c (by simp)) h1 hS
    obtain ⟨s2, h3, h4, h5, h6⟩ := ih h2 (fun c' hc' => hcs c' (by simp [hc'])) hS1
    exact ⟨s2, by simp only [growAll, h1, h3], h4, by simpa using h5, fun hsh hu => h6 hsh (growOne_uniq hsh h (hcs c (by simp)) h1 hu)⟩

/-- `addNode` of a configuration of the roadmap changes nothing. -/
theorem addNode_mem (hE : Separates C.toEnv) (h : Inv [] r) (q : Q) {r' : Roadmap Q P} {n : Nat} (hok : addNode C.toEnv r q = .ok (r', n)) :
    (q ∈ r.configs → r' = r) ∧ (r'.configs = r.configs ∨ r'.configs = r.configs ++ [q]) := by
  obtain ⟨r1, n1, h1, h2, h3, h4, h5, h6, h7, h8⟩ := h.addNode C.toEnv q
  rw [hok] at h1
  obtain ⟨rfl, rfl⟩ := Prod.mk.inj (Except.ok.inj h1)
  constructor
  · intro hq
    rcases h8 with ⟨h8, _⟩ | ⟨_, _, _, h8 | ⟨k, m, hk, hm⟩⟩
    · exact h8
    · rw [h8] at hq; simp at hq
    · exfalso
      have hne : r.configs ≠ [] := fun hh => by rw [hh] at hq; simp at hq
      obtain ⟨k', m', hk', ⟨c, hc1, hc2⟩, hmin⟩ := nearestNode_spec C.toEnv h.wf q false hne
      rw [hk] at hk'; cases hk'
      have := hmin q hq
      rw [hc2] at this
      exact hm (by rw [hc1, hE c q this])
  · rcases h8 with ⟨h8, _⟩ | ⟨_, _, h8, _⟩
    · exact Or.inl (by rw [h8])
    · exact Or.inr h8

/-- A configuration appears at most once. -/
def Once (q : Q) (r : Roadmap Q P) : Prop := ∀ n n' : Nat, r.configs[n]? = some q → r.configs[n']? = some q → n = n'

theorem Once.push {q q' : Q} {r r' : Roadmap Q P} (h : Once q r) (hc : r'.configs = r.configs ++ [q']) (hn : q' = q → q ∉ r.configs) : Once q r' := by
  have key : ∀ n, r'.configs[n]? = some q → (q' ≠ q ∧ r.configs[n]? = some q) ∨ (q' = q ∧ n = r.configs.length) := by
    intro n hq
    rw [hc] at hq
    by_cases hl : n < r.configs.length
    · rw [List.getElem?_append_left hl] at hq
      left
      refine ⟨fun hh => hn hh (List.mem_of_getElem? hq), hq⟩
    · have := lt_of_get hq
      simp at this
      have hnn : n = r.configs.length := by omega
      subst hnn
      simp at hq
      exact Or.inr ⟨hq, rfl⟩
  intro n n' h1 h2
  rcases key n h1 with ⟨a, b⟩ | ⟨a, b⟩ <;> rcases key n' h2 with ⟨a', b'⟩ | ⟨a', b'⟩
  · exact h n n' b b'
  · exact absurd a' a
  · exact absurd a a'
  · rw [b, b']

theorem addDelayed_links (hC : Contract C Valid) (hE : Separates C.toEnv) (l : List (Nat × Q × P)) {r : Roadmap Q P} (h : Good C Valid [] r)
    (hl : ∀ x ∈ l, Valid x.2.2 ∧ r.configs[x.1]? = some (C.ini x.2.2) ∧ x.2.1 = C.fin x.2.2) :
    ∃ r', addDelayed C l r = .ok r' ∧ Good C Valid [] r' ∧ Ext r r' ∧ (∀ x ∈ l, ∃ n, r'.configs[n]? = some x.2.1 ∧ Both r' x.1 n) ∧ (Once q r → Once q r') := by
  induction l generalizing r with
  | nil => exact ⟨r, rfl, h, Ext.refl r, by simp, fun hh => hh⟩
  | cons x l ih =>
    obtain ⟨near, q', p⟩ := x
    obtain ⟨h1, h2, h3⟩ := hl _ (by simp : (near, q', p) ∈ (near, q', p) :: l)
    simp only at h1 h2 h3
    obtain ⟨r1, n, k1, k2, k3, k4⟩ := h.addNode q'
    obtain ⟨r2, m1, m2, m3, m4, m5⟩ := k2.addEdge (b := n) h1 (k3.grow.get h2) (by rw [k4, h3])
    obtain ⟨r3, n1, n2, n3, n4, n5⟩ := m2.addEdge (a := n) (b := near) (hC.rev_valid p h1) (by rw [hC.rev_ini, m4, k4, h3])
      (by rw [hC.rev_fin, m4]; exact k3.grow.get h2)
    have hext := k3.trans (m3.trans n3)
    obtain ⟨r4, j1, j2, j3, j4, j5⟩ := ih n2 (fun x hx => by
      obtain ⟨a1, a2, a3⟩ := hl x (by simp [hx])
      exact ⟨a1, hext.grow.get a2, a3⟩)
    refine ⟨r4, by simp only [addDelayed, k1, m1, n1, j1], j2, hext.trans j3, ?_, ?_⟩
    · intro x hx
      rcases List.mem_cons.1 hx with rfl | hx
      · refine ⟨n, (m3.trans (n3.trans j3)).grow.get k4, (Both.edges ?_ ?_).grow j3.grow⟩
        · exact n3.grow.hasEdge (m5.hasEdge near n |>.2 (Or.inr ⟨rfl, rfl⟩))
        · exact n5.hasEdge n near |>.2 (Or.inr ⟨rfl, rfl⟩)
      · exact j4 x hx
    · intro ho
      refine j5 ?_
      have ho1 : Once q r1 := by
        obtain ⟨a1, a2⟩ := addNode_mem hE h.inv q' k1
        rcases a2 with a2 | a2
        · intro a b; rw [a2]; exact ho a b
        · by_cases hm : q' ∈ r.configs
          · rw [a1 hm]; exact ho
          · exact ho.push a2 (fun hh => hh ▸ hm)
      intro a b
      rw [n4, m4]
      exact ho1 a b

/-- One step with a shot that sees its neighbourhood: each node of the roadmap that is close to the shot gets linked to a node at the shot; if the shot is new, all of them get linked together. -/
theorem diffStep_links (hC : Contract C Valid) (hE : Separates C.toEnv) (hq : SeesBall C D R q) (h : Good C Valid [] r) :
    ∃ r', diffStep C D q r = .ok r' ∧ Good C Valid [] r' ∧ Ext r r' ∧
      (∀ m x, r.configs[m]? = some x → C.dist x q ≤ R → ∃ n, r'.configs[n]? = some q ∧ Both r' m n) ∧
      (Sharp C D q → q ∉ r.configs → ∀ m x m' x', r.configs[m]? = some x → C.dist x q ≤ R → r.configs[m']? = some x' → C.dist x' q ≤ R → Both r' m m') := by
  have h0 : LocalOk C Valid [] r ⟨r, [], [], []⟩ := ⟨h, Ext.refl r, rfl, by simp, by simp, by simp⟩
  obtain ⟨s, h1, h2, h3, h4⟩ := growAll_spread (D := D) hC hq r.live h0 (fun _ hc => hc) (ds := []) ⟨fun _ _ => rfl, by simp⟩
  obtain ⟨r1, k1, k2, k3, k4, k5⟩ := addDelayed_links (q := q) hC hE s.delayed h2.good h2.delayed
  obtain ⟨r2, h6, h7, h8⟩ := linkAll_spec hC s.nearest s.newNodes k2
    (fun n hn => lt_of_lt_of_le (h2.near n hn) k3.grow.length) (fun n hn => lt_of_lt_of_le (h2.new n hn) k3.grow.length)
  have key : ∀ m x, r.configs[m]? = some x → C.dist x q ≤ R → ∃ n, r1.configs[n]? = some q ∧ Both r1 m n := by
    intro m x hm hd
    obtain ⟨near, b1, b2⟩ := h3.done m x hm (by simpa using h.inv.wf.cc_live m (lt_of_get hm)) hd
    rcases b2 with ⟨n, c1, c2⟩ | ⟨p, c1⟩
    · exact ⟨n, k3.grow.get c1, (b1.trans c2).grow k3.grow⟩
    · obtain ⟨n, d1, d2⟩ := k4 _ c1
      exact ⟨n, d1, (b1.grow k3.grow).trans d2⟩
  refine ⟨r2, by simp only [diffStep, h1, k1, h6], h7, h2.ext.trans (k3.trans h8), ?_, ?_⟩
  · intro m x hm hd
    obtain ⟨n, a1, a2⟩ := key m x hm hd
    exact ⟨n, h8.grow.get a1, a2.grow h8.grow⟩
  · intro hsh hnew m x m' x' hm hd hm' hd'
    have hu : Uniq q (⟨r, [], [], []⟩ : Local Q P) := fun n hn => absurd (List.mem_of_getElem? hn) hnew
    have ho : Once q s.r := fun n n' hn hn' => ((h4 hsh hu n hn).2 n' hn').symm
    obtain ⟨n, a1, a2⟩ := key m x hm hd
    obtain ⟨n', a1', a2'⟩ := key m' x' hm' hd'
    have := k5 ho n n' a1 a1'
    subst this
    exact (a2.trans a2'.symm).grow h8.grow

/-! ## The whole planner -/

section
variable [IsOrderedAddMonoid K]

/-- No limit is hit before `N` steps, no interruption is seen up to step `N`, and the target is reached after `N` steps: `solve` returns a path. -/
theorem solveLoop_path {S E : Type} (A : Calls S (List P) E) (hpure : ∀ s, (A.reached s).2 = s) (st : Settings K) (late intr : Nat → Bool) (s0 : S) (N : Nat) (hstop : st.stop = true)
    (hlim : ∀ m < N, ¬ Limit st late m) (hint : ∀ m ≤ N, intr m = false) (htot : ∀ m s, After A s0 m s → ∃ s', A.step s = .ok s')
    (hcp : ∀ m s, After A s0 m s → (A.reached s).1 = true → ∃ l, A.computePath s = .ok l) (hN : ∀ s, After A s0 N s → (A.reached s).1 = true)
    (fuel n : Nat) (s : S) (hs : After A s0 n s) (hnN : n < N) (hf : N ≤ n + fuel) : ∃ l, solveLoop A st late intr fuel n s = .path l := by
  induction fuel generalizing n s with
  | zero => omega
  | succ fuel ih =>
    have hl := hlim n hnN
    have h1 : decide (st.maxIter ≠ 0 ∧ st.maxIter ≤ n) = false := by
      simp only [decide_eq_false_iff_not]
      exact fun h => hl (Or.inl h)
    have h2 : late n = false := by
      by_contra h
      exact hl (Or.inr (by simpa using h))
    obtain ⟨s', h3⟩ := htot n s hs
    have hs' : After A s0 (n + 1) s' := ⟨s, hs, h3⟩
    unfold solveLoop
    simp only [h1, h2, h3, hstop, hint (n + 1) (by omega), Bool.false_eq_true, if_false, if_true, hpure]
    have z1 : ¬ ((0 : Nat) = 1) := by omega
    have z2 : ¬ ((0 : Nat) = 2) := by omega
    simp only [z1, z2, if_false]
    by_cases hr : (A.reached s').1 = true
    · rw [if_pos hr]
      obtain ⟨l, h4⟩ := hcp _ _ hs' hr
      exact ⟨l, by simp only [conclude, h4]⟩
    · rw [if_neg hr]
      have hne : n + 1 ≠ N := by
        rintro rfl
        exact hr (hN s' hs')
      exact ih (n + 1) s' hs' (by omega) (by omega)

theorem solve_path {S E : Type} (A : Calls S (List P) E) (hpure : ∀ s, (A.reached s).2 = s) (st : Settings K) (late intr : Nat → Bool) (s s0 : S) (h0 : A.start s = .ok s0) (N : Nat)
    (hstop : st.stop = true) (hlim : ∀ m < N, ¬ Limit st late m) (hint : ∀ m ≤ N, intr m = false) (htot : ∀ m s, After A s0 m s → ∃ s', A.step s = .ok s')
    (hcp : ∀ m s, After A s0 m s → (A.reached s).1 = true → ∃ l, A.computePath s = .ok l) (hN : ∀ s, After A s0 N s → (A.reached s).1 = true)
    (fuel : Nat) (hf : N ≤ fuel) : ∃ l, solve A st late intr fuel s = .path l := by
  unfold solve
  simp only [h0, hint 0 (by omega), Bool.false_eq_true, if_false, hpure]
  by_cases hr : (A.reached s0).1 = true
  · rw [if_pos hr]
    obtain ⟨l, h4⟩ := hcp 0 s0 rfl hr
    exact ⟨l, by simp only [conclude, h4]⟩
  · rw [if_neg hr]
    have hne : N ≠ 0 := by
      rintro rfl
      exact hr (hN s0 rfl)
    exact solveLoop_path A hpure st late intr s0 N hstop hlim hint htot hcp hN fuel 0 s0 rfl (by omega) (by omega)

/-- Counter, invariant and tags of the states of the diffusing planner. -/
theorem diffusing_after (hC : Contract C Valid) (heur : Roadmap Q P → Nat → K) (q0 : Q) (gs : List Q) (shoot : Nat → Q) {s0 : Nat × Roadmap Q P} (h : Good C Valid [] s0.2) (hT : Tagged q0 gs s0.2)
    (m : Nat) (t : Nat × Roadmap Q P) (ht : After (diffusing C D heur q0 gs shoot) s0 m t) : t.1 = s0.1 + m ∧ Good C Valid [] t.2 ∧ Tagged q0 gs t.2 := by
  induction m generalizing t with
  | zero => rw [show t = s0 from ht]; exact ⟨rfl, h, hT⟩
  | succ m ih =>
    obtain ⟨t', h1, h2⟩ := ht
    obtain ⟨k0, k1, k2⟩ := ih t' h1
    obtain ⟨r', m1, m2, m3⟩ := C66_diffusing hC D (shoot t'.1) k1
    have h2' : lift (diffStep C D (shoot t'.1) t'.2) (t'.1 + 1) = .ok t := h2
    simp only [m1, lift] at h2'
    have := Except.ok.inj h2'
    subst this
    exact ⟨by show t'.1 + 1 = _; omega, m2, k2.mono m3⟩

/-- What has been linked stays linked. -/
theorem diffusing_both (hC : Contract C Valid) (heur : Roadmap Q P → Nat → K) (q0 : Q) (gs : List Q) (shoot : Nat → Q) {s0 : Nat × Roadmap Q P} (h : Good C Valid [] s0.2) (hT : Tagged q0 gs s0.2)
    (m k : Nat) (t u : Nat × Roadmap Q P) (ht : After (diffusing C D heur q0 gs shoot) s0 m t) (hu : After (diffusing C D heur q0 gs shoot) s0 (m + k) u) : Ext t.2 u.2 := by
  induction k generalizing u with
  | zero =>
    rw [after_unique _ s0 m t u ht hu]
    exact Ext.refl _
  | succ k ih =>
    obtain ⟨t', h1, h2⟩ := hu
    obtain ⟨k0, k1, k2⟩ := diffusing_after hC heur q0 gs shoot h hT _ t' h1
    obtain ⟨r', m1, m2, m3⟩ := C66_diffusing hC D (shoot t'.1) k1
    have h2' : lift (diffStep C D (shoot t'.1) t'.2) (t'.1 + 1) = .ok u := h2
    simp only [m1, lift] at h2'
    have := Except.ok.inj h2'
    subst this
    exact (ih t' h1).trans m3

theorem diffusing_total (hC : Contract C Valid) (heur : Roadmap Q P → Nat → K) (q0 : Q) (gs : List Q) (shoot : Nat → Q) {s0 : Nat × Roadmap Q P} (h : Good C Valid [] s0.2) (hT : Tagged q0 gs s0.2)
    (m : Nat) : ∃ t, After (diffusing C D heur q0 gs shoot) s0 m t := by
  induction m with
  | zero => exact ⟨s0, rfl⟩
  | succ m ih =>
    obtain ⟨t, ht⟩ := ih
    obtain ⟨k0, k1, k2⟩ := diffusing_after hC heur q0 gs shoot h hT _ t ht
    obtain ⟨r', m1, m2, m3⟩ := C66_diffusing hC D (shoot t.1) k1
    exact ⟨(t.1 + 1, r'), t, ht, by show lift (diffStep C D (shoot t.1) t.2) (t.1 + 1) = _; simp only [m1, lift]⟩

/-- The chain of shots: in order, the first one at most `R` from the init configuration, each one at most `R` from the previous one, the last one at most `R` from a goal, and each one visible from
everything that is at most `R` from it. -/
structure Chain (C : PEnv Q P K) (D : DiffParams K) (R : K) (q0 : Q) (gs : List Q) (shoot : Nat → Q) (idx : Nat → Nat) (k : Nat) : Prop where
  mono : ∀ i < k, idx i < idx (i + 1)
  first : C.dist q0 (shoot (idx 0)) ≤ R
  next : ∀ i < k, C.dist (shoot (idx i)) (shoot (idx (i + 1))) ≤ R
  last : ∃ g ∈ gs, C.dist g (shoot (idx k)) ≤ R
  sees : ∀ i ≤ k, SeesBall C D R (shoot (idx i))
  sharp : Sharp C D (shoot (idx k))

/-- C152: if the shots contain a chain from the init configuration to a goal, whose last one is not yet a node when it is shot, then the planner returns a path that solves the problem unless a limit or
an interruption stops it before the end of the chain, whatever the other shots. -/
theorem C152_diffusing (hC : Contract C Valid) (hE : Separates C.toEnv) (hself : ∀ q, C.steer q q ≠ none) (D : DiffParams K) (heur : Roadmap Q P → Nat → K) (q0 : Q) (gs : List Q) (shoot : Nat → Q)
    {r : Roadmap Q P} (h : Good C Valid [] r) (R : K) (idx : Nat → Nat) (k : Nat) (hch : Chain C D R q0 gs shoot idx k)
    (hnew : ∀ s0 t, startPlan C q0 gs (0, r) = .ok s0 → After (diffusing C D heur q0 gs shoot) s0 (idx k) t → shoot (idx k) ∉ t.2.configs)
    (st : Settings K) (late intr : Nat → Bool) (hstop : st.stop = true) (hlim : ∀ m ≤ idx k, ¬ Limit st late m) (hint : ∀ m ≤ idx k + 1, intr m = false) (fuel : Nat) (hf : idx k < fuel) :
    ∃ l, solve (diffusing C D heur q0 gs shoot) st late intr fuel (0, r) = .path l ∧ Solves C Valid q0 gs l := by
  obtain ⟨r1, h1, h2, h3⟩ := startPlan_spec hC q0 gs (s := (0, r)) h
  have haft := diffusing_after (D := D) hC heur q0 gs shoot (s0 := (0, r1)) h2 h3
  have hboth := diffusing_both (D := D) hC heur q0 gs shoot (s0 := (0, r1)) h2 h3
  have htot := diffusing_total (D := D) hC heur q0 gs shoot (s0 := (0, r1)) h2 h3
  have hstep : ∀ m t, After (diffusing C D heur q0 gs shoot) (0, r1) m t → ∃ t', (diffusing C D heur q0 gs shoot).step t = .ok t' := by
    intro m t ht
    obtain ⟨k0, k1, k2⟩ := haft m t ht
    obtain ⟨r', m1, m2, m3⟩ := C66_diffusing hC D (shoot t.1) k1
    exact ⟨(t.1 + 1, r'), by show lift (diffStep C D (shoot t.1) t.2) (t.1 + 1) = _; simp only [m1, lift]⟩
  obtain ⟨i0, hi0, hi1⟩ := h3.init
  -- what one step does to the nodes near the shot
  have hone : ∀ n, SeesBall C D R (shoot n) → ∀ t u, After (diffusing C D heur q0 gs shoot) (0, r1) n t → After (diffusing C D heur q0 gs shoot) (0, r1) (n + 1) u →
      Ext t.2 u.2 ∧ (∀ m x, t.2.configs[m]? = some x → C.dist x (shoot n) ≤ R → ∃ a, u.2.configs[a]? = some (shoot n) ∧ Both u.2 m a) ∧
      (Sharp C D (shoot n) → shoot n ∉ t.2.configs → ∀ m x m' x', t.2.configs[m]? = some x → C.dist x (shoot n) ≤ R → t.2.configs[m']? = some x' → C.dist x' (shoot n) ≤ R → Both u.2 m m') := by
    intro n hs t u ht hu
    obtain ⟨k0, k1, k2⟩ := haft n t ht
    obtain ⟨r', m1, m2, m3, m4, m5⟩ := diffStep_links hC hE hs k1
    obtain ⟨t', j1, j2⟩ := hu
    have := after_unique _ _ _ _ _ j1 ht
    subst this
    have j2' : lift (diffStep C D (shoot t'.1) t'.2) (t'.1 + 1) = .ok u := j2
    have hn : t'.1 = n := by rw [k0]; exact Nat.zero_add n
    rw [hn, m1] at j2'
    have := Except.ok.inj j2'
    subst this
    exact ⟨m3, m4, m5⟩
  -- the chain is linked to the init node
  have hchain : ∀ i ≤ k, ∀ t, After (diffusing C D heur q0 gs shoot) (0, r1) (idx i + 1) t → ∃ a, t.2.configs[a]? = some (shoot (idx i)) ∧ Both t.2 i0 a := by
    intro i
    induction i with
    | zero =>
      intro hik u hu
      obtain ⟨t, ht⟩ := htot (idx 0)
      obtain ⟨e1, e2, -⟩ := hone _ (hch.sees 0 hik) t u ht hu
      obtain ⟨d1⟩ := hboth 0 (idx 0) (0, r1) t rfl (by simpa using ht)
      exact e2 i0 q0 (d1.get hi1) hch.first
    | succ i ih =>
      intro hik u hu
      obtain ⟨v, hv⟩ := htot (idx i + 1)
      obtain ⟨a, a1, a2⟩ := ih (by omega) v hv
      have hlt := hch.mono i (by omega)
      obtain ⟨t, ht⟩ := htot (idx (i + 1))
      have hvt : Ext v.2 t.2 := hboth (idx i + 1) (idx (i + 1) - (idx i + 1)) v t hv (by rwa [Nat.add_sub_cancel' (by omega)])
      obtain ⟨e1, e2, -⟩ := hone _ (hch.sees (i + 1) hik) t u ht hu
      obtain ⟨b, b1, b2⟩ := e2 a (shoot (idx i)) (hvt.grow.get a1) (hch.next i (by omega))
      exact ⟨b, b1, (a2.grow (hvt.trans e1).grow).trans b2⟩
  -- the last shot links the init node and the goal
  have hN : ∀ u, After (diffusing C D heur q0 gs shoot) (0, r1) (idx k + 1) u → ((diffusing C D heur q0 gs shoot).reached u).1 = true := by
    intro u hu
    obtain ⟨t, ht⟩ := htot (idx k)
    obtain ⟨e1, e2, e3⟩ := hone _ (hch.sees k le_rfl) t u ht hu
    obtain ⟨k0, k1, k2⟩ := haft _ t ht
    obtain ⟨g, hg1, hg2⟩ := hch.last
    obtain ⟨gn, hgn1, hgn2⟩ := k2.all g hg1
    have hpre : ∃ a x, t.2.configs[a]? = some x ∧ C.dist x (shoot (idx k)) ≤ R ∧ Both t.2 i0 a := by
      cases k with
      | zero =>
        obtain ⟨d1⟩ := hboth 0 (idx 0) (0, r1) t rfl (by simpa using ht)
        exact ⟨i0, q0, d1.get hi1, hch.first, Both.refl _ _⟩
      | succ i =>
        obtain ⟨v, hv⟩ := htot (idx i + 1)
        obtain ⟨a, a1, a2⟩ := hchain i (by omega) v hv
        have hlt := hch.mono i (by omega)
        have hvt : Ext v.2 t.2 := hboth (idx i + 1) (idx (i + 1) - (idx i + 1)) v t hv (by rwa [Nat.add_sub_cancel' (by omega)])
        exact ⟨a, _, hvt.grow.get a1, hch.next i (by omega), a2.grow hvt.grow⟩
    obtain ⟨a, x, a1, a2, a3⟩ := hpre
    have hb := e3 hch.sharp (hnew _ t h1 ht) a x gn g a1 a2 hgn2 hg2
    obtain ⟨u0, u1, u2⟩ := haft _ u hu
    have hiu : u.2.init = some i0 := by
      rw [(hboth 0 (idx k + 1) (0, r1) u rfl (by rwa [Nat.zero_add])).init]
      exact hi0
    refine (reached_iff u1.inv hiu).2 ⟨gn, by rw [e1.goals]; exact hgn1, ?_⟩
    exact ((a3.grow e1.grow).trans hb).1
  have hcp : ∀ m t, After (diffusing C D heur q0 gs shoot) (0, r1) m t → ((diffusing C D heur q0 gs shoot).reached t).1 = true → ∃ l, (diffusing C D heur q0 gs shoot).computePath t = .ok l := by
    intro m t ht hr
    obtain ⟨k0, k1, k2⟩ := haft m t ht
    exact computePath_some hself k1 k2 heur hr
  obtain ⟨l, hl⟩ := solve_path (diffusing C D heur q0 gs shoot) (fun _ => rfl) st late intr (0, r) (0, r1) h1 (idx k + 1) hstop (fun m hm => hlim m (by omega)) hint hstep hcp hN fuel (by omega)
  exact ⟨l, hl, C67_diffusing hC D heur q0 gs shoot h st late intr fuel 0 l hl⟩

/-- C152, dense shots: the distance is a metric; a sequence of configurations leads from the init configuration to a goal by steps of length at most `d`; the shots come back infinitely often at distance at
most `d` from each of them; the shots at distance at most `d` from one of them are visible from all configurations at distance at most `3 d`.  Without limit nor interruption, the planner stops with
a solution (as long as no shot is already a node when it is shot). -/
theorem C152_dense (hC : Contract C Valid) (hself : ∀ q, C.steer q q ≠ none) (D : DiffParams K) (heur : Roadmap Q P → Nat → K) (q0 g : Q) (gs : List Q) (shoot : Nat → Q) {r : Roadmap Q P}
    (h : Good C Valid [] r) (hd0 : ∀ q, C.dist q q = 0) (hd1 : ∀ a b, C.dist a b ≤ 0 → a = b) (hd2 : ∀ a b, C.dist a b = C.dist b a) (hd3 : ∀ a b c, C.dist a c ≤ C.dist a b + C.dist b c)
    (d : K) (hd : 0 ≤ d) (w : Nat → Q) (k : Nat) (hw0 : w 0 = q0) (hwk : w k = g) (hg : g ∈ gs) (hw : ∀ i < k, C.dist (w i) (w (i + 1)) ≤ d)
    (hdense : ∀ i ≤ k, ∀ N, ∃ n ≥ N, C.dist (shoot n) (w i) ≤ d)
    (hsee : ∀ i ≤ k, ∀ n, C.dist (shoot n) (w i) ≤ d → SeesBall C D (d + d + d) (shoot n) ∧ Sharp C D (shoot n))
    (hnew : ∀ s0 n t, startPlan C q0 gs (0, r) = .ok s0 → After (diffusing C D heur q0 gs shoot) s0 n t → shoot n ∉ t.2.configs)
    (st : Settings K) (late intr : Nat → Bool) (hstop : st.stop = true) (hlim : ∀ m, ¬ Limit st late m) (hint : ∀ m, intr m = false) :
    ∃ N, ∀ fuel ≥ N, ∃ l, solve (diffusing C D heur q0 gs shoot) st late intr fuel (0, r) = .path l ∧ Solves C Valid q0 gs l := by
  have hE : Separates C.toEnv := fun x q hx => hd1 x q (by rw [hd0] at hx; exact hx)
  have hex : ∀ i N, ∃ n, N ≤ n ∧ (i ≤ k → C.dist (shoot n) (w i) ≤ d) := by
    intro i N
    by_cases hi : i ≤ k
    · obtain ⟨n, h1, h2⟩ := hdense i hi N
      exact ⟨n, h1, fun _ => h2⟩
    · exact ⟨N, le_rfl, fun hh => absurd hh hi⟩
  choose nx hnx1 hnx2 using hex
  let idx : Nat → Nat := fun i => Nat.rec (nx 0 0) (fun j a => nx (j + 1) (a + 1)) i
  have hidx : ∀ i ≤ k, C.dist (shoot (idx i)) (w i) ≤ d := by
    intro i hi
    cases i with
    | zero => exact hnx2 0 0 hi
    | succ j => exact hnx2 (j + 1) (idx j + 1) hi
  have hmono : ∀ i, idx i < idx (i + 1) := fun i => hnx1 (i + 1) (idx i + 1)
  have hle : d ≤ d + d + d := by
    have := add_le_add (add_le_add (le_refl d) hd) hd
    simpa using this
  have hch : Chain C D (d + d + d) q0 gs shoot idx k := by
    refine ⟨fun i _ => hmono i, ?_, ?_, ⟨g, hg, ?_⟩, fun i hi => (hsee i hi _ (hidx i hi)).1, (hsee k le_rfl _ (hidx k le_rfl)).2⟩
    · rw [← hw0, hd2]
      exact (hidx 0 (by omega)).trans hle
    · intro i hi
      refine (hd3 _ (w (i + 1)) _).trans (add_le_add ((hd3 _ (w i) _).trans (add_le_add (hidx i (by omega)) (hw i hi))) ?_)
      rw [hd2]
      exact hidx (i + 1) (by omega)
    · rw [← hwk, hd2]
      exact (hidx k le_rfl).trans hle
  refine ⟨idx k + 1, fun fuel hf => ?_⟩
  exact C152_diffusing hC hE hself D heur q0 gs shoot h (d + d + d) idx k hch (fun s0 t h1 ht => hnew s0 _ t h1 ht) st late intr hstop (fun m _ => hlim m) (fun m _ => hint m) fuel (by omega)

end

end Verif.Planner
