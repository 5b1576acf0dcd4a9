import Verif.Planner.CompleteBi
import Verif.Planner.CompleteBench
set_option linter.unusedSectionVars false

/-!
# Completeness of BiRRT on problems without constraints (C153)

The hypotheses of `C153_birrt` on the steering method and on the validation are proved for the models of straight paths and of the path validations.
-/
namespace Verif.EndToEnd
open Verif.PathV Verif.CV Verif.Planner
variable {K ι : Type} [Field K] [LinearOrder K] [IsStrictOrderedRing K] [FloorSemiring K] [Fintype ι]
variable {B : Bench K ι} {hB : B.Ok}

/-- A path refused by the validation from the end collides somewhere. -/
theorem refused_rev (p : SP B) (hv : ((env B hB).validate true p).1 = false) : ∃ tf, 0 ≤ tf ∧ tf ≤ p.1.pr.2 ∧ ¬ B.Clear (conf p.1 tf) := by
  obtain ⟨v, vp, rep, n, hr, -, -⟩ := check_ok B hB true p
  have hval : (env B hB).validate true p = (v, if h : Built vp ∧ B.Slow vp then ⟨vp, h⟩ else p) := by
    show (match check B true p.1 with | .error _ => (false, p) | .ok (v, vp, _) => (v, if h : Built vp ∧ B.Slow vp then ⟨vp, h⟩ else p)) = _
    rw [hr]
  rw [hval] at hv
  have hv' : v = false := hv
  subst hv'
  have h0 : p.1.pr.1 = 0 := p.2.1.1
  have hle := (good p).1
  have hcol : B.mode ≠ .discretized → ∀ tf s', ListInv p.1.pr.1 p.1.pr.2 (cfgs B p.1) s' → cvQuery (fun _ => true) p.1.pr.1 p.1.pr.2 s' tf = none → ¬ B.Clear (conf p.1 tf) := by
    intro hm tf s' hi hq hc
    rcases Single.query_none _ _ _ _ _ hq with hq | ⟨v, hv, o, ho, hn⟩
    · simp at hq
    · have hcm : v.1 ∈ cfgs B p.1 := hi.1.mem_iff.1 (List.mem_map.2 ⟨v, hv, rfl⟩)
      obtain ⟨c, hc1, hc2⟩ := List.mem_map.1 hcm
      rw [← hc2] at ho
      obtain ⟨o', ho1, ho2⟩ := List.mem_map.1 ho
      refine hc.2 c hc1 o' ho1 ?_
      rw [← ho2] at hn
      exact hn
  have hq := cvQuery_ok (fun _ => true) p.1.pr.1 p.1.pr.2 (cfgs B p.1)
  unfold check at hr
  cases hd : B.mode with
  | dichotomy =>
    have hm : B.mode ≠ .discretized := by rw [hd]; simp
    have hs := startPairs_inv _ _ _ (pairsOK B hB hm p)
    rw [hd] at hr
    simp only at hr
    obtain ⟨tf, tl, -, k1, k2, ⟨s', k6, k7⟩, -⟩ := C32_fail _ _ _ true _ p.1 hle _ _ hq hs vp rep n hr
    change p.1.pr.1 ≤ tf at k1; change tf ≤ p.1.pr.2 at k2
    exact ⟨tf, h0 ▸ k1, k2, hcol hm tf s' k6 k7⟩
  | progressive =>
    have hm : B.mode ≠ .discretized := by rw [hd]; simp
    have hs := startPairs_inv _ _ _ (pairsOK B hB hm p)
    rw [hd] at hr
    simp only at hr
    obtain ⟨tf, tl, -, k1, k2, ⟨s', k6, k7⟩, -⟩ := C31_fail _ _ _ true _ p.1 hle _ _ hq hs vp rep n hr
    change p.1.pr.1 ≤ tf at k1; change tf ≤ p.1.pr.2 at k2
    exact ⟨tf, h0 ▸ k1, k2, hcol hm tf s' k6 k7⟩
  | discretized =>
    obtain ⟨d1, -, -⟩ := hB.disc hd
    rw [hd] at hr
    simp only at hr
    obtain ⟨tf, -, k1, k2, kg, -⟩ := Validation.C29_fail _ _ _ d1 true _ p.1 hle vp rep n hr
    change p.1.pr.1 ≤ tf at k1; change tf ≤ p.1.pr.2 at k2
    refine ⟨tf, h0 ▸ k1, k2, ?_⟩
    intro hc
    refine kg ⟨conf p.1 tf, eval_line p tf, ?_⟩
    unfold okConf
    rw [Bool.and_eq_true]
    constructor
    · cases hb : B.bounds with
      | none => rfl
      | some bd => simpa using hc.1 hd bd hb
    · rw [List.all_eq_true]
      intro c hc1
      rw [List.all_eq_true]
      intro o ho
      exact Option.isSome_iff_ne_none.2 (hc.2 c hc1 o ho)

/-- C153: the three path validations accept from both ends a path all of whose configurations are clear. -/
theorem C153_accepts (b : Bool) (p : SP B) (h : ∀ t, 0 ≤ t → t ≤ p.1.pr.2 → B.Clear (conf p.1 t)) : ((env B hB).validate b p).1 = true := by
  cases b with
  | false => rw [C152_accepts p h]
  | true =>
    by_contra hn
    obtain ⟨tf, a1, a2, a3⟩ := refused_rev p (by simpa using hn)
    exact a3 (h tf a1 a2)

/-- C153 on problems without constraints in a vector space, with straight paths and with any of the path validations: the shots contain in order, possibly among others, a chain of configurations
from the init configuration to the goal, at distance at most `R` from one another, such that the segments of length at most `R` that end at one of them, and those that start from the last one, are clear; no shot is
already a node when it is shot; then, from an empty roadmap, BiRRT returns a path vector from the init configuration to the goal that is safe in the sense of C126, unless a limit or an interruption stops it before the
end of the chain. -/
theorem C153_bench (B : Bench K ι) (hB : B.Ok) (hself : ∀ a, B.metric a a = 0) (heur : Roadmap.Roadmap (ι → K) (SP B) → Nat → K) (q0 g : ι → K) (shoot : Nat → ι → K) (h0 : B.Free q0) (a : Nat)
    (R : K) (idx : Nat → Nat) (k : Nat) (hmono : ∀ i < k, idx i < idx (i + 1)) (hfirst : B.metric q0 (shoot (idx 0)) ≤ R) (hnext : ∀ i < k, B.metric (shoot (idx i)) (shoot (idx (i + 1))) ≤ R)
    (hlast : B.metric (shoot (idx k)) g ≤ R) (hclear : ∀ i ≤ k, B.Around R (shoot (idx i)))
    (hback : ∀ x, B.metric (shoot (idx k)) x ≤ R → ∀ u, 0 ≤ u → u ≤ 1 → B.Clear (seg (shoot (idx k)) x u))
    (hnew : ∀ s0 n t, bStart (env B hB) q0 [g] (⟨a, [], 0⟩, Roadmap.empty) = .ok s0 → After (birrt (env B hB) heur q0 [g] shoot) s0 n t → (reached t.2).1 = false → n ≤ idx k → shoot n ∉ t.2.configs)
    (st : Settings K) (late intr : Nat → Bool) (hstop : st.stop = true) (hlim : ∀ m ≤ idx k, ¬ Limit st late m) (hint : ∀ m ≤ idx k + 1, intr m = false) (fuel : Nat) (hf : idx k < fuel) :
    ∃ l, solve (birrt (env B hB) heur q0 [g] shoot) st late intr fuel (⟨a, [], 0⟩, Roadmap.empty) = .path l ∧
      Safe B (evalV (straightOps (vecSpace K ι)) (pathVector l)) (pathVector l).tr.2 q0 g := by
  have hacc : ∀ b x y, (∀ u, 0 ≤ u → u ≤ 1 → B.Clear (seg x y u)) → ((env B hB).validate b (line B hB x y)).1 = true := by
    intro b x y h
    refine C153_accepts b _ fun t t0 t1 => ?_
    rw [conf_seg _ t]
    obtain ⟨u0, u1⟩ := seg_in t0 t1
    exact h _ u0 u1
  have hch : BiChain (env B hB) R q0 [g] shoot idx k :=
    ⟨hmono, hfirst, hnext, ⟨g, by simp, hlast⟩, fun i hi x hx => ⟨line B hB x _, rfl, hacc false _ _ (hclear i hi x hx)⟩, fun x hx => ⟨line B hB _ x, rfl, hacc true _ _ (hback x hx)⟩⟩
  have hmove : ∀ x q p, x ≠ q → (env B hB).steer x q = some p → ((env B hB).validate false p).1 = true → (env B hB).t1 ((env B hB).validate false p).2 ≠ (env B hB).t0 p := by
    intro x q p hne hp hv
    have hp' : p = line B hB x q := (Option.some.inj hp).symm
    subst hp'
    rcases validate_spec B hB false (line B hB x q) with ⟨h1, h2, -⟩ | ⟨h1, -⟩
    · rw [h2]
      show B.metric x q ≠ 0
      exact fun hz => hne (hB.zero x q hz)
    · rw [h1] at hv
      simp at hv
  have hgs : ∀ g1 ∈ [g], ∀ g2 ∈ [g], directPath (env B hB) g1 g2 = none := by
    intro g1 h1 g2 h2
    rw [List.mem_singleton.1 h1, List.mem_singleton.1 h2]
    show (if ((env B hB).validate false (line B hB g g)).1 = true ∧ 0 < (env B hB).len ((env B hB).validate false (line B hB g g)).2 then _ else _) = _
    rw [if_neg]
    rintro ⟨hv, hl⟩
    rcases validate_spec B hB false (line B hB g g) with ⟨-, h2, -⟩ | ⟨h1, -⟩
    · rw [h2] at hl
      have hl' : 0 < B.metric g g - 0 := hl
      rw [hself] at hl'
      simp at hl'
    · rw [h1] at hv
      simp at hv
  obtain ⟨l, hl, -⟩ := C153_birrt (contract B hB) (pointContract B hB) (fun _ _ => rfl) (fun _ => Option.some_ne_none _) hmove heur q0 [g] hgs shoot
    ⟨Roadmap.Inv.empty, by simp [Roadmap.empty]⟩ rfl a R idx k hch hnew st late intr hstop hlim hint fuel hf
  obtain ⟨g', hg', hs⟩ := C126_birrt B hB heur q0 [g] shoot st late intr fuel _ l h0 hl
  rw [List.mem_singleton.1 hg'] at hs
  exact ⟨l, hl, hs⟩

/-! ## Non-vacuity: the point in the plane goes around the square -/

namespace Plane

/-- The chain of the diffusing planner, with a useless shot (in the square) in between. -/
def biChain : Nat → Fin 2 → ℚ
  | 0 => ![0, 5]
  | 1 => ![5, 0]
  | 2 => ![7/2, 6]
  | 3 => ![13/2, 6]
  | _ => ![10, 5]

def biIdx : Nat → Nat
  | 0 => 0
  | n + 1 => n + 2

theorem biChain_idx (i : Nat) : biChain (biIdx i) = chain i := by
  match i with
  | 0 => rfl
  | 1 => rfl
  | 2 => rfl
  | n + 3 => rfl

/-- no shot is a node when it is shot -/
theorem biChain_new : (match bStart (env (bench .progressive) (ok .progressive)) start [goal] (⟨0, [], 0⟩, Roadmap.empty) with
    | .error _ => false
    | .ok s0 => (List.range 5).all fun n => match runN (birrt (env (bench .progressive) (ok .progressive)) (fun _ _ => 0) start [goal] biChain) s0 n with
      | .error _ => true
      | .ok t => (reached t.2).1 || decide (biChain n ∉ t.2.configs)) = true := by decide +kernel

/-- the hypotheses of C153 hold for five shots, four of them in the chain -/
example (fuel : Nat) (hf : 4 < fuel) : ∃ l, solve (birrt (env (bench .progressive) (ok .progressive)) (fun _ _ => 0) start [goal] biChain) (Settings.default (K := ℚ)) (fun _ => false)
      (fun _ => false) fuel (⟨0, [], 0⟩, Roadmap.empty) = .path l ∧
      Safe (bench .progressive) (evalV (straightOps (vecSpace ℚ (Fin 2))) (pathVector l)) (pathVector l).tr.2 start goal := by
  have hsym : ∀ x y : Fin 2 → ℚ, (bench .progressive).metric x y = (bench .progressive).metric y x := by
    intro x y
    show |x 0 - y 0| + |x 1 - y 1| = |y 0 - x 0| + |y 1 - x 1|
    rw [abs_sub_comm (x 0), abs_sub_comm (x 1)]
  refine C153_bench (bench .progressive) (ok .progressive) (fun a => by simp [bench]) (fun _ _ => 0) start goal biChain (start_free _) 0 5 biIdx 3
    ?_ (by decide +kernel) ?_ (by decide +kernel) (fun i _ => by rw [biChain_idx]; exact chain_clear i) ?_ ?_ _ _ _ rfl ?_ (fun _ _ => rfl) fuel hf
  · intro i hi
    match i, hi with
    | 0, _ => decide
    | 1, _ => decide
    | 2, _ => decide
  · intro i hi
    match i, hi with
    | 0, _ => decide +kernel
    | 1, _ => decide +kernel
    | 2, _ => decide +kernel
  · intro x hx u u0 u1
    have := chain_clear 3 x (by rw [hsym]; exact hx) (1 - u) (by linarith) (by linarith)
    have he : seg (biChain (biIdx 3)) x u = seg x (chain 3) (1 - u) := by
      rw [biChain_idx]
      funext j
      simp only [seg]
      ring
    rw [he]
    exact this
  · intro s0 n t h1 h2 h3 h4
    have := biChain_new
    rw [h1] at this
    have h5 := List.all_eq_true.1 this n (List.mem_range.2 (Nat.lt_succ_of_le h4))
    have h6 := runN_after _ _ n _ h2
    simp only [h6, h3, Bool.false_or] at h5
    exact of_decide_eq_true h5
  · intro m hm h
    rcases h with ⟨h, -⟩ | h
    · exact h rfl
    · simp at h

end Plane

end Verif.EndToEnd

/-! ## Non-vacuity of `C153_dense`: the line of `C152_dense` -/

namespace Verif.Planner.Hop
open Verif.Roadmap Verif.Planner

theorem bi_known (s0 : BState × Roadmap ℚ (ℚ × ℚ)) (hs : bStart env 0 [10] (⟨0, [], 0⟩, Roadmap.empty) = .ok s0) (n : Nat) (t : BState × Roadmap ℚ (ℚ × ℚ))
    (ht : After (birrt env (fun _ _ => 0) 0 [10] shoot) s0 n t) : t.1.shots = n ∧ Within (Known n) (KnownPath n) t.2 := by
  induction n generalizing t with
  | zero =>
    rw [show t = s0 from ht]
    unfold bStart at hs
    split at hs
    · simp at hs
    · next r1 k1 =>
      split at hs
      · simp at hs
      · split at hs
        · simp at hs
        · next r2 k2 =>
          rw [← Except.ok.inj hs]
          exact ⟨rfl, ((Within.empty (I := Known 0) (IP := KnownPath 0)).startSolve (Or.inl rfl) (fun g hg => Or.inr (Or.inl (List.mem_singleton.1 hg))) k1).tryConnect (closed 0) k2⟩
  | succ n ih =>
    obtain ⟨t', h1, h2⟩ := ht
    obtain ⟨k1, k2⟩ := ih t' h1
    have hp : ∀ p, KnownPath n p → KnownPath (n + 1) p := fun p hp => ⟨hp.1.succ, hp.2.succ⟩
    have hw : Within (Known (n + 1)) (KnownPath (n + 1)) t'.2 :=
      ⟨fun q hq => (k2.configs q hq).succ, fun e he => hp _ (k2.edges e he), fun m e he => hp _ (k2.out m e he), fun m e he => hp _ (k2.inn m e he)⟩
    simp only [birrt, planCalls] at h2
    cases hd : bStep env (shoot t'.1.shots) t'.1 t'.2 with
    | error e => rw [hd] at h2; simp at h2
    | ok r' =>
      rw [hd] at h2
      have := Except.ok.inj h2
      subst this
      refine ⟨by show t'.1.shots + 1 = _; omega, ?_⟩
      unfold bStep at hd
      split at hd
      · simp at hd
      · next r1 v o k3 =>
        have hq : Known (n + 1) (shoot t'.1.shots) := Or.inr (Or.inr ⟨n, by omega, by rw [k1]⟩)
        obtain ⟨w1, w2⟩ := fromStart_in (closed (n + 1)) hq hw k3
        exact endLoop_in (closed (n + 1)) hq w2 _ w1 hd

theorem point : PointContract env (fun _ => True) := ⟨fun _ _ => Or.inl trivial, fun _ _ h => h, fun p h => ⟨h.1.symm, by
  have := h.2
  show (0 : ℚ) = |p.2 - p.1|
  rw [abs_sub_comm]
  exact this⟩⟩

/-- the hypotheses of `C153_dense` hold: the goal is ten units away -/
example : ∃ N, ∀ fuel ≥ N, ∃ l, solve (birrt env (fun _ _ => 0) 0 [10] shoot) (Settings.default (K := ℚ)) (fun _ => false) (fun _ => false) fuel (⟨0, [], 0⟩, Roadmap.empty) = .path l ∧
    Solves env (ValidOrPoint env (fun _ => True)) 0 [10] l := by
  refine C153_dense contract point (fun _ _ => rfl) (fun q => by simp [env]) (fun x q p hne hp _ => ?_) (fun _ _ => 0) 0 10 [10] (fun g hg g' hg' => ?_) shoot ⟨Inv.empty, by simp [Roadmap.empty]⟩ rfl 0
    (fun a b => abs_sub_comm a b) (fun a b c => abs_sub_le a b c) 1 zero_le_one (fun i => i) 10 (by norm_num) (by norm_num) (by simp) (fun i _ => ?_) (fun i hi N => ?_)
    (fun i _ n _ x hx => ?_) (fun s0 n t h1 h2 _ h3 => not_known n ((bi_known s0 h1 n t h2).2.configs _ h3)) _ _ _ rfl (fun m h => ?_) (fun _ => rfl)
  · simp only [env] at hp
    split at hp
    · rw [← Option.some.inj hp]
      show |x - q| ≠ 0
      exact abs_ne_zero.2 (sub_ne_zero.2 hne)
    · simp at hp
  · rw [List.mem_singleton.1 hg, List.mem_singleton.1 hg']
    simp [directPath, env]
  · show |((i : ℕ) : ℚ) - ((i + 1 : ℕ) : ℚ)| ≤ 1
    push_cast
    rw [show (i : ℚ) - (i + 1) = -1 by ring]
    norm_num
  · refine ⟨11 * N + i, by omega, ?_⟩
    have hm : (11 * N + i) % 11 = i := by omega
    obtain ⟨h1, h2⟩ := shoot_frac (11 * N + i)
    show |shoot (11 * N + i) - i| ≤ 1
    unfold shoot
    rw [hm, abs_le]
    constructor <;> linarith
  · have hx' : |x - shoot n| ≤ 3 := by
      have : |x - shoot n| ≤ 1 + 1 + 1 := hx
      linarith
    refine ⟨⟨(x, shoot n), ?_, rfl⟩, ⟨(shoot n, x), ?_, rfl⟩⟩
    · simp only [env, if_pos hx']
    · rw [abs_sub_comm] at hx'
      simp only [env, if_pos hx']
  · rcases h with ⟨h, -⟩ | h
    · exact h rfl
    · simp at h

end Verif.Planner.Hop
