import Verif.Planner.Complete
import Verif.Planner.EndToEnd
import Verif.Planner.Closed
import Verif.Validation.Single
set_option linter.unusedSectionVars false

/-!
# Completeness of the diffusing planner on problems without constraints (C152)

The hypotheses of `C152_diffusing` on the extension and on the validation are proved for the models of straight paths and of the path validations: what remains is a condition on the collision
library, "no pair of objects collides along the segments that lead to the shots of the chain".
-/
namespace Verif.EndToEnd
open Verif.PathV Verif.CV Verif.Planner
variable {K ι : Type} [Field K] [LinearOrder K] [IsStrictOrderedRing K] [FloorSemiring K] [Fintype ι]

/-! ## Specification -/

/-- No pair of objects collides at `q`; with the discretized validation that checks them, joints are within their bounds. -/
def Bench.Clear (B : Bench K ι) (q : ι → K) : Prop :=
  (B.mode = .discretized → ∀ bd ∈ B.bounds, ∀ j, bd.1 j ≤ q j ∧ q j ≤ bd.2 j) ∧ ∀ c ∈ B.pairs, ∀ o ∈ c.objs, o.collide q ≠ none

/-- Point of the segment from `a` to `b`. -/
def seg (a b : ι → K) (u : K) : ι → K := fun j => a j + u * (b j - a j)

/-- Segments of length at most `R` that end at `q` are clear. -/
def Bench.Around (B : Bench K ι) (R : K) (q : ι → K) : Prop := ∀ x, B.metric x q ≤ R → ∀ u, 0 ≤ u → u ≤ 1 → B.Clear (seg x q u)

/-! ## Proofs -/

variable {B : Bench K ι} {hB : B.Ok}

/-- Configurations of a path are points of the segment between its ends. -/
theorem conf_seg (p : SP B) (t : K) : conf p.1 t = seg p.1.q0 p.1.q1 (t / p.1.pr.2) := by
  have hp := p.2.1.1
  unfold conf Straight.impl
  simp only [hp, sub_zero]
  by_cases h : t = 0 ∨ p.1.pr.2 = 0
  · rw [if_pos h]
    funext j
    rcases h with h | h
    · simp [seg, h]
    · rw [seg, p.2.1.2.2.2 h]; simp
  · rw [if_neg h]
    push Not at h
    by_cases ht : t = p.1.pr.2
    · rw [if_pos ht, ht, div_self h.2]
      funext j
      simp [seg]
    · rw [if_neg ht]
      rfl

/-- A refused path collides at a parameter that is not before the end of the part kept, nor equal to it unless this is the start of the path. -/
theorem refused (p : SP B) (hv : ((env B hB).validate false p).1 = false) :
    ∃ tl tf, 0 ≤ tl ∧ tl ≤ tf ∧ tf ≤ p.1.pr.2 ∧ ((env B hB).validate false p).2 = ext hB p p.1.pr.1 tl ∧ ¬ B.Clear (conf p.1 tf) := by
  obtain ⟨v, vp, rep, n, hr, -, -⟩ := check_ok B hB false p
  have hval : (env B hB).validate false p = (v, if h : Built vp ∧ B.Slow vp then ⟨vp, h⟩ else p) := by
    show (match check B false p.1 with | .error _ => (false, p) | .ok (v, vp, _) => (v, if h : Built vp ∧ B.Slow vp then ⟨vp, h⟩ else p)) = _
    rw [hr]
  rw [hval] at hv
  have hv' : v = false := hv
  subst hv'
  have hE : ∀ a b vp, (straightOps (vecSpace K ι)).extract p.1 a b = .ok vp → vp = (ext hB p a b).1 := by
    intro a b vp h
    have := (ext_eq (hB := hB) p a b).symm.trans h
    exact (Except.ok.inj this).symm
  have h0 : p.1.pr.1 = 0 := p.2.1.1
  have hle := (good p).1
  suffices hs : ∃ tl tf, 0 ≤ tl ∧ tl ≤ tf ∧ tf ≤ p.1.pr.2 ∧ vp = (ext hB p p.1.pr.1 tl).1 ∧ ¬ B.Clear (conf p.1 tf) by
    obtain ⟨tl, tf, a1, a2, a3, rfl, a5⟩ := hs
    refine ⟨tl, tf, a1, a2, a3, ?_, a5⟩
    rw [hval]
    show (if h : _ then _ else _) = _
    rw [dif_pos (ext hB p p.1.pr.1 tl).2]
  have hcol : B.mode ≠ .discretized → ∀ tf s', ListInv p.1.pr.1 p.1.pr.2 (cfgs B p.1) s' → cvQuery (fun _ => true) p.1.pr.1 p.1.pr.2 s' tf = none → ¬ B.Clear (conf p.1 tf) := by
    intro hm tf s' hi hq hc
    rcases Single.query_none _ _ _ _ _ hq with hq | ⟨v, hv, o, ho, hn⟩
    · simp at hq
    · have hcm : v.1 ∈ cfgs B p.1 := hi.1.mem_iff.1 (List.mem_map.2 ⟨v, hv, rfl⟩)
      obtain ⟨c, hc1, hc2⟩ := List.mem_map.1 hcm
      rw [← hc2] at ho
      obtain ⟨o', ho1, ho2⟩ := List.mem_map.1 ho
      refine hc.2 c hc1 o' ho1 ?_
      rw [← ho2] at hn
      exact hn
  have hq := cvQuery_ok (fun _ => true) p.1.pr.1 p.1.pr.2 (cfgs B p.1)
  unfold check at hr
  cases hd : B.mode with
  | dichotomy =>
    have hm : B.mode ≠ .discretized := by rw [hd]; simp
    have hs := startPairs_inv _ _ _ (pairsOK B hB hm p)
    rw [hd] at hr
    simp only at hr
    obtain ⟨tf, tl, -, k1, k2, ⟨s', k6, k7⟩, k3⟩ := C32_fail _ _ _ false _ p.1 hle _ _ hq hs vp rep n hr
    change p.1.pr.1 ≤ tf at k1; change tf ≤ p.1.pr.2 at k2
    simp only [Bool.false_eq_true, if_false] at k3
    obtain ⟨k3, k4⟩ := k3
    refine ⟨tl, tf, ?_, ?_, k2, hE _ _ _ k3, hcol hm tf s' k6 k7⟩
    · rcases k4 with ⟨-, k5⟩ | ⟨k4, -⟩
      · rw [k5]; exact h0.ge
      · rw [← h0]; exact k4
    · rcases k4 with ⟨k4, k5⟩ | ⟨-, k5, -⟩
      · rw [k4, k5]
      · exact k5.le
  | progressive =>
    have hm : B.mode ≠ .discretized := by rw [hd]; simp
    have hs := startPairs_inv _ _ _ (pairsOK B hB hm p)
    rw [hd] at hr
    simp only at hr
    obtain ⟨tf, tl, -, k1, k2, ⟨s', k6, k7⟩, k3⟩ := C31_fail _ _ _ false _ p.1 hle _ _ hq hs vp rep n hr
    change p.1.pr.1 ≤ tf at k1; change tf ≤ p.1.pr.2 at k2
    simp only [Bool.false_eq_true, if_false] at k3
    obtain ⟨k3, k4, k5, -⟩ := k3
    refine ⟨tl, tf, ?_, k5, k2, hE _ _ _ k3, hcol hm tf s' k6 k7⟩
    rw [← h0]; exact k4
  | discretized =>
    obtain ⟨d1, -, -⟩ := hB.disc hd
    rw [hd] at hr
    simp only at hr
    obtain ⟨tf, -, k1, k2, kg, k3⟩ := Validation.C29_fail _ _ _ d1 false _ p.1 hle vp rep n hr
    change p.1.pr.1 ≤ tf at k1; change tf ≤ p.1.pr.2 at k2
    have hg : ¬ B.Clear (conf p.1 tf) := by
      intro hc
      refine kg ⟨conf p.1 tf, eval_line p tf, ?_⟩
      unfold okConf
      rw [Bool.and_eq_true]
      constructor
      · cases hb : B.bounds with
        | none => rfl
        | some bd => simpa using hc.1 hd bd hb
      · rw [List.all_eq_true]
        intro c hc1
        rw [List.all_eq_true]
        intro o ho
        exact Option.isSome_iff_ne_none.2 (hc.2 c hc1 o ho)
    simp only [Bool.false_eq_true, if_false] at k3
    rcases k3 with ⟨-, k4⟩ | ⟨tl, L, k4, k5, k6, k7, -⟩
    · exact ⟨p.1.pr.1, tf, h0.ge, k1, k2, hE _ _ _ k4, hg⟩
    · have hl : p.1.pr.1 ≤ tl := k5.le
      exact ⟨tl, tf, h0 ▸ hl, k7.le, k2, hE _ _ _ k4, hg⟩

/-- C152: the three path validations accept a path all of whose configurations are clear. -/
theorem C152_accepts (p : SP B) (h : ∀ t, 0 ≤ t → t ≤ p.1.pr.2 → B.Clear (conf p.1 t)) : (env B hB).validate false p = (true, p) := by
  rcases validate_spec B hB false p with ⟨h1, h2, -⟩ | ⟨h1, -⟩
  · exact Prod.ext h1 h2
  · obtain ⟨tl, tf, a1, a2, a3, -, a5⟩ := refused p h1
    exact absurd (h tf (a1.trans a2) a3) a5

theorem seg_in {L t : K} (h0 : 0 ≤ t) (h1 : t ≤ L) : 0 ≤ t / L ∧ t / L ≤ 1 := ⟨div_nonneg h0 (h0.trans h1), div_le_one_of_le₀ h1 (h0.trans h1)⟩

theorem sees (D : DiffParams K) (R : K) (q : ι → K) (hD : D.stepLength ≤ 0 ∨ R ≤ D.stepLength) (h : B.Around R q) : SeesBall (env B hB) D R q := by
  intro x hx
  have hx' : B.metric x q ≤ R := hx
  have hn : ¬ (0 < D.stepLength ∧ D.stepLength < (env B hB).len (line B hB x q)) := by
    rintro ⟨a, b⟩
    have b' : D.stepLength < B.metric x q - 0 := b
    rcases hD with hD | hD <;> linarith
  have he : extend (env B hB) D x q = some (line B hB x q) := by
    unfold extend
    show some (if 0 < D.stepLength ∧ D.stepLength < (env B hB).len (line B hB x q) then _ else line B hB x q) = _
    rw [if_neg hn]
  have hv : (env B hB).validate false (line B hB x q) = (true, line B hB x q) := by
    refine C152_accepts _ fun t t0 t1 => ?_
    rw [conf_seg _ t]
    obtain ⟨u0, u1⟩ := seg_in t0 t1
    exact h x hx' _ u0 u1
  refine ⟨line B hB x q, he, by rw [hv], conf_fin _, fun hne => ?_⟩
  rw [hv]
  show B.metric x q ≠ 0
  exact fun h0 => hne (hB.zero x q h0)

/-- The end of what is inserted for a refused extension is a configuration of the extension before the one that collides. -/
theorem inserted_fin (D : DiffParams K) (p : SP B) (hv : ((env B hB).validate false p).1 = false) :
    ∃ u tf, 0 ≤ u ∧ u ≤ tf ∧ tf ≤ p.1.pr.2 ∧ (env B hB).fin (inserted (env B hB) D p) = conf p.1 u ∧ ¬ B.Clear (conf p.1 tf) := by
  obtain ⟨tl, tf, a1, a2, a3, a4, a5⟩ := refused p hv
  have h0 : p.1.pr.1 = 0 := p.2.1.1
  have key : ∀ b, 0 ≤ b → b ≤ (ext hB p p.1.pr.1 tl).1.pr.2 → ∃ u, 0 ≤ u ∧ u ≤ tl ∧ conf (ext hB p p.1.pr.1 tl).1 b = conf p.1 u := by
    intro b b0 b1
    obtain ⟨u, u1, u2, u3⟩ := ext_conf (hB := hB) p p.1.pr.1 tl ⟨h0.ge, (good p).1⟩ ⟨a1, a2.trans a3⟩ b b0 b1
    rw [h0, min_eq_left a1] at u1
    rw [h0, max_eq_right a1] at u2
    exact ⟨u, u1, u2, u3⟩
  have hfin : ∃ u, 0 ≤ u ∧ u ≤ tl ∧ (env B hB).fin (inserted (env B hB) D p) = conf p.1 u := by
    unfold inserted
    rw [a4]
    have hself : ∃ u, 0 ≤ u ∧ u ≤ tl ∧ (env B hB).fin (ext hB p p.1.pr.1 tl) = conf p.1 u := key _ (abs_nonneg _) le_rfl
    by_cases hr : ((env B hB).validate false p).1 = false ∧ 0 < D.stepRatio ∧ D.stepRatio < 1
    · rw [if_pos hr]
      set e := ext hB p p.1.pr.1 tl with he
      show ∃ u, 0 ≤ u ∧ u ≤ tl ∧ (env B hB).fin (if e.1.pr.1 ≤ e.1.pr.1 ∧ e.1.pr.1 ≤ e.1.pr.2 ∧ e.1.pr.1 ≤ e.1.pr.1 + (e.1.pr.2 - e.1.pr.1) * D.stepRatio ∧
        e.1.pr.1 + (e.1.pr.2 - e.1.pr.1) * D.stepRatio ≤ e.1.pr.2 then ext hB e e.1.pr.1 (e.1.pr.1 + (e.1.pr.2 - e.1.pr.1) * D.stepRatio) else e) = conf p.1 u
      split
      · next hc =>
        have e0 : e.1.pr.1 = 0 := e.2.1.1
        obtain ⟨u, u1, u2, u3⟩ := key (e.1.pr.1 + (e.1.pr.2 - e.1.pr.1) * D.stepRatio) (e0 ▸ hc.2.2.1) hc.2.2.2
        exact ⟨u, u1, u2, (ext_fin e _ _).trans u3⟩
      · exact hself
    · rw [if_neg hr]
      exact hself
  obtain ⟨u, u1, u2, u3⟩ := hfin
  exact ⟨u, tf, u1, u2.trans a2, a3, u3, a5⟩

theorem extract_cases (p : SP B) (a b : K) : ((env B hB).extract p a b = ext hB p a b ∧ p.1.pr.1 ≤ a ∧ a ≤ p.1.pr.2 ∧ p.1.pr.1 ≤ b ∧ b ≤ p.1.pr.2) ∨ (env B hB).extract p a b = p := by
  by_cases h : p.1.pr.1 ≤ a ∧ a ≤ p.1.pr.2 ∧ p.1.pr.1 ≤ b ∧ b ≤ p.1.pr.2
  · exact Or.inl ⟨if_pos h, h⟩
  · exact Or.inr (if_neg h)

/-- Shapes of the extensions. -/
theorem extend_shape (D : DiffParams K) (x q : ι → K) (p : SP B) (h : extend (env B hB) D x q = some p) :
    p.1.q0 = x ∧ ∃ w, 0 ≤ w ∧ w ≤ 1 ∧ p.1.q1 = seg x q w := by
  have hp : p = if 0 < D.stepLength ∧ D.stepLength < (env B hB).len (line B hB x q) then (env B hB).extract (line B hB x q) ((env B hB).t0 (line B hB x q))
      ((env B hB).t0 (line B hB x q) + D.stepLength) else line B hB x q := (Option.some.inj h).symm
  have hline : (line B hB x q).1.q0 = x ∧ ∃ w, (0 : K) ≤ w ∧ w ≤ 1 ∧ (line B hB x q).1.q1 = seg x q w :=
    ⟨rfl, 1, zero_le_one, le_rfl, by funext j; show q j = _; simp [seg]⟩
  rw [hp]
  split
  · next hs =>
    rcases extract_cases (hB := hB) (line B hB x q) ((env B hB).t0 (line B hB x q)) ((env B hB).t0 (line B hB x q) + D.stepLength) with ⟨h1, -, -, h2, h3⟩ | h1
    · rw [h1]
      refine ⟨conf_ini (line B hB x q), ?_⟩
      obtain ⟨w0, w1⟩ := seg_in h2 h3
      exact ⟨_, w0, w1, conf_seg (line B hB x q) _⟩
    · rw [h1]
      exact hline
  · exact hline

theorem sharp (D : DiffParams K) (q : ι → K) (h : B.Clear q) : Sharp (env B hB) D q := by
  intro x p hp hv hf
  obtain ⟨e1, w, w0, w1, e2⟩ := extend_shape D x q p hp
  obtain ⟨u, tf, u0, u1, u2, u3, u4⟩ := inserted_fin D p hv
  have hconf : ∀ t, 0 ≤ t → t ≤ p.1.pr.2 → conf p.1 t = seg x q (t / p.1.pr.2 * w) := by
    intro t t0 t1
    rw [conf_seg p t, e1, e2]
    funext j
    simp only [seg]
    ring
  have hu : seg x q (u / p.1.pr.2 * w) = q := by rw [← hconf u u0 (u1.trans u2), ← u3, hf]
  obtain ⟨v0, v1⟩ := seg_in u0 (u1.trans u2)
  obtain ⟨z0, z1⟩ := seg_in (u0.trans u1) u2
  have hvz : u / p.1.pr.2 ≤ tf / p.1.pr.2 := div_le_div_of_nonneg_right u1 (u0.trans (u1.trans u2))
  refine u4 ?_
  rw [hconf tf (u0.trans u1) u2]
  have hq : seg x q (tf / p.1.pr.2 * w) = q := by
    funext j
    have hj := congrFun hu j
    simp only [seg] at hj ⊢
    by_cases hx : q j - x j = 0
    · rw [hx]; linarith
    · have h1 : u / p.1.pr.2 * w = 1 := by
        have : (u / p.1.pr.2 * w - 1) * (q j - x j) = 0 := by linarith
        rcases mul_eq_zero.1 this with h | h
        · linarith
        · exact absurd h hx
      have h2 : tf / p.1.pr.2 * w = 1 := by
        refine le_antisymm (mul_le_one₀ z1 w0 w1) ?_
        rw [← h1]
        exact mul_le_mul_of_nonneg_right hvz w0
      rw [h2]
      ring
  rw [hq]
  exact h

/-- C152 on problems without constraints in a vector space, with straight paths and with any of the path validations: the shots contain in order, possibly among others, a chain of configurations
from the init configuration to a goal, at distance at most `R` from one another, such that the segments of length at most `R` that end at one of them are clear; then, from an empty roadmap, the
planner returns a path vector from the init configuration to a goal that is safe in the sense of C126, unless a limit or an interruption stops it before the end of the chain. -/
theorem C152_bench (B : Bench K ι) (hB : B.Ok) (hself : ∀ a, B.metric a a = 0) (D : DiffParams K) (heur : Roadmap.Roadmap (ι → K) (SP B) → Nat → K) (q0 : ι → K) (gs : List (ι → K)) (shoot : Nat → ι → K)
    (h0 : B.Free q0) (R : K) (hR : 0 ≤ R) (hD : D.stepLength ≤ 0 ∨ R ≤ D.stepLength) (idx : Nat → Nat) (k : Nat) (hmono : ∀ i < k, idx i < idx (i + 1)) (hfirst : B.metric q0 (shoot (idx 0)) ≤ R)
    (hnext : ∀ i < k, B.metric (shoot (idx i)) (shoot (idx (i + 1))) ≤ R) (hlast : ∃ g ∈ gs, B.metric g (shoot (idx k)) ≤ R) (hclear : ∀ i ≤ k, B.Around R (shoot (idx i)))
    (hnew : ∀ s0 t, startPlan (env B hB) q0 gs (0, Roadmap.empty) = .ok s0 → After (diffusing (env B hB) D heur q0 gs shoot) s0 (idx k) t → shoot (idx k) ∉ t.2.configs)
    (st : Settings K) (late intr : Nat → Bool) (hstop : st.stop = true) (hlim : ∀ m ≤ idx k, ¬ Limit st late m) (hint : ∀ m ≤ idx k + 1, intr m = false) (fuel : Nat) (hf : idx k < fuel) :
    ∃ l, solve (diffusing (env B hB) D heur q0 gs shoot) st late intr fuel (0, Roadmap.empty) = .path l ∧
      ∃ g ∈ gs, Safe B (evalV (straightOps (vecSpace K ι)) (pathVector l)) (pathVector l).tr.2 q0 g := by
  have hE : Roadmap.Separates (env B hB).toEnv := by
    intro x q hx
    have hx' : B.metric x q ≤ B.metric q q := hx
    rw [hself] at hx'
    exact hB.zero x q (le_antisymm hx' (hB.nonneg x q))
  have hck : B.Clear (shoot (idx k)) := by
    have := hclear k le_rfl (shoot (idx k)) (by rw [hself]; exact hR) 0 le_rfl zero_le_one
    have he : seg (shoot (idx k)) (shoot (idx k)) (0 : K) = shoot (idx k) := by funext j; simp [seg]
    rwa [he] at this
  have hch : Chain (env B hB) D R q0 gs shoot idx k :=
    ⟨hmono, hfirst, hnext, hlast, fun i hi => sees D R _ hD (hclear i hi), sharp D _ hck⟩
  obtain ⟨l, hl, -⟩ := C152_diffusing (contract B hB) hE (fun _ => Option.some_ne_none _) D heur q0 gs shoot ⟨Roadmap.Inv.empty, by simp [Roadmap.empty]⟩ R idx k hch hnew st late intr hstop hlim hint fuel hf
  exact ⟨l, hl, C126_diffusing B hB D heur q0 gs shoot st late intr fuel 0 l h0 hl⟩

/-! ## Non-vacuity: the point in the plane goes around the square -/

/-- The state after `n` steps. -/
def runN {S P E : Type} (A : Calls S P E) (s0 : S) : Nat → Except E S
  | 0 => .ok s0
  | n + 1 => match runN A s0 n with
    | .error e => .error e
    | .ok s => A.step s

theorem runN_after {S P E : Type} (A : Calls S P E) (s0 : S) (n : Nat) (s : S) (h : After A s0 n s) : runN A s0 n = .ok s := by
  induction n generalizing s with
  | zero => rw [show s = s0 from h]; rfl
  | succ n ih =>
    obtain ⟨s', h1, h2⟩ := h
    simp only [runN, ih s' h1, h2]

namespace Plane

def chain : Nat → Fin 2 → ℚ
  | 0 => ![0, 5]
  | 1 => ![7/2, 6]
  | 2 => ![13/2, 6]
  | _ => ![10, 5]

/-- The L1 ball of radius 5 around a point at distance more than 5 from the square is clear. -/
theorem around (s : Fin 2 → ℚ) (hs : ∀ y : Fin 2 → ℚ, sd y ≤ 0 → 5 < |y 0 - s 0| + |y 1 - s 1|) : (bench .progressive).Around 5 s := by
  intro x hx u u0 u1
  have hx' : |x 0 - s 0| + |x 1 - s 1| ≤ 5 := hx
  refine ⟨fun h => by simp [bench] at h, fun c hc o ho => ?_⟩
  obtain rfl := List.mem_singleton.1 hc
  obtain rfl := List.mem_singleton.1 ho
  have hpos : 0 < sd (seg x s u) := by
    by_contra hn
    have := hs _ (not_lt.1 hn)
    have e : ∀ j, seg x s u j - s j = (1 - u) * (x j - s j) := fun j => by simp only [seg]; ring
    rw [e, e, abs_mul, abs_mul, abs_of_nonneg (by linarith : 0 ≤ 1 - u)] at this
    nlinarith [abs_nonneg (x 0 - s 0), abs_nonneg (x 1 - s 1)]
  show (if 0 < sd (seg x s u) then some (sd (seg x s u)) else none) ≠ none
  rw [if_pos hpos]
  simp

theorem sd_box (y : Fin 2 → ℚ) (h : sd y ≤ 0) : 4 ≤ y 0 ∧ y 0 ≤ 6 ∧ -1 ≤ y 1 ∧ y 1 ≤ 1 := by
  unfold sd at h
  have h1 : |y 0 - 5| ≤ 1 := (le_max_left _ _).trans (by linarith)
  have h2 : |y 1| ≤ 1 := (le_max_right _ _).trans (by linarith)
  rw [abs_le] at h1 h2
  exact ⟨by linarith, by linarith, by linarith, by linarith⟩

theorem chain_clear (i : Nat) : (bench .progressive).Around 5 (chain i) := by
  refine around _ fun y hy => ?_
  obtain ⟨h1, h2, h3, h4⟩ := sd_box y hy
  match i with
  | 0 => simp only [chain, Matrix.cons_val_zero, Matrix.cons_val_one]; linarith [le_abs_self (y 0 - 0), neg_abs_le (y 1 - 5)]
  | 1 => simp only [chain, Matrix.cons_val_zero, Matrix.cons_val_one]; linarith [le_abs_self (y 0 - 7/2), neg_abs_le (y 1 - 6)]
  | 2 => simp only [chain, Matrix.cons_val_zero, Matrix.cons_val_one]; linarith [neg_abs_le (y 0 - 13/2), neg_abs_le (y 1 - 6)]
  | n + 3 => simp only [chain, Matrix.cons_val_zero, Matrix.cons_val_one]; linarith [neg_abs_le (y 0 - 10), neg_abs_le (y 1 - 5)]

/-- the last shot is not yet a node when it is shot -/
theorem chain_new : (match startPlan (env (bench .progressive) (ok .progressive)) start [goal] (0, Roadmap.empty) with
    | .error _ => false
    | .ok s0 => match runN (diffusing (env (bench .progressive) (ok .progressive)) ⟨-1, -1⟩ (fun _ _ => 0) start [goal] chain) s0 3 with
      | .error _ => false
      | .ok t => decide (chain 3 ∉ t.2.configs)) = true := by decide +kernel

/-- the hypotheses of C152 hold for a chain of four shots -/
example (fuel : Nat) (hf : 3 < fuel) : ∃ l, solve (diffusing (env (bench .progressive) (ok .progressive)) ⟨-1, -1⟩ (fun _ _ => 0) start [goal] chain) (Settings.default (K := ℚ)) (fun _ => false)
      (fun _ => false) fuel (0, Roadmap.empty) = .path l ∧
      ∃ g ∈ [goal], Safe (bench .progressive) (evalV (straightOps (vecSpace ℚ (Fin 2))) (pathVector l)) (pathVector l).tr.2 start g := by
  refine C152_bench (bench .progressive) (ok .progressive) (fun a => by simp [bench]) ⟨-1, -1⟩ (fun _ _ => 0) start [goal] chain (start_free _) 5 (by norm_num) (Or.inl (by norm_num)) id 3
    (fun i _ => Nat.lt_succ_self i) (by decide +kernel) ?_ ⟨goal, by simp, by decide +kernel⟩ (fun i _ => chain_clear i) ?_ _ _ _ rfl ?_ (fun _ _ => rfl) fuel hf
  · intro i hi
    match i, hi with
    | 0, _ => decide +kernel
    | 1, _ => decide +kernel
    | 2, _ => decide +kernel
  · intro s0 t h1 h2
    have := chain_new
    rw [h1] at this
    have h3 := runN_after _ _ 3 _ h2
    simp only [h3] at this
    exact of_decide_eq_true this
  · intro m hm h
    rcases h with ⟨h, -⟩ | h
    · exact h rfl
    · simp at h

end Plane

end Verif.EndToEnd

/-! ## Non-vacuity of `C152_dense`: a line on which paths are at most 3 long, shots that come back infinitely often near each integer -/

namespace Verif.Planner.Hop
open Verif.Roadmap Verif.Planner

def env : PEnv ℚ (ℚ × ℚ) ℚ where
  dist a b := |a - b|
  rev p := (p.2, p.1)
  zeroLength p := decide (p.1 = p.2)
  ini p := p.1
  fin p := p.2
  t0 _ := 0
  t1 p := |p.1 - p.2|
  len p := |p.1 - p.2|
  extract p _ _ := p
  steer a b := if |a - b| ≤ 3 then some (a, b) else none
  projector := none
  validate _ p := (true, p)
  onKernel _ q := some q

theorem contract : Contract env (fun _ => True) := by
  refine ⟨?_, fun _ _ => rfl, fun _ _ _ => trivial, ?_, ?_, fun _ => rfl, fun _ _ => trivial, fun _ _ _ => ⟨trivial, trivial, rfl, rfl⟩, fun _ => rfl, fun _ => rfl, fun _ => rfl,
    fun _ _ => trivial⟩
  · intro a b p h
    simp only [env] at h
    split at h
    · rw [← Option.some.inj h]; exact ⟨rfl, rfl⟩
    · simp at h
  · intro f p b p' h; simp [env] at h
  · intro f p h; simp [env] at h

def shoot (n : Nat) : ℚ := (n % 11 : Nat) + 1 / ((n : ℚ) + 2)

theorem shoot_frac (n : Nat) : 0 < 1 / ((n : ℚ) + 2) ∧ 1 / ((n : ℚ) + 2) < 1 := by
  have : (0 : ℚ) ≤ n := Nat.cast_nonneg n
  exact ⟨by positivity, by rw [div_lt_one (by linarith)]; linarith⟩

theorem shoot_floor (n : Nat) : ⌊shoot n⌋ = ((n % 11 : Nat) : ℤ) := by
  obtain ⟨h1, h2⟩ := shoot_frac n
  rw [Int.floor_eq_iff]
  unfold shoot
  rw [Int.cast_natCast]
  constructor <;> linarith

theorem shoot_inj (n m : Nat) (h : shoot n = shoot m) : n = m := by
  have hf : ((n % 11 : Nat) : ℤ) = ((m % 11 : Nat) : ℤ) := by rw [← shoot_floor, ← shoot_floor, h]
  have hf' : n % 11 = m % 11 := by exact_mod_cast hf
  unfold shoot at h
  rw [hf'] at h
  have h1 : 1 / ((n : ℚ) + 2) = 1 / ((m : ℚ) + 2) := by linarith
  rw [one_div, one_div, inv_inj] at h1
  exact_mod_cast (by linarith : (n : ℚ) = m)

theorem shoot_int (n : Nat) (z : ℤ) : shoot n ≠ z := by
  intro h
  have h1 := shoot_floor n
  rw [h, Int.floor_intCast] at h1
  obtain ⟨h2, -⟩ := shoot_frac n
  have : shoot n = ((n % 11 : Nat) : ℚ) := by rw [h, h1]; push_cast; rfl
  unfold shoot at this
  linarith

/-- The configurations that can be nodes after `n` steps. -/
def Known (n : Nat) (q : ℚ) : Prop := q = 0 ∨ q = 10 ∨ ∃ i < n, q = shoot i

def KnownPath (n : Nat) (p : ℚ × ℚ) : Prop := Known n p.1 ∧ Known n p.2

theorem closed (n : Nat) : Closed env (Known n) (Known n) (KnownPath n) := by
  refine ⟨?_, fun _ _ h => h, ?_, fun _ _ h => h, fun _ h => ⟨h.2, h.1⟩, ?_, fun _ h => h.1, fun _ h => h.2⟩
  · intro a b p ha hb h
    simp only [env] at h
    split at h
    · rw [← Option.some.inj h]; exact ⟨ha, hb⟩
    · simp at h
  · intro f p b p' h; simp [env] at h
  · rintro x q q' - hq h
    rw [← Option.some.inj h]
    exact hq

theorem Known.succ {n : Nat} {q : ℚ} (h : Known n q) : Known (n + 1) q := by
  rcases h with h | h | ⟨i, hi, h⟩
  · exact Or.inl h
  · exact Or.inr (Or.inl h)
  · exact Or.inr (Or.inr ⟨i, by omega, h⟩)

theorem known (s0 : Nat × Roadmap ℚ (ℚ × ℚ)) (hs : startPlan env 0 [10] (0, Roadmap.empty) = .ok s0) (n : Nat) (t : Nat × Roadmap ℚ (ℚ × ℚ))
    (ht : After (diffusing env ⟨-1, -1⟩ (fun _ _ => 0) 0 [10] shoot) s0 n t) : t.1 = n ∧ Within (Known n) (KnownPath n) t.2 := by
  induction n generalizing t with
  | zero =>
    rw [show t = s0 from ht]
    obtain ⟨r1, h1, -, -⟩ := startPlan_spec contract 0 [10] (s := (0, Roadmap.empty)) ⟨Inv.empty, by simp [Roadmap.empty]⟩
    refine ⟨by rw [hs] at h1; rw [Except.ok.inj h1], startPlan_in (closed 0) (Or.inl rfl) (fun g hg => Or.inr (Or.inl (List.mem_singleton.1 hg))) Within.empty hs⟩
  | succ n ih =>
    obtain ⟨t', h1, h2⟩ := ht
    obtain ⟨k1, k2⟩ := ih t' h1
    have h2' : lift (diffStep env ⟨-1, -1⟩ (shoot t'.1) t'.2) (t'.1 + 1) = .ok t := h2
    have hp : ∀ p, KnownPath n p → KnownPath (n + 1) p := fun p hp => ⟨hp.1.succ, hp.2.succ⟩
    have hw : Within (Known (n + 1)) (KnownPath (n + 1)) t'.2 :=
      ⟨fun q hq => (k2.configs q hq).succ, fun e he => hp _ (k2.edges e he), fun m e he => hp _ (k2.out m e he), fun m e he => hp _ (k2.inn m e he)⟩
    cases hd : diffStep env ⟨-1, -1⟩ (shoot t'.1) t'.2 with
    | error e => rw [hd] at h2'; simp [lift] at h2'
    | ok r' =>
      have hw' := diffStep_in (closed (n + 1)) (Or.inr (Or.inr ⟨n, by omega, by rw [k1]⟩)) hw hd
      rw [hd] at h2'
      have := Except.ok.inj h2'
      subst this
      exact ⟨by show t'.1 + 1 = _; omega, hw'⟩

theorem not_known (n : Nat) : ¬ Known n (shoot n) := by
  rintro (h | h | ⟨i, hi, h⟩)
  · exact shoot_int n 0 (by simpa using h)
  · exact shoot_int n 10 (by simpa using h)
  · have := shoot_inj _ _ h
    omega

theorem sees (q : ℚ) : SeesBall env ⟨-1, -1⟩ (1 + 1 + 1) q ∧ Sharp env ⟨-1, -1⟩ q := by
  constructor
  · intro x hx
    have hx' : |x - q| ≤ 3 := by
      have : |x - q| ≤ 1 + 1 + 1 := hx
      linarith
    refine ⟨(x, q), ?_, rfl, rfl, fun hne => ?_⟩
    · have hn : ¬ ((0 : ℚ) < -1) := by norm_num
      simp only [extend, env, if_pos hx', hn, false_and, if_false]
    · show |x - q| ≠ 0
      exact abs_ne_zero.2 (sub_ne_zero.2 hne)
  · intro x p _ hv
    simp [env] at hv

/-- the hypotheses of `C152_dense` hold: the goal is ten units away -/
example : ∃ N, ∀ fuel ≥ N, ∃ l, solve (diffusing env ⟨-1, -1⟩ (fun _ _ => 0) 0 [10] shoot) (Settings.default (K := ℚ)) (fun _ => false) (fun _ => false) fuel (0, Roadmap.empty) = .path l ∧
    Solves env (fun _ => True) 0 [10] l := by
  refine C152_dense contract (fun q => by simp [env]) ⟨-1, -1⟩ (fun _ _ => 0) 0 10 [10] shoot ⟨Inv.empty, by simp [Roadmap.empty]⟩ (fun q => by simp [env]) (fun a b h => ?_)
    (fun a b => abs_sub_comm a b) (fun a b c => abs_sub_le a b c) 1 zero_le_one (fun i => i) 10 (by norm_num) (by norm_num) (by simp) (fun i _ => ?_) (fun i hi N => ?_)
    (fun i _ n _ => sees _) (fun s0 n t h1 h2 h3 => not_known n ((known s0 h1 n t h2).2.configs _ h3)) _ _ _ rfl (fun m h => ?_) (fun _ => rfl)
  · have h' : |a - b| ≤ 0 := h
    exact sub_eq_zero.1 (abs_nonpos_iff.1 h')
  · show |((i : ℕ) : ℚ) - ((i + 1 : ℕ) : ℚ)| ≤ 1
    push_cast
    rw [show (i : ℚ) - (i + 1) = -1 by ring]
    norm_num
  · refine ⟨11 * N + i, by omega, ?_⟩
    have hm : (11 * N + i) % 11 = i := by omega
    obtain ⟨h1, h2⟩ := shoot_frac (11 * N + i)
    show |shoot (11 * N + i) - i| ≤ 1
    unfold shoot
    rw [hm, abs_le]
    constructor <;> linarith
  · rcases h with ⟨h, -⟩ | h
    · exact h rfl
    · simp at h

end Verif.Planner.Hop
