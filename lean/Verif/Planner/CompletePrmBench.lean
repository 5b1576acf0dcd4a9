import Verif.Planner.CompletePrm
import Verif.Planner.CompleteBench
set_option linter.unusedSectionVars false

/-! # Completeness of kPRM* on problems without constraints (C154) -/
namespace Verif.EndToEnd
open Verif.PathV Verif.CV Verif.Planner
variable {K ι H : Type} [Field K] [LinearOrder K] [IsStrictOrderedRing K] [FloorSemiring K] [Fintype ι]

/-- A chain of nodes as in `PrmChain`, whose successive configurations are joined by clear segments. -/
structure ClearChain (B : Bench K ι) (k : Nat) (F : List (ι → K)) (q0 : ι → K) (gs : List (ι → K)) (w : Nat → ι → K) (m : Nat) : Prop where
  first : w 0 = q0
  last : w m ∈ gs
  mem : ∀ i ≤ m, w i ∈ F
  near : ∀ i < m, (F.filter (fun x => decide (B.metric x (w i) ≤ B.metric (w (i + 1)) (w i)))).length ≤ k ∧ (∀ u, 0 ≤ u → u ≤ 1 → B.Clear (seg (w i) (w (i + 1)) u)) ∨
    (F.filter (fun x => decide (B.metric x (w (i + 1)) ≤ B.metric (w i) (w (i + 1))))).length ≤ k ∧ (∀ u, 0 ≤ u → u ≤ 1 → B.Clear (seg (w (i + 1)) (w i) u))

/-- C154 on problems without constraints in a vector space, with straight paths and with any of the path validations: if the nodes contain a chain from the init configuration to a goal, two successive nodes being
among the `k` nearest and joined by a clear segment, kPRM* returns a path vector from the init configuration to a goal that is safe in the sense of C126, unless a limit or an interruption stops it before. -/
theorem C154_bench (B : Bench K ι) (hB : B.Ok) (hself : ∀ a, B.metric a a = 0) (C : KEnv (ι → K) (SP B) K H) (hC : C.toPEnv = env B hB) (hk : 0 < C.k) (heur : Roadmap.Roadmap (ι → K) (SP B) → Nat → K)
    (q0 : ι → K) (gs : List (ι → K)) (h0 : B.Free q0) (s : KState) (hb : (nodeList C q0 gs s.shots 0).length < C.nodes) (M : Nat)
    (hM : C.nodes ≤ (nodeList C q0 gs s.shots M).length) (htry : ∀ j < M, ∃ i < C.tries, C.check (C.shoot (s.shots + j + i)) ≠ none)
    (w : Nat → ι → K) (m : Nat) (hch : ClearChain B C.k (nodeList C q0 gs s.shots M) q0 gs w m)
    (st : Settings K) (late intr : Nat → Bool) (hstop : st.stop = true) (hlim : ∀ m ≤ M + C.nodes * (C.k + 1) + 3, ¬ Limit st late m)
    (hint : ∀ m ≤ M + C.nodes * (C.k + 1) + 4, intr m = false) (fuel : Nat) (hf : M + C.nodes * (C.k + 1) + 3 < fuel) :
    ∃ l, solve (kprm C heur q0 gs) st late intr fuel (s, Roadmap.empty) = .path l ∧
      ∃ g ∈ gs, Safe B (evalV (straightOps (vecSpace K ι)) (pathVector l)) (pathVector l).tr.2 q0 g := by
  have hdir : ∀ x y, (∀ u, 0 ≤ u → u ≤ 1 → B.Clear (seg x y u)) → Direct C.toPEnv x y := by
    intro x y h
    rw [hC]
    refine ⟨line B hB x y, line B hB x y, rfl, Or.inl ⟨rfl, rfl⟩, ?_⟩
    rw [C152_accepts]
    intro t t0 t1
    rw [conf_seg _ t]
    obtain ⟨u0, u1⟩ := seg_in t0 t1
    exact h _ u0 u1
  have hdist : C.dist = B.metric := by
    have : C.toPEnv.dist = (env B hB).dist := by rw [hC]
    exact this
  have hE : Roadmap.Separates C.toEnv := by
    intro x q hx
    rw [hdist] at hx
    rw [hself] at hx
    exact hB.zero x q (le_antisymm hx (hB.nonneg x q))
  obtain ⟨l, hl, -⟩ := C154_kprm (C := C) (Valid := Valid B) (by rw [hC]; exact contract B hB) hE (fun q => by
      have : C.toPEnv.steer q q ≠ none := by rw [hC]; exact Option.some_ne_none _
      exact this) hk heur q0 gs ⟨Roadmap.Inv.empty, by simp [Roadmap.empty]⟩ rfl s hb M hM htry w m
    ⟨hch.first, hch.last, hch.mem, fun i hi => by
      unfold NearOf
      rw [hdist]
      rcases hch.near i hi with ⟨h1, h2⟩ | ⟨h1, h2⟩
      · exact Or.inl ⟨hdir _ _ h2, h1⟩
      · exact Or.inr ⟨hdir _ _ h2, h1⟩⟩ st late intr hstop hlim hint fuel hf
  exact ⟨l, hl, C126_kprm B hB C hC hk (by omega) heur q0 gs st late intr fuel s l h0 hl⟩

/-! ## Non-vacuity: the point in the plane goes around the square -/

namespace Plane

/-- Six nodes, three neighbours; the first configuration shot is in the square. -/
def prm : KEnv (Fin 2 → ℚ) (SP (bench .progressive)) ℚ {l : List (ℚ × Nat) // l.Pairwise (fun a b => b.1 ≤ a.1)} where
  toPEnv := env (bench .progressive) (ok .progressive)
  nodes := 6
  k := 3
  pq := NN.sortedQueue
  shoot n := if n = 0 then ![5, 0] else chain (n - 1)
  check q := if 0 < sd q then some q else none
  tries := 10000

def prmChain : Nat → Fin 2 → ℚ
  | 0 => start
  | 5 => goal
  | n + 1 => chain n

theorem prm_nodes : nodeList prm start [goal] 0 5 = [start, goal, chain 0, chain 1, chain 2, chain 3] := by decide +kernel

/-- the hypotheses of C154 hold -/
example (fuel : Nat) (hf : 32 < fuel) : ∃ l, solve (kprm prm (fun _ _ => 0) start [goal]) (Settings.default (K := ℚ)) (fun _ => false) (fun _ => false) fuel (⟨.build, 0, [], 0, 0⟩, Roadmap.empty) = .path l ∧
      ∃ g ∈ [goal], Safe (bench .progressive) (evalV (straightOps (vecSpace ℚ (Fin 2))) (pathVector l)) (pathVector l).tr.2 start g := by
  refine C154_bench (bench .progressive) (ok .progressive) (fun a => by simp [bench]) prm rfl (by decide) (fun _ _ => 0) start [goal] (start_free _) ⟨.build, 0, [], 0, 0⟩ (by decide +kernel) 5
    (by decide +kernel) ?_ prmChain 5 ⟨rfl, by decide +kernel, ?_, ?_⟩ _ _ _ rfl ?_ (fun _ _ => rfl) fuel hf
  · intro j hj
    refine ⟨1, by decide, ?_⟩
    match j, hj with
    | 0, _ => decide +kernel
    | 1, _ => decide +kernel
    | 2, _ => decide +kernel
    | 3, _ => decide +kernel
    | 4, _ => decide +kernel
  · intro i hi
    show prmChain i ∈ nodeList prm start [goal] 0 5
    rw [prm_nodes]
    match i, hi with
    | 0, _ => decide +kernel
    | 1, _ => decide +kernel
    | 2, _ => decide +kernel
    | 3, _ => decide +kernel
    | 4, _ => decide +kernel
    | 5, _ => decide +kernel
  · intro i hi
    show ((nodeList prm start [goal] 0 5).filter _).length ≤ 3 ∧ _ ∨ ((nodeList prm start [goal] 0 5).filter _).length ≤ 3 ∧ _
    rw [prm_nodes]
    match i, hi with
    | 0, _ => exact Or.inl ⟨by decide +kernel, chain_clear 0 _ (by decide +kernel)⟩
    | 1, _ => exact Or.inl ⟨by decide +kernel, chain_clear 1 _ (by decide +kernel)⟩
    | 2, _ => exact Or.inl ⟨by decide +kernel, chain_clear 2 _ (by decide +kernel)⟩
    | 3, _ => exact Or.inl ⟨by decide +kernel, chain_clear 3 _ (by decide +kernel)⟩
    | 4, _ => exact Or.inr ⟨by decide +kernel, chain_clear 3 _ (by decide +kernel)⟩
  · intro m hm h
    rcases h with ⟨h, -⟩ | h
    · exact h rfl
    · simp at h

end Plane

end Verif.EndToEnd
