import Verif.Car.CarLike
import Verif.Car.Validation
import Verif.Path.VectorExtract
import Verif.Planner.KPrmStar
import Verif.Planner.Visibility
set_option linter.unusedSectionVars false

/-!
# From the planners to the absence of collision, for cars (C160)

As in `Planner/EndToEnd.lean`, the calls of the planners are the models of the library: paths of Dubins or Snibud (C87, C110), vectors of paths of constant curvature (C19 to C22, C85),
continuous validation of these vectors (C33, C159).  The contracts of the planners are proved, and the statements of the planners become statements on the distances between bodies and on the
curvature at every parameter of the path that is returned.

Simplifications: no wheel joint is set (the configurations at the ends of the paths differ by the values of the wheels otherwise: C85); steering between two configurations of the same pose, which
gives lengths that are not numbers (C87, C110), is a failure of the steering method; the validation of a vector from its end is an error whatever the vector (`C33_reverse_counterexample`) and is a
refusal here: the planners considered only validate from the beginning (diffusing-planner.cc:214, 275, 307, visibility-prm-planner.cc:89, k-prm-star.cc:182, path-planner.cc:244, 273).
-/
namespace Verif.Planner.Cars
open Verif.Car Verif.CV Verif.PathV Verif.Planner Verif.Roadmap
open Classical

variable {ι : Type} [Fintype ι]

abbrev Arcs (ι : Type) := List (CC (ι → ℝ) Unit)

/-- Configurations of unit heading. -/
abbrev Conf (ι : Type) := {q : Cfg (ι → ℝ) Unit // q.Unit}

/-- A problem: pairs of bodies, kind of continuous validation, turning radius, kind of steering method (`back`: Snibud instead of Dubins), distance for the extra length, distance of the roadmap,
interpolation of the other degrees of freedom. -/
structure World (ι : Type) where
  pairs : List (CarPair ι Unit)
  prog : Bool
  rho : ℝ
  back : Bool
  extra : Cfg (ι → ℝ) Unit → Cfg (ι → ℝ) Unit → ℝ
  metric : Conf ι → Conf ι → ℝ
  interp : Cfg (ι → ℝ) Unit → Cfg (ι → ℝ) Unit → ℝ → Cfg (ι → ℝ) Unit

/-- What is assumed. -/
structure World.Ok (X : World ι) : Prop where
  pairs : ∀ c ∈ X.pairs, c.Ok
  radius : 0 < X.rho
  extra : ∀ a b, 0 ≤ X.extra a b
  between : ∀ a b u, (X.interp a b u).o = lerp a.o b.o u

/-- Vectors of arcs as built by the library: arcs on the minimal radius or straight, each one starting where the previous one ends. -/
structure Chain (X : World ι) (l : Arcs ι) : Prop where
  ne : l ≠ []
  arc : ∀ K ∈ l, Arc K ∧ K.t0 = 0 ∧ (K.curvature = 0 ∨ |K.curvature| = 1 / X.rho)
  link : l.IsChain (fun K L => K.fin = L.init)

/-- The paths of the problem. -/
abbrev SP (X : World ι) := { l : Arcs ι // Chain X l }

/-- The vector of paths, as built by `appendPath`. -/
noncomputable def vec (l : Arcs ι) : Vec ℝ (Cfg (ι → ℝ) Unit) (CC (ι → ℝ) Unit) := l.foldl (appendPath ccOps) (create none)

theorem vec_eq (l : Arcs ι) : vec l = ⟨none, (0, total ccOps l), l⟩ := by
  unfold vec
  rw [appendAll]
  simp [create]

variable {X : World ι}

theorem fin_eq {K : CC (ι → ℝ) Unit} (h : Arc K) : K.fin = K.eval K.t1 := Cfg.ext' h.coherent.fin.1 h.coherent.fin.2 rfl
theorem init_eq (K : CC (ι → ℝ) Unit) : K.init = K.eval K.t0 := by rw [eval_start]
theorem bound_eq {K : CC (ι → ℝ) Unit} (h : Arc K) (t : ℝ) : K.bound t = K.eval t := Cfg.ext' (bound_same h.coherent t).1 (bound_same h.coherent t).2 rfl
theorem fin_unit {K : CC (ι → ℝ) Unit} (h : Arc K) : K.fin.Unit := by rw [fin_eq h]; exact C85_heading K h.unit _

theorem head_arc (p : SP X) : Arc (p.1.head p.2.ne) := (p.2.arc _ (List.head_mem _)).1
theorem last_arc (p : SP X) : Arc (p.1.getLast p.2.ne) := (p.2.arc _ (List.getLast_mem _)).1

/-- `PathVector::initial` and `end`: path-vector.hh:128-132. -/
def ini (p : SP X) : Conf ι := ⟨(p.1.head p.2.ne).init, (head_arc p).unit⟩
def fin (p : SP X) : Conf ι := ⟨(p.1.getLast p.2.ne).fin, fin_unit (last_arc p)⟩

/-! ## Reversed vectors -/

theorem arc_reverse {K : CC (ι → ℝ) Unit} (h : Arc K) : Arc K.reverse :=
  ⟨by show (0 : ℝ) ≤ K.t1 - K.t0; linarith [h.le], fin_unit h, reverse_coherent h.coherent⟩

theorem chain_reverse {l : Arcs ι} (h : Chain X l) : Chain X (l.reverse.map CC.reverse) := by
  refine ⟨by simpa using h.ne, ?_, ?_⟩
  · intro K hK
    obtain ⟨K0, hK0, rfl⟩ := List.mem_map.1 hK
    obtain ⟨a, -, c⟩ := h.arc K0 (List.mem_reverse.1 hK0)
    exact ⟨arc_reverse a, rfl, c⟩
  · rw [List.isChain_map, List.isChain_reverse]
    exact h.link.imp fun K L h => h.symm

/-- The reversed vector. -/
noncomputable def rev (p : SP X) : SP X := ⟨p.1.reverse.map CC.reverse, chain_reverse p.2⟩

/-- `rev` is the reversal of vectors of paths (C22). -/
theorem rev_eq (p : SP X) : reverseV ccOps (vec p.1) = .ok (vec (rev p).1) := by
  have key : ∀ (l : Arcs ι) (acc : Vec ℝ (Cfg (ι → ℝ) Unit) (CC (ι → ℝ) Unit)),
      l.foldlM (fun acc p => match ccOps.reverse p with
        | .error e => .error e
        | .ok p' => .ok (appendPath ccOps acc p')) acc = (.ok ((l.map CC.reverse).foldl (appendPath ccOps) acc) : Except PathV.Err _) := by
    intro l
    induction l with
    | nil => intro acc; rfl
    | cons K l ih => intro acc; rw [List.foldlM_cons, List.map_cons, List.foldl_cons, ← ih]; rfl
  unfold reverseV
  rw [vec_eq p.1]
  exact key _ _

theorem reverse_eval {K : CC (ι → ℝ) Unit} (h : Arc K) {t : ℝ} (h0 : 0 ≤ t) (h1 : t ≤ K.t1 - K.t0) : K.reverse.eval t = K.eval (K.t1 - t) := by
  rcases h.le.eq_or_lt with e | e
  · have : t = 0 := by linarith
    subst this
    rw [show (0 : ℝ) = K.reverse.t0 from rfl, ← init_eq, show K.reverse.t0 = 0 from rfl, sub_zero, ← fin_eq h]
    rfl
  · exact (C85_reverse h.coherent e).2.2.2 t

/-! ## Parts of chains -/

/-- A chain stays one when the last arc is replaced by another one that starts at the same configuration. -/
theorem chain_last {R : CC (ι → ℝ) Unit → CC (ι → ℝ) Unit → Prop} (A : Arcs ι) {q q' : CC (ι → ℝ) Unit} {B : Arcs ι} (h : (A ++ q :: B).IsChain R) (hq : ∀ K, R K q → R K q') :
    (A ++ [q']).IsChain R := by
  induction A with
  | nil => simp
  | cons K A ih =>
    rw [List.cons_append, List.isChain_cons] at h ⊢
    refine ⟨?_, ih h.2⟩
    intro L hL
    cases A with
    | nil =>
      simp only [List.nil_append, List.head?_cons, Option.mem_def, Option.some.injEq] at hL
      subst hL
      exact hq _ (h.1 q (by simp))
    | cons b A => exact h.1 L hL

theorem chain_first {R : CC (ι → ℝ) Unit → CC (ι → ℝ) Unit → Prop} {K K' : CC (ι → ℝ) Unit} {B : Arcs ι} (h : (K :: B).IsChain R) (hk : ∀ L, R K L → R K' L) : (K' :: B).IsChain R := by
  rw [List.isChain_cons] at h ⊢
  exact ⟨fun L hL => hk L (h.1 L hL), h.2⟩

/-- An arc or a part of it, followed in the same direction. -/
def Part (L K : CC (ι → ℝ) Unit) : Prop := ∃ c d, K.t0 ≤ c ∧ c ≤ d ∧ d ≤ K.t1 ∧ L = K.extract c d

theorem part_arc {L K : CC (ι → ℝ) Unit} (hK : Arc K ∧ K.t0 = 0 ∧ (K.curvature = 0 ∨ |K.curvature| = 1 / X.rho)) (h : Part L K) :
    (Arc L ∧ L.t0 = 0 ∧ (L.curvature = 0 ∨ |L.curvature| = 1 / X.rho)) ∧ ∀ t, L.t0 ≤ t → t ≤ L.t1 → ∃ u, K.t0 ≤ u ∧ u ≤ K.t1 ∧ L.eval t = K.eval u := by
  obtain ⟨c, d, h1, h2, h3, rfl⟩ := h
  obtain ⟨x1, x2, x3, x4⟩ := hK.1.extract h1 h2 h3
  refine ⟨⟨x1, x2, hK.2.2⟩, fun t t0 t1 => ?_⟩
  rw [x2] at t0
  rw [x3] at t1
  exact ⟨c + t, by linarith, by linarith, x4 t t0 t1⟩

/-- Extraction from the beginning of a vector of arcs (C21): it succeeds, and gives a chain of arcs and of parts of arcs of the vector that starts at the same configuration. -/
theorem extract_vec {l : Arcs ι} (h : Chain X l) {t : ℝ} (h0 : 0 ≤ t) (h1 : t ≤ total ccOps l) :
    ∃ r, extractV ccOps (vec l) 0 t = .ok r ∧ r = vec r.paths ∧ Chain X r.paths ∧ (r.paths.head?.map (·.init) = l.head?.map (·.init)) ∧
      ∀ L ∈ r.paths, ∃ K ∈ l, L = K ∨ Part L K := by
  obtain ⟨K0, rest, rfl⟩ := List.exists_cons_of_ne_nil h.ne
  have hlen : ∀ p ∈ K0 :: rest, 0 ≤ ccOps.len p := fun p hp => sub_nonneg.2 (h.arc p hp).1.le
  obtain ⟨A', q, B', w, e', b1, b2, b3, b4⟩ := exists_pos ccOps (K0 :: rest) h.ne t h0 h1
  have hp : (vec (K0 :: rest)).paths = K0 :: rest := by rw [vec_eq]
  have hra := rank_at ccOps (vec (K0 :: rest)) [] rest K0 0 hp (by simp) (Or.inl rfl) (hlen K0 (by simp))
  have hrb := rank_at ccOps (vec (K0 :: rest)) A' B' q w (by rw [hp]; exact e') (fun z hz => hlen z (by rw [e']; simp [hz])) b3 b2
  rw [← b4] at hrb
  simp only [total_nil, zero_add, List.length_nil] at hra
  have hap : at' (vec (K0 :: rest)) 0 = .ok K0 := by unfold at'; rw [hp]; simp
  have haq : at' (vec (K0 :: rest)) A'.length = .ok q := by unfold at'; rw [hp, e']; simp
  have hK0 := h.arc K0 (by simp)
  have hq := h.arc q (by rw [e']; simp)
  have hqw : Part (q.extract q.t0 (w + q.t0)) q := ⟨q.t0, w + q.t0, le_rfl, by linarith, by have : w ≤ q.t1 - q.t0 := b2; linarith, rfl⟩
  have hqi : (q.extract q.t0 (w + q.t0)).init = q.init := by show q.bound q.t0 = _; simp [CC.bound]
  unfold extractV
  rw [hra, hrb]
  simp only [hap, haq, decide_eq_false (not_lt.2 h0), Bool.false_eq_true, if_false]
  cases A' with
  | nil =>
    rw [List.nil_append, List.cons.injEq] at e'
    obtain ⟨rfl, rfl⟩ := e'
    refine ⟨appendPath ccOps (create none) (K0.extract K0.t0 (w + K0.t0)), by simp [ccOps], rfl, ⟨by simp [appendPath], ?_, by simp [appendPath, create]⟩, ?_, ?_⟩
    · intro K hK
      simp only [appendPath, create, List.nil_append, List.mem_singleton] at hK
      rw [hK]
      exact (part_arc hK0 hqw).1
    · simp only [appendPath, create, List.nil_append, List.head?_cons, Option.map_some, hqi]
    · intro L hL
      simp only [appendPath, create, List.nil_append, List.mem_singleton] at hL
      exact ⟨K0, by simp, Or.inr (hL ▸ hqw)⟩
  | cons K1 M =>
    rw [List.cons_append, List.cons.injEq] at e'
    obtain ⟨rfl, rfl⟩ := e'
    rw [if_neg (by simp)]
    have hmid := midLoop_fwd ccOps (vec (K0 :: (M ++ q :: B'))) [K0] M q B' (by rw [hp]; simp) (vec (K0 :: (M ++ q :: B'))).paths.length (by rw [hp]; simp; omega)
      (appendPath ccOps (create none) (K0.extract K0.t0 K0.t1))
    have h2 : ccOps.extract K0 (ccOps.lo K0) (iEnd ccOps K0 false) = .ok (K0.extract K0.t0 K0.t1) := rfl
    have h3 : ccOps.extract q (iInit ccOps q false) (w + ccOps.lo q) = .ok (q.extract q.t0 (w + q.t0)) := rfl
    rw [h2]
    simp only
    have hl : (K0 :: M).length = [K0].length + M.length := by simp; omega
    rw [hl, show (0 : ℕ) + 1 = [K0].length from rfl, hmid]
    simp only
    rw [h3]
    set K' := K0.extract K0.t0 K0.t1
    set q' := q.extract q.t0 (w + q.t0)
    have hK' : Part K' K0 := ⟨K0.t0, K0.t1, le_rfl, hK0.1.le, le_rfl, rfl⟩
    have hr : appendPath ccOps (M.foldl (appendPath ccOps) (appendPath ccOps (create none) K')) q' = vec (K' :: (M ++ [q'])) := by
      unfold vec
      rw [List.foldl_cons, List.foldl_append]
      rfl
    have hrp : (vec (K' :: (M ++ [q']))).paths = K' :: (M ++ [q']) := by rw [vec_eq]
    have hf : K'.fin = K0.fin := by
      show K0.bound K0.t1 = _
      rw [bound_eq hK0.1, ← fin_eq hK0.1]
    have hi : K'.init = K0.init := by show K0.bound K0.t0 = _; simp [CC.bound]
    simp only [hr]
    refine ⟨_, rfl, by rw [hrp], ?_, ?_, ?_⟩
    · rw [hrp]
      refine ⟨by simp, ?_, ?_⟩
      · intro K hK
        rcases List.mem_cons.1 hK with rfl | hK
        · exact (part_arc hK0 hK').1
        · rcases List.mem_append.1 hK with hK | hK
          · exact h.arc K (by simp [hK])
          · rw [List.mem_singleton.1 hK]
            exact (part_arc hq hqw).1
      · refine chain_first (K := K0) ?_ (fun L hL => by rw [hf]; exact hL)
        have := chain_last (K0 :: M) (q := q) (q' := q') (B := B') (by simpa using h.link) (fun K hK => by rw [hK, hqi])
        simpa using this
    · rw [hrp]; simp [hi]
    · rw [hrp]
      intro L hL
      rcases List.mem_cons.1 hL with rfl | hL
      · exact ⟨K0, by simp, Or.inr hK'⟩
      · rcases List.mem_append.1 hL with hL | hL
        · exact ⟨L, by simp [hL], Or.inl rfl⟩
        · rw [List.mem_singleton.1 hL]
          exact ⟨q, by simp, Or.inr hqw⟩

/-! ## The calls of the planners -/

/-- The vector if it is one of the paths considered (always: `extract_vec`, `check_part`). -/
noncomputable def mk (X : World ι) (l : Arcs ι) (p : SP X) : SP X := if h : Chain X l then ⟨l, h⟩ else p

/-- Steering: steering-method/dubins.cc:39-57, snibud.cc:39-59. -/
noncomputable def path (X : World ι) (a b : Conf ι) : Except DErr (Arcs ι) :=
  if X.back then snibudSteer X.interp (fun _ => ()) X.extra X.rho a.1 b.1 else dubinsSteer X.interp (fun _ => ()) X.extra X.rho a.1 b.1

/-- The calls of the planners.  Planners extract from the beginning of the path, inside of its range (diffusing-planner.cc:132-135, 219-223): elsewhere `extract` is left equal to the identity.
No constraint: every configuration is its own projection. -/
noncomputable def env (X : World ι) : PEnv (Conf ι) (SP X) ℝ where
  dist := X.metric
  rev := rev
  zeroLength p := decide (total ccOps p.1 = 0)
  ini := ini
  fin := fin
  t0 p := (vec p.1).tr.1
  t1 p := (vec p.1).tr.2
  len p := (vec p.1).tr.2 - (vec p.1).tr.1
  extract p a b := if 0 ≤ b ∧ b ≤ total ccOps p.1 then match extractV ccOps (vec p.1) a b with
      | .error _ => p
      | .ok r => mk X r.paths p
    else p
  steer a b := match path X a b with
    | .error _ => none
    | .ok l => if h : Chain X l then some ⟨l, h⟩ else none
  projector := none
  validate rev p := if rev then (false, p) else match checkArcs X.prog X.pairs (vec p.1) with
    | .error _ => (false, p)
    | .ok r => (r.1, mk X r.2.1.paths p)
  onKernel _ q := some q

/-- The path is free at all parameters. -/
def Valid (X : World ι) (p : SP X) : Prop := ∀ K ∈ p.1, ∀ t, K.t0 ≤ t → t ≤ K.t1 → CarFree X.pairs (K.eval t)

/-! ## The contract -/

theorem tr_vec (l : Arcs ι) : (vec l).tr = (0, total ccOps l) := by rw [vec_eq]
theorem paths_vec (l : Arcs ι) : (vec l).paths = l := by rw [vec_eq]
theorem cons_vec (l : Arcs ι) : (vec l).cons = none := by rw [vec_eq]

theorem ini_of_head {p p' : SP X} (h : p'.1.head?.map (·.init) = p.1.head?.map (·.init)) : ini p' = ini p := by
  rw [List.head?_eq_some_head p.2.ne, List.head?_eq_some_head p'.2.ne] at h
  exact Subtype.ext (Option.some.inj h)

/-- The validation of a path of the problem ends, with what C159 says; the valid part is one of the paths considered. -/
theorem check_part (hX : X.Ok) (p : SP X) : ∃ r, checkArcs X.prog X.pairs (vec p.1) = .ok r ∧ Chain X r.2.1.paths ∧
    (r.2.1.paths.head?.map (·.init) = p.1.head?.map (·.init)) ∧ (r.1 = true → r.2.1.paths = p.1 ∧ Valid X p) ∧
    (r.1 = false → total ccOps r.2.1.paths ≠ 0 → ∀ K ∈ r.2.1.paths, ∀ t, K.t0 ≤ t → t ≤ K.t1 → CarFree X.pairs (K.eval t)) := by
  have hv : ∀ K ∈ (vec p.1).paths, Arc K := by rw [paths_vec]; exact fun K hK => (p.2.arc K hK).1
  obtain ⟨r, hr, ht⟩ := C159_vector X.prog hX.pairs (cons_vec p.1) hv
  refine ⟨r, hr, ?_⟩
  cases hb : r.1 with
  | true =>
    obtain ⟨-, h2, -⟩ := ht hb
    rw [paths_vec] at h2
    rw [h2]
    refine ⟨p.2, rfl, fun _ => ⟨rfl, ?_⟩, by simp⟩
    intro K hK t t0 t1
    obtain ⟨r', hr', hiff⟩ := C33_forward ccOps (fun rev K => checkArc X.prog X.pairs (arcFuel X.pairs K) rev K) (vec p.1) p.1
      (by have := pieces_none ccOps (vec p.1) (cons_vec p.1); rwa [paths_vec] at this) (fun K h => C159_arc_ends X.prog hX.pairs false (p.2.arc K h).1)
    have e : r' = r := by
      have := hr'.symm.trans hr
      exact Except.ok.inj this
    subst e
    obtain ⟨vp, rep, e⟩ := hiff.1 hb K hK
    exact (C159_arc hX.pairs (p.2.arc K hK).1 e).2.2 t t0 t1
  | false =>
    obtain ⟨A, K, B, L, e1, e2, ⟨x, x1, x2, x3⟩, hL, hA, hfree⟩ := C159_vector_part X.prog hX.pairs (cons_vec p.1) hv hr hb
    rw [paths_vec] at e1
    have hK := p.2.arc K (by rw [e1]; simp)
    have hpart : Part L K := ⟨K.t0, x, le_rfl, x1, x2, x3⟩
    have hLi : L.init = K.init := by rw [x3]; show K.bound K.t0 = _; simp [CC.bound]
    rw [e2]
    refine ⟨⟨by simp, ?_, ?_⟩, ?_, by simp, fun _ hne => ?_⟩
    · intro k hk
      rcases List.mem_append.1 hk with hk | hk
      · exact p.2.arc k (by rw [e1]; simp [hk])
      · rw [List.mem_singleton.1 hk]
        exact (part_arc hK hpart).1
    · exact chain_last A (q := K) (B := B) (by rw [← e1]; exact p.2.link) fun k hk => by rw [hk, hLi]
    · rw [e1]
      cases A with
      | nil => simp [hLi]
      | cons a A => simp
    · intro k hk
      rcases List.mem_append.1 hk with hk | hk
      · exact hA k hk
      · rw [List.mem_singleton.1 hk]
        rcases hfree with h | h
        · intro t t0 t1
          have : t = L.t0 := le_antisymm (by rw [h]; exact t1) t0
          rw [this, ← init_eq, hLi]
          rcases List.eq_nil_or_concat A with rfl | ⟨A', k', rfl⟩
          · exfalso
            apply hne
            simp [total, Ops.len, ccOps, h]
          · have hl : k'.fin = K.init := by
              have := p.2.link
              rw [e1, List.concat_eq_append, List.append_assoc, List.singleton_append, List.isChain_append] at this
              have := this.2.1
              rw [List.isChain_cons] at this
              exact this.1 K (by simp)
            have hk' := (p.2.arc k' (by rw [e1]; simp)).1
            rw [← hl, fin_eq hk']
            exact hA k' (by simp) _ hk'.le le_rfl
        · exact h

theorem mk_eq {l : Arcs ι} (h : Chain X l) (p : SP X) : mk X l p = ⟨l, h⟩ := by unfold mk; rw [dif_pos h]

/-- The steering methods. -/
theorem steer_spec (hX : X.Ok) {a b : Conf ι} {p : SP X} (h : (env X).steer a b = some p) : ini p = a ∧ fin p = b := by
  have key : ∀ K1 K2 K3 : CC (ι → ℝ) Unit, path X a b = .ok [K1, K2, K3] → Same K1.init a.1 → Same K3.fin b.1 → ini p = a ∧ fin p = b := by
    intro K1 K2 K3 e h1 h2
    simp only [env, e] at h
    split at h
    · have h := Option.some.inj h
      subst h
      exact ⟨Subtype.ext (Cfg.ext' h1.1 h1.2 rfl), Subtype.ext (Cfg.ext' h2.1 h2.2 rfl)⟩
    · simp at h
  by_cases hne : a.1.pose = b.1.pose
  · exfalso
    have e : path X a b = .error .nan := by
      unfold path
      split
      · exact C110_still_counterexample hX.radius X.extra a.2 b.2 hne _ _
      · exact (C87_steer hX.radius hX.extra a.2 b.2 hX.between _).2.2 hne
    simp [env, e] at h
  · by_cases hb : X.back = true
    · obtain ⟨K1, K2, K3, e, e1, -, -, e2, -⟩ := C110_snibud_partial hX.radius hX.extra a.2 b.2 hne hX.between (fun _ => ())
      exact key K1 K2 K3 (by unfold path; rw [if_pos hb]; exact e) e1 (by rw [e2]; exact ⟨rfl, rfl⟩)
    · obtain ⟨K1, K2, K3, e, e1, e2, -⟩ := (C87_steer hX.radius hX.extra a.2 b.2 hX.between (fun _ => ())).1 hne
      exact key K1 K2 K3 (by unfold path; rw [if_neg hb]; exact e) (by rw [e1]; exact ⟨rfl, rfl⟩) e2

/-- C160: between configurations of different poses, the steering method gives one of the paths considered. -/
theorem C160_steer (hX : X.Ok) {a b : Conf ι} (hne : a.1.pose ≠ b.1.pose) : ∃ p, (env X).steer a b = some p := by
  have key : ∀ K1 K2 K3 : CC (ι → ℝ) Unit, path X a b = .ok [K1, K2, K3] → K1.init.Unit → K1.fin = K2.init → K2.fin = K3.init →
      (∀ K ∈ [K1, K2, K3], K.Coherent ∧ K.t0 = 0 ∧ (K.curvature = 0 ∨ |K.curvature| = 1 / X.rho)) → ∃ p, (env X).steer a b = some p := by
    intro K1 K2 K3 e hu l1 l2 hall
    have a1 : Arc K1 := ⟨(hall K1 (by simp)).1.range, hu, (hall K1 (by simp)).1⟩
    have a2 : Arc K2 := ⟨(hall K2 (by simp)).1.range, l1 ▸ fin_unit a1, (hall K2 (by simp)).1⟩
    have a3 : Arc K3 := ⟨(hall K3 (by simp)).1.range, l2 ▸ fin_unit a2, (hall K3 (by simp)).1⟩
    have hc : Chain X [K1, K2, K3] := by
      refine ⟨by simp, ?_, by simp [l1, l2]⟩
      intro K hK
      refine ⟨?_, (hall K hK).2⟩
      simp only [List.mem_cons, List.not_mem_nil, or_false] at hK
      rcases hK with rfl | rfl | rfl
      · exact a1
      · exact a2
      · exact a3
    refine ⟨⟨_, hc⟩, ?_⟩
    simp only [env, e]
    rw [dif_pos hc]
  by_cases hb : X.back = true
  · obtain ⟨K1, K2, K3, e, e1, e2, e3, -, hall, -⟩ := C110_snibud_partial hX.radius hX.extra a.2 b.2 hne hX.between (fun _ => ())
    refine key K1 K2 K3 (by unfold path; rw [if_pos hb]; exact e) ?_ e2 e3 fun K hK => ⟨(hall K hK).1, (hall K hK).2.1, (hall K hK).2.2.2⟩
    have : K1.init = a.1 := Cfg.ext' e1.1 e1.2 rfl
    rw [this]; exact a.2
  · obtain ⟨K1, K2, K3, e, e1, e2, e3, -, hall, -⟩ := C87_dubins_partial hX.radius (hX.extra a.1 (extraEnd a.1 b.1)) a.2 b.2 hne hX.between (fun _ => ())
    exact key K1 K2 K3 (by unfold path; rw [if_neg hb]; exact e) (by rw [e1]; exact a.2) e2.symm e3.symm fun K hK => ⟨(hall K hK).1, (hall K hK).2.1, (hall K hK).2.2.2⟩

theorem contract (hX : X.Ok) : Contract (env X) (Valid X) := by
  have hext : ∀ (p : SP X) t, ini ((env X).extract p ((env X).t0 p) t) = ini p ∧ (Valid X p → Valid X ((env X).extract p ((env X).t0 p) t)) := by
    intro p t
    have e0 : (env X).t0 p = 0 := by show (vec p.1).tr.1 = 0; rw [tr_vec]
    rw [e0]
    simp only [env]
    split
    · next ht =>
      obtain ⟨r, hr, -, hc, hi, hpart⟩ := extract_vec p.2 ht.1 ht.2
      rw [hr]
      simp only [mk_eq hc]
      refine ⟨ini_of_head (p' := ⟨r.paths, hc⟩) hi, fun hv L hL t t0 t1 => ?_⟩
      obtain ⟨K, hK, rfl | hLK⟩ := hpart L hL
      · exact hv L hK t t0 t1
      · obtain ⟨u, u0, u1, e⟩ := (part_arc (p.2.arc K hK) hLK).2 t t0 t1
        rw [e]
        exact hv K hK u u0 u1
    · exact ⟨rfl, id⟩
  refine ⟨fun a b p h => steer_spec hX h, fun p t => (hext p t).1, fun p t => (hext p t).2, fun f p b p' h => (by simp [env] at h), fun f p h => (by simp [env] at h), ?_, ?_, ?_, ?_, ?_, ?_, ?_⟩
  · intro p
    obtain ⟨r, hr, hc, hi, -⟩ := check_part hX p
    simp only [env, Bool.false_eq_true, if_false, hr, mk_eq hc]
    exact ini_of_head (p' := ⟨_, hc⟩) hi
  · intro p h
    obtain ⟨r, hr, hc, hi, h1, h2⟩ := check_part hX p
    simp only [env, Bool.false_eq_true, if_false, hr, mk_eq hc, tr_vec, sub_zero] at h ⊢
    cases hb : r.1 with
    | true =>
      obtain ⟨k1, k2⟩ := h1 hb
      intro K hK
      exact k2 K (k1 ▸ hK)
    | false => exact h2 hb (by rcases h with h | h; exacts [h, h.ne'])
  · intro b p h
    cases b with
    | true => simp [env] at h
    | false =>
      obtain ⟨r, hr, hc, hi, h1, -⟩ := check_part hX p
      simp only [env, Bool.false_eq_true, if_false, hr, mk_eq hc] at h ⊢
      obtain ⟨k1, k2⟩ := h1 h
      have e : (⟨r.2.1.paths, hc⟩ : SP X) = p := Subtype.ext k1
      rw [e]
      exact ⟨k2, k2, rfl, rfl⟩
  · intro p
    simp [env]
  · intro p
    apply Subtype.ext
    simp only [env, ini, fin, rev, List.head_map, List.head_reverse]
    rfl
  · intro p
    apply Subtype.ext
    simp only [env, ini, fin, rev, List.getLast_map, List.getLast_reverse]
    rfl
  · intro p hv K hK t t0 t1
    obtain ⟨K0, hK0, rfl⟩ := List.mem_map.1 hK
    have hK0 := List.mem_reverse.1 hK0
    have ha := (p.2.arc K0 hK0).1
    change 0 ≤ t at t0
    change t ≤ K0.t1 - K0.t0 at t1
    rw [reverse_eval ha t0 t1]
    exact hv K0 hK0 _ (by linarith) (by linarith)

/-! ## From the list of paths to the path vector -/

/-- The path vector returned: the path of each edge is itself a vector (astar.hh:98-107). -/
noncomputable def pathVector (l : List (SP X)) : Vec ℝ (Cfg (ι → ℝ) Unit) (Vec ℝ (Cfg (ι → ℝ) Unit) (CC (ι → ℝ) Unit)) :=
  (l.map fun p => vec p.1).foldl (appendPath (vecOps ccOps)) (create none)

theorem pathVector_eq (l : List (SP X)) : pathVector l = ⟨none, (0, total (vecOps ccOps) (l.map fun p => vec p.1)), l.map fun p => vec p.1⟩ := by
  unfold pathVector
  rw [appendAll]
  simp [create]

/-- Specification: what a user wants of a path of a car on `[0, T]`, made of the arcs `ks`: from `a` to `b`; each arc is straight or of the minimal radius, and starts where the previous one ends;
at every parameter the configuration is one of these arcs, and no pair of objects penetrates by more than twice the tolerance. -/
structure Safe (X : World ι) (f : ℝ → Except PathV.Err (Cfg (ι → ℝ) Unit)) (T : ℝ) (ks : Arcs ι) (a b : Conf ι) : Prop where
  len : T = (ks.map fun K => K.t1 - K.t0).sum
  nonneg : 0 ≤ T
  ini : f 0 = .ok a.1
  fin : f T = .ok b.1
  arcs : Chain X ks
  free : ∀ t, 0 ≤ t → t ≤ T → ∃ K ∈ ks, ∃ u, K.t0 ≤ u ∧ u ≤ K.t1 ∧ f t = .ok (K.eval u) ∧ CarFree X.pairs (K.eval u)

theorem chained_of {l : Arcs ι} (ha : ∀ K ∈ l, Arc K) (h : l.IsChain (fun K L => K.fin = L.init)) : Chained ccOps l := by
  induction l with
  | nil => exact List.IsChain.nil
  | cons K l ih =>
    unfold Chained
    rw [List.isChain_cons] at h ⊢
    refine ⟨fun L hL => ?_, ih (fun K hK => ha K (List.mem_cons_of_mem _ hK)) h.2⟩
    show (Except.ok (K.eval K.t1) : Except PathV.Err _) = .ok (L.eval L.t0)
    rw [← fin_eq (ha K (by simp)), h.1 L hL, ← init_eq]

theorem total_nonneg {l : Arcs ι} (h : Chain X l) : 0 ≤ total ccOps l := by
  unfold total
  apply List.sum_nonneg
  intro x hx
  obtain ⟨K, hK, rfl⟩ := List.mem_map.1 hx
  exact sub_nonneg.2 (h.arc K hK).1.le

/-- Values of a vector of arcs at its ends. -/
theorem vec_ends (p : SP X) : evalV ccOps (vec p.1) 0 = .ok (ini p).1 ∧ evalV ccOps (vec p.1) (total ccOps p.1) = .ok (fin p).1 := by
  have hlen : ∀ K ∈ p.1, 0 ≤ ccOps.len K := fun K hK => sub_nonneg.2 (p.2.arc K hK).1.le
  have hch := chained_of (fun K hK => (p.2.arc K hK).1) p.2.link
  rw [evalV_none _ _ (cons_vec p.1), evalV_none _ _ (cons_vec p.1), paths_vec]
  constructor
  · have e : p.1 = [] ++ p.1.head p.2.ne :: p.1.tail := (List.cons_head_tail p.2.ne).symm
    have := chained_at ccOps [] p.1.tail (p.1.head p.2.ne) 0 (by simp) (by rw [← e]; exact hch) le_rfl (hlen _ (List.head_mem _))
    rw [← e] at this
    simp only [total_nil, add_zero] at this
    rw [this]
    show (Except.ok ((p.1.head p.2.ne).eval (p.1.head p.2.ne).t0) : Except PathV.Err _) = _
    rw [← init_eq]
    rfl
  · have e : p.1 = p.1.dropLast ++ p.1.getLast p.2.ne :: [] := (List.dropLast_append_getLast p.2.ne).symm
    have hd : ∀ K ∈ p.1.dropLast, 0 ≤ ccOps.len K := fun K hK => hlen K (List.mem_of_mem_dropLast hK)
    have := chained_at ccOps p.1.dropLast [] (p.1.getLast p.2.ne) (ccOps.len (p.1.getLast p.2.ne)) hd (by rw [← e]; exact hch) (hlen _ (List.getLast_mem _)) le_rfl
    rw [← e] at this
    have et : total ccOps p.1 = total ccOps p.1.dropLast + ccOps.len (p.1.getLast p.2.ne) := by
      conv_lhs => rw [e]
      simp [total]
    rw [et, this, len_hi]
    show (Except.ok ((p.1.getLast p.2.ne).eval (p.1.getLast p.2.ne).t1) : Except PathV.Err _) = _
    rw [← fin_eq (last_arc p)]
    rfl

/-- A sequence of valid paths between successive configurations. -/
theorem connects_all (l : List (SP X)) (a b : Conf ι) (h : Connects (env X) (Valid X) a l b) :
    (∀ p ∈ l, Valid X p) ∧ l.IsChain (fun p q => fin p = ini q) ∧ (∀ p, l.head? = some p → ini p = a) ∧ (∀ p, l.getLast? = some p → fin p = b) := by
  induction l generalizing a with
  | nil => simp
  | cons p l ih =>
    obtain ⟨h1, h2, h3⟩ := h
    obtain ⟨i1, i2, i3, i4⟩ := ih _ h3
    refine ⟨?_, ?_, ?_, ?_⟩
    · intro x hx
      rcases List.mem_cons.1 hx with rfl | hx
      · exact h1
      · exact i1 x hx
    · rw [List.isChain_cons]
      exact ⟨fun q hq => (i3 q hq).symm, i2⟩
    · intro x hx
      rw [List.head?_cons, Option.some.injEq] at hx
      exact hx ▸ h2
    · intro x hx
      cases l with
      | nil =>
        rw [List.getLast?_singleton, Option.some.injEq] at hx
        subst hx
        exact h3
      | cons y l =>
        rw [List.getLast?_cons_cons] at hx
        exact i4 x hx

/-- The arcs of successive paths follow each other. -/
theorem flat_link (l : List (SP X)) (h : l.IsChain (fun p q => fin p = ini q)) : (l.flatMap fun p => p.1).IsChain (fun K L => K.fin = L.init) := by
  induction l with
  | nil => simp
  | cons p l ih =>
    rw [List.isChain_cons] at h
    rw [List.flatMap_cons, List.isChain_append]
    refine ⟨p.2.link, ih h.2, ?_⟩
    intro K hK L hL
    rw [List.getLast?_eq_some_getLast p.2.ne] at hK
    cases l with
    | nil => simp at hL
    | cons q l =>
      rw [List.flatMap_cons, List.head?_append_of_ne_nil _ q.2.ne, List.head?_eq_some_head q.2.ne] at hL
      have := congrArg Subtype.val (h.1 q (by simp))
      simp only [Option.mem_def, Option.some.injEq] at hK hL
      rw [← hK, ← hL]
      exact this

theorem safe_of_connects (l : List (SP X)) (a b : Conf ι) (hne : l ≠ []) (h : Connects (env X) (Valid X) a l b) :
    Safe X (evalV (vecOps ccOps) (pathVector l)) (pathVector l).tr.2 (l.flatMap fun p => p.1) a b := by
  obtain ⟨h1, h2, h3, h4⟩ := connects_all l a b h
  have hpaths : (pathVector l).paths = l.map fun p => vec p.1 := by rw [pathVector_eq]
  have hcons : (pathVector l).cons = none := by rw [pathVector_eq]
  have hT : (pathVector l).tr.2 = total (vecOps ccOps) (l.map fun p => vec p.1) := by rw [pathVector_eq]
  have hlo : ∀ p : SP X, (vecOps (ccOps (E := ι → ℝ) (W := Unit))).lo (vec p.1) = 0 := fun p => by show (vec p.1).tr.1 = 0; rw [tr_vec]
  have hhi : ∀ p : SP X, (vecOps (ccOps (E := ι → ℝ) (W := Unit))).hi (vec p.1) = total ccOps p.1 := fun p => by show (vec p.1).tr.2 = _; rw [tr_vec]
  have hlen : ∀ v ∈ l.map fun p => vec p.1, (vecOps ccOps).lo v ≤ (vecOps ccOps).hi v := by
    intro v hv
    obtain ⟨p, -, rfl⟩ := List.mem_map.1 hv
    rw [hlo, hhi]
    exact total_nonneg p.2
  have hlen' : ∀ v ∈ l.map fun p => vec p.1, 0 ≤ (vecOps ccOps).len v := fun v hv => sub_nonneg.2 (hlen v hv)
  have hchain : Chained (vecOps ccOps) (l.map fun p => vec p.1) := by
    unfold Chained
    rw [List.isChain_map]
    refine h2.imp fun p q e => ?_
    rw [hlo, hhi]
    show evalV ccOps (vec p.1) _ = evalV ccOps (vec q.1) 0
    rw [(vec_ends p).2, (vec_ends q).1, e]
  have htot : total (vecOps ccOps) (l.map fun p => vec p.1) = ((l.flatMap fun p => p.1).map fun K => K.t1 - K.t0).sum := by
    clear h h1 h2 h3 h4 hne hpaths hcons hT hlen hlen' hchain
    induction l with
    | nil => simp
    | cons p l ih =>
      rw [List.map_cons, total_cons, ih, List.flatMap_cons, List.map_append, List.sum_append]
      congr 1
      unfold Ops.len
      rw [hlo, hhi, sub_zero]
      rfl
  have h0 : 0 ≤ total (vecOps ccOps) (l.map fun p => vec p.1) := by
    unfold total
    apply List.sum_nonneg
    intro x hx
    obtain ⟨v, hv, rfl⟩ := List.mem_map.1 hx
    exact hlen' v hv
  refine ⟨by rw [hT, htot], by rw [hT]; exact h0, ?_, ?_, ⟨?_, ?_, flat_link l h2⟩, ?_⟩
  · obtain ⟨p, ps, rfl⟩ := List.exists_cons_of_ne_nil hne
    rw [evalV_none _ _ hcons, hpaths]
    have := chained_at (vecOps ccOps) [] (ps.map fun p : SP X => vec p.1) (vec p.1) 0 (by simp) hchain le_rfl (hlen' _ (by simp))
    simp only [List.nil_append, total_nil, add_zero] at this
    rw [List.map_cons, this, hlo]
    show evalV ccOps (vec p.1) 0 = _
    rw [(vec_ends p).1, h3 p (by simp)]
  · obtain ⟨A, p, rfl⟩ : ∃ A p, l = A ++ [p] := ⟨_, _, (List.dropLast_append_getLast hne).symm⟩
    have e1 : (A ++ [p]).map (fun p => vec p.1) = A.map (fun p => vec p.1) ++ vec p.1 :: [] := by simp
    rw [evalV_none _ _ hcons, hpaths, hT]
    have := chained_at (vecOps ccOps) (A.map fun p => vec p.1) [] (vec p.1) ((vecOps ccOps).len (vec p.1))
      (fun q hq => hlen' q (by rw [e1]; exact List.mem_append_left _ hq)) (by rw [← e1]; exact hchain) (hlen' _ (by rw [e1]; simp)) le_rfl
    have e2 : total (vecOps ccOps) ((A ++ [p]).map fun p => vec p.1) = total (vecOps ccOps) (A.map fun p => vec p.1) + (vecOps ccOps).len (vec p.1) := by
      rw [e1]; simp [total]
    rw [e2, e1, this, len_hi, hhi]
    show evalV ccOps (vec p.1) _ = _
    rw [(vec_ends p).2, h4 p (by simp)]
  · obtain ⟨p, ps, rfl⟩ := List.exists_cons_of_ne_nil hne
    simp [p.2.ne]
  · intro K hK
    obtain ⟨p, -, hK⟩ := List.mem_flatMap.1 hK
    exact p.2.arc K hK
  · intro t t0 t1
    rw [hT] at t1
    obtain ⟨i, v, x, -, k2, k3, k4, -, -, k5⟩ := C19_eval (vecOps ccOps) (pathVector l) (by rw [hpaths]; exact fun e => hne (List.map_eq_nil_iff.1 e)) (by rw [hpaths]; exact hlen) t t0 (by rw [hpaths]; exact t1)
    rw [hpaths] at k2
    obtain ⟨p, hp, rfl⟩ := List.mem_map.1 (List.mem_of_getElem? k2)
    rw [hlo] at k3
    rw [hhi] at k4
    rw [hcons] at k5
    obtain ⟨j, K, u, -, m2, m3, m4, -, -, m5⟩ := C19_eval ccOps (vec p.1) (by rw [paths_vec]; exact p.2.ne) (by rw [paths_vec]; exact fun K hK => (p.2.arc K hK).1.le) x k3 (by rw [paths_vec]; exact k4)
    rw [paths_vec] at m2
    rw [cons_vec] at m5
    have hK := List.mem_of_getElem? m2
    refine ⟨K, List.mem_flatMap.2 ⟨p, hp, hK⟩, u, m3, m4, ?_, h1 p hp K hK u m3 m4⟩
    rw [k5]
    show constrained none t (evalV ccOps (vec p.1) x) = _
    rw [m5]
    rfl

/-- There is no path from a configuration to itself. -/
theorem steer_self (hX : X.Ok) (q : Conf ι) : (env X).steer q q = none := by
  have e : path X q q = .error .nan := by
    unfold path
    split
    · exact C110_still_counterexample hX.radius X.extra q.2 q.2 rfl _ _
    · exact (C87_steer hX.radius hX.extra q.2 q.2 hX.between _).2.2 rfl
  simp [env, e]

theorem safe_of_solves (hX : X.Ok) (q0 : Conf ι) (gs : List (Conf ι)) (l : List (SP X)) (h : Solves (env X) (Valid X) q0 gs l) :
    ∃ g ∈ gs, Safe X (evalV (vecOps ccOps) (pathVector l)) (pathVector l).tr.2 (l.flatMap fun p => p.1) q0 g := by
  rcases h with ⟨g, hg, hne, hc⟩ | ⟨-, p, hp, -⟩
  · exact ⟨g, hg, safe_of_connects l q0 g hne hc⟩
  · rw [steer_self hX] at hp; simp at hp

/-! ## C160 -/

/-- C160, diffusing planner: for a car steered by Dubins or Snibud, with continuous validation, whatever the configurations that are shot, the limits and the interruptions: the path that is
returned is a sequence of arcs, straight or of the minimal radius, each one starting where the previous one ends, from the initial configuration to a goal, and nowhere along it do two objects
penetrate by more than twice the tolerance. -/
theorem C160_diffusing_partial (hX : X.Ok) (D : DiffParams ℝ) (heur : Roadmap (Conf ι) (SP X) → Nat → ℝ) (q0 : Conf ι) (gs : List (Conf ι)) (shoot : Nat → Conf ι)
    (st : Settings ℝ) (late intr : Nat → Bool) (fuel n : Nat) (l : List (SP X))
    (hl : solve (diffusing (env X) D heur q0 gs shoot) st late intr fuel (n, Roadmap.empty) = .path l) :
    ∃ g ∈ gs, Safe X (evalV (vecOps ccOps) (pathVector l)) (pathVector l).tr.2 (l.flatMap fun p => p.1) q0 g :=
  safe_of_solves hX q0 gs l (C67_diffusing (contract hX) D heur q0 gs shoot ⟨Inv.empty, by simp [Roadmap.empty]⟩ st late intr fuel n l hl)

/-- C160, Visibility-PRM. -/
theorem C160_visibility_partial (hX : X.Ok) (heur : Roadmap (Conf ι) (SP X) → Nat → ℝ) (q0 : Conf ι) (gs : List (Conf ι)) (sample : Nat → Conf ι)
    (st : Settings ℝ) (late intr : Nat → Bool) (fuel : Nat) (x : Nat × (Nat → Bool)) (l : List (SP X))
    (hl : solve (visibility (env X) heur q0 gs sample) st late intr fuel (x, Roadmap.empty) = .path l) :
    ∃ g ∈ gs, Safe X (evalV (vecOps ccOps) (pathVector l)) (pathVector l).tr.2 (l.flatMap fun p => p.1) q0 g :=
  safe_of_solves hX q0 gs l (C67_visibility (contract hX) heur q0 gs sample (s := (x, Roadmap.empty)) ⟨Inv.empty, by simp [Roadmap.empty]⟩ st late intr fuel l hl)

/-- C160, k-PRM*. -/
theorem C160_kprm_partial {H : Type} (hX : X.Ok) (C : KEnv (Conf ι) (SP X) ℝ H) (hC : C.toPEnv = env X) (hk : 0 < C.k) (hN : 0 < C.nodes)
    (heur : Roadmap (Conf ι) (SP X) → Nat → ℝ) (q0 : Conf ι) (gs : List (Conf ι)) (st : Settings ℝ) (late intr : Nat → Bool) (fuel : Nat) (x : KState)
    (l : List (SP X)) (hl : solve (kprm C heur q0 gs) st late intr fuel (x, Roadmap.empty) = .path l) :
    ∃ g ∈ gs, Safe X (evalV (vecOps ccOps) (pathVector l)) (pathVector l).tr.2 (l.flatMap fun p => p.1) q0 g := by
  refine safe_of_solves hX q0 gs l ?_
  rw [← hC]
  exact C67_kprm (by rw [hC]; exact contract hX) hk hN heur q0 gs (s := (x, Roadmap.empty)) ⟨Inv.empty, by simp [Roadmap.empty]⟩ st late intr fuel l hl

/-! ## A car in front of a wall -/
namespace Demo
open Verif.Car.Demo

/-- The car of `Car/Validation.lean`, a disc below a wall, of turning radius 1. -/
noncomputable def world : World (Fin 0) :=
  ⟨[wall], true, 1, false, fun _ _ => 0, fun a b => |a.1.x - b.1.x| + |a.1.y - b.1.y| + |a.1.c - b.1.c| + |a.1.s - b.1.s|, fun a b u => { a with o := lerp a.o b.o u }⟩

theorem world_ok : world.Ok := ⟨by simpa [world] using wall_ok, by norm_num [world], fun _ _ => le_rfl, fun _ _ _ => rfl⟩

theorem arc1_chain : Chain world [arc1] := by
  refine ⟨by simp, fun K hK => ?_, by simp⟩
  rw [List.mem_singleton.1 hK]
  exact ⟨arc1_arc, rfl, Or.inr (by simp [arc1, CC.create, world])⟩

/-- The validation called by the planners accepts a path of this world, which then connects its ends: the hypotheses of `safe_of_connects`. -/
theorem accepted : ((env world).validate false ⟨[arc1], arc1_chain⟩).1 = true ∧
    Connects (env world) (Valid world) (ini ⟨[arc1], arc1_chain⟩) [⟨[arc1], arc1_chain⟩] (fin ⟨[arc1], arc1_chain⟩) := by
  have h : ((env world).validate false ⟨[arc1], arc1_chain⟩).1 = true := by
    obtain ⟨r, hr, hiff⟩ := C33_forward ccOps (fun rev K => checkArc world.prog world.pairs (arcFuel world.pairs K) rev K) (vec [arc1]) [arc1]
      (by have := pieces_none ccOps (vec [arc1]) (cons_vec _); rwa [paths_vec] at this) (fun K h => by
        rw [List.mem_singleton.1 h]
        exact C159_arc_ends world.prog world_ok.pairs false arc1_arc)
    have ht : r.1 = true := hiff.2 fun K hK => by
      rw [List.mem_singleton.1 hK]
      exact arc1_accepted true false
    have hr' : checkArcs world.prog world.pairs (vec [arc1]) = .ok r := hr
    simp only [env, Bool.false_eq_true, if_false, hr', ht]
  exact ⟨h, ((contract world_ok).valid_true false _ h).1, rfl, rfl⟩

/-- The steering method of this world finds paths between all different poses; the goal of the example is not the start. -/
example : (∀ a b : Conf (Fin 0), a.1.pose ≠ b.1.pose → ∃ p, (env world).steer a b = some p) ∧ arc1.init.pose ≠ arc1.fin.pose := by
  refine ⟨fun a b h => C160_steer world_ok h, fun h => ?_⟩
  have := congrArg (fun p : Pose => p.2.im) h
  have e : arc1.fin.s = Real.sin 1 := by simp [arc1, CC.create, CC.eval, CC.ratio]
  simp only [Cfg.pose, e] at this
  have h0 : arc1.init.s = 0 := rfl
  rw [h0] at this
  have := Real.sin_pos_of_pos_of_le_one one_pos le_rfl
  linarith

end Demo

end Verif.Planner.Cars
