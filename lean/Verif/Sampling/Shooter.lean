import Mathlib.Data.EReal.Operations
import Mathlib.Analysis.Real.Pi.Bounds
import Verif.Validation.Composite
set_option linter.unusedSectionVars false

/-!
# Configuration shooters (C102, C103)

Bounds are extended reals (`EReal`), because joints may be unbounded. A coordinate of a configuration is an `Option EReal`, `none` being
"not a number". Random generators are arbitrary sequences of values within the range the generators document.
-/
namespace Verif.Sampling
open Verif.Validation

/-- A floating point number: extended real, or not a number. Simplified: exact arithmetic. -/
abbrev Flt := Option EReal

/-- Subtraction of extended numbers as floating point units do it: the difference of two equal infinities is not a number. -/
noncomputable def fsub (a b : EReal) : Flt := if (a = ⊤ ∧ b = ⊤) ∨ (a = ⊥ ∧ b = ⊥) then none else some (a - b)

/-- Outcome of a call to `shoot`: a configuration, an exception, or undefined behaviour (violated precondition of a library call, read of
a value never written, access out of range). -/
inductive Res | ok (q : List Flt) | throws | ub

/-! ## Uniform -/

/-- One pass of the loop over the extra degrees of freedom: src/configuration-shooter/uniform.cc:48-58. `r`: result of `rand ()`, `R`: value
of `RAND_MAX`. `none`: the exception is thrown. The comparisons of a number that is not a number are false. -/
noncomputable def sampleExtra (R : ℕ) (lower upper : EReal) (r : ℕ) : Option Flt :=
  match fsub upper lower with
  | none => some none
  | some d => if d < 0 ∨ d = ⊤ then none else some (some (lower + d * (((r : ℝ) / (R : ℝ) : ℝ) : EReal)))

/-- Loop over the extra degrees of freedom: uniform.cc:48-58; `rs k`: `k`-th result of `rand ()`. -/
noncomputable def extraLoop (R : ℕ) (rs : ℕ → ℕ) : ℕ → List EReal → List EReal → Option (List Flt)
  | k, l :: ls, u :: us => (sampleExtra R l u (rs k)).bind fun x => (extraLoop R rs (k + 1) ls us).map fun xs => x :: xs
  | _, _, _ => some []

/-- `Uniform::impl_shoot`: uniform.cc:38-62. `random`: configuration computed by `pinocchio::randomConfiguration`, `none` if it throws.
`elo`, `eup`: bounds of the extra degrees of freedom. -/
noncomputable def uniformShoot (R : ℕ) (elo eup : List EReal) (sampleExtraDOF : Bool) (random : Option (List EReal)) (rs : ℕ → ℕ) : Res :=
  match random with
  | none => .throws
  | some q =>
    if sampleExtraDOF then
      match extraLoop R rs 0 elo eup with
      | none => .throws
      | some xs => .ok (q.map some ++ xs)
    else .ok (q.map some ++ elo.map fun _ => some 0)

/-- Contract of `pinocchio::randomConfiguration`: the values it returns are within the bounds of the model. -/
def RandomOk (lo up : List EReal) (random : Option (List EReal)) : Prop :=
  ∀ q, random = some q → q.length = lo.length ∧ Within lo up q

/-- An interval that can be sampled: finite ends, in order. -/
def Samplable (l u : EReal) : Prop := ∃ a b : ℝ, l = a ∧ u = b ∧ a ≤ b

theorem fsub_real (a b : ℝ) : fsub (a : EReal) (b : EReal) = some ((a - b : ℝ) : EReal) := by
  unfold fsub
  rw [if_neg (by simp)]
  rfl

/-- What the test on the range lets through: samplable intervals, and twice the same infinite bound. -/
theorem sampleExtra_throws (R : ℕ) (l u : EReal) (r : ℕ) :
    sampleExtra R l u r = none ↔ ¬ (Samplable l u ∨ (l = ⊤ ∧ u = ⊤) ∨ (l = ⊥ ∧ u = ⊥)) := by
  unfold sampleExtra
  induction l using EReal.rec with
  | bot =>
    induction u using EReal.rec with
    | bot => simp [fsub]
    | coe b => simp [fsub, Samplable]
    | top => simp [fsub, Samplable]
  | coe a =>
    induction u using EReal.rec with
    | bot =>
      have : fsub ⊥ (a : EReal) = some ⊥ := by simp [fsub]
      rw [this]
      simp [Samplable]
    | coe b =>
      rw [fsub_real]
      have hs : Samplable (a : EReal) (b : EReal) ↔ a ≤ b := by
        constructor
        · rintro ⟨x, y, h1, h2, h3⟩
          rw [EReal.coe_eq_coe_iff] at h1 h2
          rw [h1, h2]; exact h3
        · exact fun h => ⟨a, b, rfl, rfl, h⟩
      have h0 : (((b - a : ℝ) : EReal) < 0) ↔ b < a := by
        rw [← EReal.coe_zero, EReal.coe_lt_coe_iff, sub_neg]
      simp only [h0, EReal.coe_ne_top, or_false, EReal.coe_ne_bot, false_and, hs, not_le]
      by_cases h : b < a
      · simp [h]
      · simp [h]
    | top =>
      have : fsub ⊤ (a : EReal) = some ⊤ := by simp [fsub]
      rw [this]
      simp [Samplable]
  | top =>
    induction u using EReal.rec with
    | bot => simp [fsub, Samplable]
    | coe b =>
      have : fsub (b : EReal) ⊤ = some ⊥ := by simp [fsub]
      rw [this]
      simp [Samplable]
    | top => simp [fsub]

/-- Value shot in a samplable interval. -/
theorem sampleExtra_real (R : ℕ) (a b : ℝ) (h : a ≤ b) (r : ℕ) :
    sampleExtra R a b r = some (some ((a + (b - a) * ((r : ℝ) / R) : ℝ) : EReal)) := by
  unfold sampleExtra
  rw [fsub_real]
  have h0 : ¬ ((((b - a : ℝ) : EReal) < 0) ∨ ((b - a : ℝ) : EReal) = ⊤) := by
    rintro (h' | h')
    · rw [← EReal.coe_zero, EReal.coe_lt_coe_iff] at h'; linarith
    · exact EReal.coe_ne_top _ h'
  simp only
  rw [if_neg h0, EReal.coe_add, EReal.coe_mul]

theorem extraLoop_throws (R : ℕ) (rs : ℕ → ℕ) (k : ℕ) (elo eup : List EReal) :
    extraLoop R rs k elo eup = none ↔ ∃ (i : ℕ) (l u : EReal), elo[i]? = some l ∧ eup[i]? = some u ∧
      ¬ (Samplable l u ∨ (l = ⊤ ∧ u = ⊤) ∨ (l = ⊥ ∧ u = ⊥)) := by
  induction elo generalizing k eup with
  | nil => simp [extraLoop]
  | cons l ls ih =>
    cases eup with
    | nil => simp [extraLoop]
    | cons u us =>
      rw [extraLoop]
      constructor
      · intro h
        cases hs : sampleExtra R l u (rs k) with
        | none => exact ⟨0, l, u, rfl, rfl, (sampleExtra_throws R l u (rs k)).1 hs⟩
        | some x =>
          rw [hs] at h
          simp only [Option.bind_some, Option.map_eq_none_iff] at h
          obtain ⟨i, l', u', h1, h2, h3⟩ := (ih (k + 1) us).1 h
          exact ⟨i + 1, l', u', by simpa using h1, by simpa using h2, h3⟩
      · rintro ⟨i, l', u', h1, h2, h3⟩
        cases i with
        | zero =>
          simp at h1 h2
          subst h1 h2
          rw [(sampleExtra_throws R l u (rs k)).2 h3]; rfl
        | succ i =>
          rw [(ih (k + 1) us).2 ⟨i, l', u', by simpa using h1, by simpa using h2, h3⟩]
          cases sampleExtra R l u (rs k) <;> rfl

theorem extraLoop_ok (R : ℕ) (hR : 0 < R) (rs : ℕ → ℕ) (hr : ∀ k, rs k ≤ R) (k : ℕ) (elo eup : List EReal) (hl : elo.length = eup.length)
    (hn : ∀ (i : ℕ) (l u : EReal), elo[i]? = some l → eup[i]? = some u → ¬ ((l = ⊤ ∧ u = ⊤) ∨ (l = ⊥ ∧ u = ⊥)))
    (xs : List Flt) (h : extraLoop R rs k elo eup = some xs) :
    ∃ ys : List EReal, xs = ys.map some ∧ ys.length = elo.length ∧ Within elo eup ys := by
  induction elo generalizing k eup xs with
  | nil =>
    simp [extraLoop] at h
    exact ⟨[], by simp [h], rfl, by simp [Within]⟩
  | cons l ls ih =>
    cases eup with
    | nil => simp at hl
    | cons u us =>
      rw [extraLoop] at h
      cases hs : sampleExtra R l u (rs k) with
      | none => rw [hs] at h; simp at h
      | some x =>
        rw [hs] at h
        simp only [Option.bind_some] at h
        cases ht : extraLoop R rs (k + 1) ls us with
        | none => rw [ht] at h; simp at h
        | some xs' =>
          rw [ht] at h
          simp only [Option.map_some, Option.some.injEq] at h
          subst h
          obtain ⟨ys, e1, e2, e3⟩ := ih (k + 1) us (by simpa using hl)
            (fun i l' u' a b => hn (i + 1) l' u' (by simpa using a) (by simpa using b)) xs' ht
          have hne : sampleExtra R l u (rs k) ≠ none := by rw [hs]; simp
          rw [Ne, sampleExtra_throws, not_not] at hne
          rcases hne with ⟨a, b, rfl, rfl, hab⟩ | hne
          · rw [sampleExtra_real R a b hab] at hs
            obtain rfl := Option.some.inj hs
            refine ⟨((a + (b - a) * ((rs k : ℝ) / R) : ℝ) : EReal) :: ys, by simp [e1], by simp [e2], ?_⟩
            rw [within_cons]
            refine ⟨?_, e3⟩
            have hR' : (0 : ℝ) < R := by exact_mod_cast hR
            have h1 : (0 : ℝ) ≤ (rs k : ℝ) / R := by positivity
            have h2 : (rs k : ℝ) / R ≤ 1 := by
              rw [div_le_one hR']; exact_mod_cast hr k
            rw [EReal.coe_le_coe_iff, EReal.coe_le_coe_iff]
            constructor <;> nlinarith
          · exact absurd hne (hn 0 l u rfl rfl)

/-- C102: a configuration shot by the uniform shooter passes the joint bound validation, the extra degrees of freedom being sampled. The
bounds of an extra degree of freedom must not be twice the same infinite number. -/
theorem C102_uniform_partial (R : ℕ) (hR : 0 < R) (lo up elo eup : List EReal) (hl : elo.length = eup.length)
    (hn : ∀ (i : ℕ) (l u : EReal), elo[i]? = some l → eup[i]? = some u → ¬ ((l = ⊤ ∧ u = ⊤) ∨ (l = ⊥ ∧ u = ⊥)))
    (random : Option (List EReal)) (hq : RandomOk lo up random) (rs : ℕ → ℕ) (hr : ∀ k, rs k ≤ R) (q : List Flt)
    (h : uniformShoot R elo eup true random rs = .ok q) :
    ∃ xs : List EReal, q = xs.map some ∧ xs.length = lo.length + elo.length ∧ jointBound lo up elo eup xs = none := by
  unfold uniformShoot at h
  cases random with
  | none => cases h
  | some q0 =>
    simp only [if_true] at h
    cases he : extraLoop R rs 0 elo eup with
    | none => rw [he] at h; cases h
    | some xs =>
      rw [he] at h
      obtain rfl := Res.ok.inj h
      obtain ⟨ys, e1, e2, e3⟩ := extraLoop_ok R hR rs hr 0 elo eup hl hn xs he
      obtain ⟨f1, f2⟩ := hq q0 rfl
      exact ⟨q0 ++ ys, by simp [e1], by simp [e2, f1], (C37_jointBound lo up elo eup q0 ys f1).2 ⟨f2, e3⟩⟩

/-- C102: the uniform shooter throws exactly when the joints cannot be sampled, or when the bounds of an extra degree of freedom are not
finite or not in the right order (apart from twice the same infinite number). -/
theorem C102_uniform_throws (R : ℕ) (elo eup : List EReal) (random : Option (List EReal)) (rs : ℕ → ℕ) :
    uniformShoot R elo eup true random rs = .throws ↔ random = none ∨ ∃ (i : ℕ) (l u : EReal), elo[i]? = some l ∧ eup[i]? = some u ∧
      ¬ (Samplable l u ∨ (l = ⊤ ∧ u = ⊤) ∨ (l = ⊥ ∧ u = ⊥)) := by
  rw [← extraLoop_throws R rs 0 elo eup]
  unfold uniformShoot
  cases random with
  | none => simp
  | some q =>
    simp only [if_true]
    cases extraLoop R rs 0 elo eup <;> simp

/-- C102: both ends of the interval of an extra degree of freedom can be shot: the extreme results of `rand` give them. -/
theorem C102_uniform_ends (R : ℕ) (hR : 0 < R) (a b : ℝ) (h : a ≤ b) :
    sampleExtra R a b 0 = some (some (a : EReal)) ∧ sampleExtra R a b R = some (some (b : EReal)) := by
  have hR' : (R : ℝ) ≠ 0 := by exact_mod_cast hR.ne'
  rw [sampleExtra_real R a b h, sampleExtra_real R a b h]
  constructor
  · simp
  · rw [div_self hR']; congr 3; ring

/-- Counterexample to C102: when the extra degrees of freedom are not sampled, they are set to 0 whatever their bounds: the configuration
does not pass the joint bound validation. -/
theorem C102_zero_counterexample : ∃ (lo up elo eup : List EReal) (random : Option (List EReal)), RandomOk lo up random ∧
    ∀ rs, ∃ xs : List EReal, uniformShoot 10 elo eup false random rs = .ok (xs.map some) ∧ jointBound lo up elo eup xs ≠ none := by
  refine ⟨[0], [1], [((1 : ℝ) : EReal)], [((2 : ℝ) : EReal)], some [0], ?_, fun rs => ⟨[0, 0], by simp [uniformShoot], ?_⟩⟩
  · intro q hq
    obtain rfl := Option.some.inj hq
    refine ⟨rfl, ?_⟩
    rw [within_cons]
    exact ⟨⟨le_refl _, zero_le_one⟩, by simp [Within]⟩
  · rw [show ([0, 0] : List EReal) = [0] ++ [0] from rfl, Ne, C37_jointBound _ _ _ _ _ _ rfl]
    rintro ⟨-, h⟩
    have := ((within_cons _ _ _ _ _ _).1 h).1.1
    rw [← EReal.coe_zero, EReal.coe_le_coe_iff] at this
    norm_num at this

/-- Counterexample to C102: an extra degree of freedom both bounds of which are the same infinite number is not refused, the value shot is
not a number. -/
theorem C102_nan_counterexample (rs : ℕ → ℕ) : uniformShoot 10 [⊤] [⊤] true (some []) rs = .ok [none] := by
  simp [uniformShoot, extraLoop, sampleExtra, fsub]

/-! ## Seedable -/

/-- Loop of `UniformTpl::impl_shoot` over the degrees of freedom: include/hpp/core/configuration-shooter/uniform-tpl.hxx:28-37 (joints and
extra ones alike). `draw k`: `k`-th value drawn, as a fraction of the interval. `none`: the precondition of `uniform_real_distribution` (two
finite bounds in order) is violated. -/
noncomputable def drawLoop (draw : ℕ → ℝ) : ℕ → List EReal → List EReal → Option (List EReal)
  | k, l :: ls, u :: us =>
    open Classical in
    if Samplable l u then (drawLoop draw (k + 1) ls us).map fun xs => ((l.toReal + (u.toReal - l.toReal) * draw k : ℝ) : EReal) :: xs
    else none
  | _, _, _ => some []

/-- `UniformTpl::impl_shoot`: uniform-tpl.hxx:15-38. -/
noncomputable def seedableShoot (isVectorSpace : Bool) (lo up elo eup : List EReal) (draw : ℕ → ℝ) : Res :=
  if isVectorSpace then
    match drawLoop draw 0 lo up with
    | none => .ub
    | some q =>
      match drawLoop draw lo.length elo eup with
      | none => .ub
      | some xs => .ok ((q ++ xs).map some)
  else .throws

theorem drawLoop_ok (draw : ℕ → ℝ) (hd : ∀ k, 0 ≤ draw k ∧ draw k ≤ 1) (k : ℕ) (lo up : List EReal) (hl : lo.length = up.length)
    (xs : List EReal) (h : drawLoop draw k lo up = some xs) : xs.length = lo.length ∧ Within lo up xs := by
  induction lo generalizing k up xs with
  | nil => simp [drawLoop] at h; subst h; exact ⟨rfl, by simp [Within]⟩
  | cons l ls ih =>
    cases up with
    | nil => simp at hl
    | cons u us =>
      rw [drawLoop] at h
      by_cases hs : Samplable l u
      · rw [if_pos hs] at h
        cases ht : drawLoop draw (k + 1) ls us with
        | none => rw [ht] at h; simp at h
        | some xs' =>
          rw [ht] at h
          simp only [Option.map_some, Option.some.injEq] at h
          subst h
          obtain ⟨e1, e2⟩ := ih (k + 1) us (by simpa using hl) xs' ht
          refine ⟨by simp [e1], (within_cons _ _ _ _ _ _).2 ⟨?_, e2⟩⟩
          obtain ⟨a, b, rfl, rfl, hab⟩ := hs
          simp only [EReal.toReal_coe, EReal.coe_le_coe_iff]
          obtain ⟨h1, h2⟩ := hd k
          constructor <;> nlinarith
      · rw [if_neg hs] at h; cases h

theorem drawLoop_none (draw : ℕ → ℝ) (k : ℕ) (lo up : List EReal) :
    drawLoop draw k lo up = none ↔ ∃ (i : ℕ) (l u : EReal), lo[i]? = some l ∧ up[i]? = some u ∧ ¬ Samplable l u := by
  induction lo generalizing k up with
  | nil => simp [drawLoop]
  | cons l ls ih =>
    cases up with
    | nil => simp [drawLoop]
    | cons u us =>
      rw [drawLoop]
      by_cases hs : Samplable l u
      · rw [if_pos hs, Option.map_eq_none_iff, ih]
        constructor
        · rintro ⟨i, l', u', h1, h2, h3⟩
          exact ⟨i + 1, l', u', by simpa using h1, by simpa using h2, h3⟩
        · rintro ⟨i, l', u', h1, h2, h3⟩
          cases i with
          | zero => simp at h1 h2; subst h1 h2; exact absurd hs h3
          | succ i => exact ⟨i, l', u', by simpa using h1, by simpa using h2, h3⟩
      · rw [if_neg hs]
        simp only [true_iff]
        exact ⟨0, l, u, rfl, rfl, hs⟩

/-- C102: a configuration shot by the seedable shooter passes the joint bound validation. -/
theorem C102_seedable (v : Bool) (lo up elo eup : List EReal) (hl : lo.length = up.length) (he : elo.length = eup.length) (draw : ℕ → ℝ)
    (hd : ∀ k, 0 ≤ draw k ∧ draw k ≤ 1) (q : List Flt) (h : seedableShoot v lo up elo eup draw = .ok q) :
    ∃ xs : List EReal, q = xs.map some ∧ xs.length = lo.length + elo.length ∧ jointBound lo up elo eup xs = none := by
  unfold seedableShoot at h
  cases v with
  | false => cases h
  | true =>
    simp only [if_true] at h
    cases h1 : drawLoop draw 0 lo up with
    | none => rw [h1] at h; cases h
    | some q0 =>
      rw [h1] at h
      cases h2 : drawLoop draw lo.length elo eup with
      | none => simp only [h2] at h; cases h
      | some xs =>
        simp only [h2] at h
        obtain rfl := Res.ok.inj h
        obtain ⟨e1, e2⟩ := drawLoop_ok draw hd 0 lo up hl q0 h1
        obtain ⟨f1, f2⟩ := drawLoop_ok draw hd lo.length elo eup he xs h2
        exact ⟨q0 ++ xs, rfl, by simp [e1, f1], (C37_jointBound lo up elo eup q0 xs e1).2 ⟨e2, f2⟩⟩

/-- C102: with the seedable shooter spaces other than vector spaces are refused by an exception, and bounds that cannot be sampled are
undefined behaviour: they are not checked. -/
theorem C102_seedable_outcome (v : Bool) (lo up elo eup : List EReal) (draw : ℕ → ℝ) :
    (seedableShoot v lo up elo eup draw = .throws ↔ v = false) ∧
    (seedableShoot v lo up elo eup draw = .ub ↔ v = true ∧ ((∃ (i : ℕ) (l u : EReal), lo[i]? = some l ∧ up[i]? = some u ∧ ¬ Samplable l u) ∨
      ∃ (i : ℕ) (l u : EReal), elo[i]? = some l ∧ eup[i]? = some u ∧ ¬ Samplable l u)) := by
  rw [← drawLoop_none draw 0 lo up, ← drawLoop_none draw lo.length elo eup]
  unfold seedableShoot
  cases v with
  | false => simp
  | true =>
    cases h1 : drawLoop draw 0 lo up with
    | none => simp
    | some q0 =>
      cases h2 : drawLoop draw lo.length elo eup with
      | none => simp
      | some xs => simp

/-- Both shooters return configurations on a robot with one bounded joint and one extra degree of freedom. -/
example : uniformShoot 10 [((-1 : ℝ) : EReal)] [((1 : ℝ) : EReal)] true (some [0]) (fun _ => 5) = .ok [some 0, some ((0 : ℝ) : EReal)] := by
  have h := sampleExtra_real 10 (-1) 1 (by norm_num) 5
  have h2 : (-1 + (1 - -1) * (((5 : ℕ) : ℝ) / ((10 : ℕ) : ℝ)) : ℝ) = 0 := by norm_num
  rw [h2] at h
  simp only [uniformShoot, extraLoop, if_true, h]
  rfl

example : ∃ q, seedableShoot true [((0 : ℝ) : EReal)] [((1 : ℝ) : EReal)] [((0 : ℝ) : EReal)] [((2 : ℝ) : EReal)] (fun _ => 1 / 2) = .ok q := by
  have h : ∀ a b : ℝ, a ≤ b → Samplable a b := fun a b h => ⟨a, b, rfl, rfl, h⟩
  simp only [seedableShoot, drawLoop, if_true, if_pos (h 0 1 (by norm_num)), if_pos (h 0 2 (by norm_num)), Option.map_some]
  exact ⟨_, rfl⟩

end Verif.Sampling
