import Verif.Path.RoundedExtract
import Mathlib.Data.Fin.VecNotation
import Mathlib.Tactic.FinCases
set_option linter.unusedSectionVars false

/-!
# Joint bounds in finite precision (C146, C147)

Straight interpolation, path vectors, shortcuts and shots with numbers rounded to the nearest: the values stay within bounds exactly, not only up to rounding errors.
-/
namespace Verif.Rounding

variable {K : Type} [Field K] [LinearOrder K] [IsStrictOrderedRing K]

/-- Rounding to the nearest. `shrink`: the product by a factor below 1 is below. -/
structure Nearest (F : Fl K) : Prop where
  odd : ∀ x, F.rnd (-x) = -F.rnd x
  one : F.rnd 1 = 1
  near : ∀ x z, F.rnd z = z → |F.rnd x - x| ≤ |z - x|
  shrink : ∀ u d, F.rnd u = u → F.rnd d = d → 0 ≤ u → u < 1 → 0 < d → F.rnd (u * d) < d

/-! ## Numbers with `p` bits are rounded to the nearest -/

section
variable [FloorRing K]

theorem binRnd_odd (p : Nat) (x : K) : binRnd p (-x) = -binRnd p x := by
  unfold binRnd
  rcases lt_trichotomy 0 x with h | h | h
  · rw [if_neg (by linarith), if_pos (by linarith), if_pos h, neg_neg]
  · subst h; simp
  · rw [if_pos (by linarith), if_neg (by linarith), if_pos h, neg_neg]

theorem binRnd_pos {p : Nat} {x : K} (h : 0 < x) : binRnd p x = near p x := by rw [binRnd, if_pos h]

theorem floor_nearest (y : K) (k : ℤ) : |(⌊y + 1 / 2⌋ : K) - y| ≤ |(k : K) - y| := by
  have h1 := Int.floor_le (y + 1 / 2)
  have h2 := Int.lt_floor_add_one (y + 1 / 2)
  rcases lt_trichotomy k ⌊y + 1 / 2⌋ with h | h | h
  · have h' : (k : K) + 1 ≤ ⌊y + 1 / 2⌋ := by exact_mod_cast h
    rw [abs_of_nonpos (by linarith : (k : K) - y ≤ 0)]
    rw [abs_le]; constructor <;> linarith
  · rw [h]
  · have h' : (⌊y + 1 / 2⌋ : K) + 1 ≤ k := by exact_mod_cast h
    rw [abs_of_nonneg (by linarith : 0 ≤ (k : K) - y)]
    rw [abs_le]; constructor <;> linarith

theorem near_le_mul {p : Nat} (x : K) (k : ℤ) : |near p x - x| ≤ |k * ulp p x - x| := by
  have hu := ulp_pos p x
  have e : ∀ m : ℤ, |m * ulp p x - x| = |(m : K) - x / ulp p x| * ulp p x := by
    intro m
    rw [← abs_of_pos hu, ← abs_mul, abs_of_pos hu]
    congr 1
    rw [sub_mul, div_mul_cancel₀ _ hu.ne']
  rw [near, e, e]
  exact mul_le_mul_of_nonneg_right (floor_nearest _ _) hu.le

/-- Powers of 2 between numbers with `p` bits. -/
theorem pow_log_mul {p : Nat} (hp : 1 ≤ p) (x : K) : (2 : K) ^ Int.log 2 x = ((2 ^ (p - 1) : ℤ) : K) * ulp p x := by
  unfold ulp
  push_cast
  rw [← zpow_natCast, ← zpow_add₀ (by norm_num)]
  congr 1
  push_cast [hp]
  ring

theorem ulp_mul {p : Nat} {x z : K} (h : Int.log 2 x ≤ Int.log 2 z) : ∃ k : ℤ, ulp p z = k * ulp p x := by
  refine ⟨2 ^ (Int.log 2 z - Int.log 2 x).toNat, ?_⟩
  unfold ulp
  push_cast
  rw [← zpow_natCast, ← zpow_add₀ (by norm_num)]
  congr 1
  rw [Int.toNat_of_nonneg (by omega)]
  ring

theorem near_nearest {p : Nat} (hp : 1 ≤ p) {x z : K} (hx : 0 < x) (hz : binRnd p z = z) : |near p x - x| ≤ |z - x| := by
  have hl := (log_spec hx).1
  by_cases hlt : z < 2 ^ Int.log 2 x
  · have h := near_le_mul (p := p) x (2 ^ (p - 1))
    rw [← pow_log_mul hp] at h
    refine h.trans ?_
    rw [abs_of_nonpos (by linarith), abs_of_nonpos (by linarith)]
    linarith
  · have hz0 : 0 < z := lt_of_lt_of_le (zpow_pos (by norm_num) _) (not_lt.1 hlt)
    have hlog : Int.log 2 x ≤ Int.log 2 z := by
      have := (zpow_lt_zpow_iff_right₀ (by norm_num : (1 : K) < 2)).1 ((not_lt.1 hlt).trans_lt (log_spec hz0).2)
      omega
    obtain ⟨k, hk⟩ := ulp_mul (p := p) hlog
    rw [binRnd_pos hz0, near] at hz
    have : z = ((⌊z / ulp p z + 1 / 2⌋ * k : ℤ) : K) * ulp p x := by
      push_cast
      rw [mul_assoc, ← hk]; exact hz.symm
    rw [this]
    exact near_le_mul x _

theorem near_shrink {p : Nat} (hp : 1 ≤ p) {u d : K} (hu : binRnd p u = u) (hd : binRnd p d = d) (h0 : 0 < u) (h1 : u < 1) (hd0 : 0 < d) : near p (u * d) < d := by
  have hm := mul_pos h0 hd0
  have hlt : u * d < d := by nlinarith
  -- a factor below 1 is at most `1 - 2 ^ (-p)`
  have hu' : u ≤ 1 - 2⁻¹ ^ p := by
    have hlog : Int.log 2 u ≤ -1 := by
      have := (zpow_lt_zpow_iff_right₀ (by norm_num : (1 : K) < 2)).1 (show (2 : K) ^ Int.log 2 u < 2 ^ (0 : ℤ) by
        simpa using (log_spec h0).1.trans_lt h1)
      omega
    rw [binRnd_pos h0, near] at hu
    set m := ⌊u / ulp p u + 1 / 2⌋
    -- `u` is a multiple of `2 ^ (log u - p + 1)`, at most 1 minus this step... or below 1/2
    rcases hlog.lt_or_eq with hl | hl
    · have : u < 2⁻¹ := by
        have h2 := (log_spec h0).2
        refine h2.trans_le ?_
        rw [show (2⁻¹ : K) = 2 ^ (-1 : ℤ) by norm_num]
        exact zpow_le_zpow_right₀ (by norm_num) (by omega)
      have : (2⁻¹ : K) ^ p ≤ 2⁻¹ := by
        calc (2⁻¹ : K) ^ p ≤ 2⁻¹ ^ 1 := pow_le_pow_of_le_one (by norm_num) (by norm_num) hp
          _ = 2⁻¹ := by norm_num
      linarith
    · have hul : ulp p u = 2⁻¹ ^ p := by
        rw [ulp, hl, show (-1 : ℤ) - p + 1 = -(p : ℤ) by ring, zpow_neg, zpow_natCast, inv_pow]
      rw [hul] at hu
      have h2 : (2⁻¹ : K) ^ p * 2 ^ p = 1 := by rw [← mul_pow]; norm_num
      have hpos : (0 : K) < 2⁻¹ ^ p := by positivity
      have : (m : K) < ((2 ^ p : ℤ) : K) := by
        push_cast
        by_contra hc
        have := mul_le_mul_of_nonneg_right (not_lt.1 hc) hpos.le
        rw [mul_comm] at h2
        linarith
      have : (m : K) + 1 ≤ ((2 ^ p : ℤ) : K) := by exact_mod_cast this
      push_cast at this
      have := mul_le_mul_of_nonneg_right this hpos.le
      rw [mul_comm] at h2
      rw [add_mul, one_mul] at this
      linarith
  have hbound : u * d ≤ d - 2⁻¹ ^ p * d := by
    have := mul_le_mul_of_nonneg_right hu' hd0.le
    linarith
  obtain ⟨l1, l2⟩ := log_spec hd0
  have hdl := near_bounds hp hm
  -- the binade of the product
  have hlog : Int.log 2 (u * d) ≤ Int.log 2 d := Int.log_mono_right hm hlt.le
  have half : 1 / 2 * ulp p d = 2⁻¹ ^ p * 2 ^ Int.log 2 d := by
    unfold ulp
    rw [zpow_add₀ (by norm_num), zpow_sub₀ (by norm_num)]
    simp only [zpow_natCast, zpow_one, inv_pow]
    field_simp
  have hup := ulp_pos p d
  by_contra hc
  have hge := not_lt.1 hc
  have hmono : near p (u * d) ≤ near p d := near_mono hp hm hlt.le
  have hd' : near p d = d := by rw [← binRnd_pos hd0]; exact hd
  have heq : near p (u * d) = d := le_antisymm (hmono.trans_eq hd') hge
  rcases hlog.lt_or_eq with hl | hl
  · -- lower binade: then `d` is a power of 2
    have h2 := hdl.2
    rw [heq] at h2
    have : (2 : K) ^ (Int.log 2 (u * d) + 1) ≤ 2 ^ Int.log 2 d := zpow_le_zpow_right₀ (by norm_num) (by omega)
    have hde : d = 2 ^ Int.log 2 d := le_antisymm (h2.trans this) l1
    have hlog' : Int.log 2 (u * d) + 1 = Int.log 2 d := by
      have := (zpow_le_zpow_iff_right₀ (by norm_num : (1 : K) < 2)).1 (hde ▸ h2 : (2 : K) ^ Int.log 2 d ≤ 2 ^ (Int.log 2 (u * d) + 1))
      omega
    -- `d - 2 ^ (-p) d` has `p` bits
    have hulp : ulp p (u * d) = 2⁻¹ ^ p * d := by
      rw [ulp, show Int.log 2 (u * d) - p + 1 = Int.log 2 d - p by omega, zpow_sub₀ (by norm_num), zpow_natCast, ← hde, inv_pow]
      field_simp
    have hpp : (0 : K) < 2⁻¹ ^ p * d := by positivity
    have hfl : ⌊u * d / ulp p (u * d) + 1 / 2⌋ < (2 ^ p : ℤ) := by
      rw [Int.floor_lt]
      have : u * d / ulp p (u * d) ≤ 2 ^ p - 1 := by
        rw [div_le_iff₀ (ulp_pos _ _), hulp]
        have h3 : (2 ^ p : K) * (2⁻¹ ^ p * d) = d := by rw [← mul_assoc, ← mul_pow]; norm_num
        linarith
      push_cast
      linarith
    have h4 : (⌊u * d / ulp p (u * d) + 1 / 2⌋ : K) < 2 ^ p := by exact_mod_cast hfl
    have h5 : near p (u * d) < 2 ^ p * (2⁻¹ ^ p * d) := by
      rw [near, hulp] at *
      exact mul_lt_mul_of_pos_right h4 hpp
    rw [← mul_assoc, ← mul_pow] at h5
    norm_num at h5
    linarith
  · -- same binade
    have hulp : ulp p (u * d) = ulp p d := by rw [ulp, hl, ulp]
    have hdm : d = ⌊d / ulp p d + 1 / 2⌋ * ulp p d := by rw [near] at hd'; exact hd'.symm
    set m := ⌊d / ulp p d + 1 / 2⌋
    have hdd : d / ulp p d = m := by rw [div_eq_iff hup.ne']; exact hdm
    have hfl : (⌊u * d / ulp p d + 1 / 2⌋ : K) = m := by
      have : near p (u * d) = m * ulp p d := heq.trans hdm
      rw [near, hulp] at this
      exact mul_right_cancel₀ hup.ne' this
    have hfl' := Int.floor_le (u * d / ulp p d + 1 / 2)
    rw [hfl] at hfl'
    -- so `u d` is at least `d - ulp / 2`
    have hge' : d - 1 / 2 * ulp p d ≤ u * d := by
      have h6 : (m : K) - 1 / 2 ≤ u * d / ulp p d := by linarith
      rw [le_div_iff₀ hup, sub_mul, ← hdm] at h6
      exact h6
    -- hence `d` is a power of 2, and `u d < d` is in the lower binade
    have hdle : d ≤ 2 ^ Int.log 2 d := by
      have hpos : (0 : K) < 2⁻¹ ^ p := by positivity
      rw [half] at hge'
      have : (2⁻¹ : K) ^ p * d ≤ 2⁻¹ ^ p * 2 ^ Int.log 2 d := by linarith
      exact le_of_mul_le_mul_left this hpos
    have hde : d = 2 ^ Int.log 2 d := le_antisymm hdle l1
    have := (log_spec hm).1
    rw [hl, ← hde] at this
    linarith

theorem binary_nearest (p : Nat) (hp : 1 ≤ p) : Nearest (binary p hp : Fl K) where
  odd := binRnd_odd p
  one := by
    show binRnd p 1 = 1
    rw [binRnd_pos (by norm_num)]
    refine near_int (e := 0) (m := 2 ^ (p - 1)) (by norm_num) (by norm_num) ?_
    push_cast
    rw [← zpow_natCast, ← zpow_add₀ (by norm_num)]
    push_cast [hp]
    rw [show (p : ℤ) - 1 + (0 - p + 1) = 0 by ring]
    norm_num
  near := fun x z hz => by
    show |binRnd p x - x| ≤ |z - x|
    rcases lt_trichotomy 0 x with h | h | h
    · rw [binRnd_pos h]; exact near_nearest hp h hz
    · subst h; simp [binRnd]
    · have hz' : binRnd p (-z) = -z := by rw [binRnd_odd]; congr 1
      have := near_nearest hp (x := -x) (by linarith) hz'
      rw [← binRnd_pos (by linarith), binRnd_odd] at this
      rwa [show -binRnd p x - -x = -(binRnd p x - x) by ring, abs_neg, show -z - -x = -(z - x) by ring, abs_neg] at this
  shrink := fun u d hu hd h0 h1 hd0 => by
    show binRnd p (u * d) < d
    rcases h0.lt_or_eq with h | h
    · rw [binRnd_pos (mul_pos h hd0)]; exact near_shrink hp hu hd h h1 hd0
    · subst h; simpa [binRnd] using hd0

end

/-! ## Interpolation -/

/-- Interpolation of one degree of freedom.  This is what is assumed of `LiegroupSpace::interpolate` (library pinocchio) on vector spaces: exact for 0 and 1, `x + u (y - x)` otherwise. -/
def lerpR (F : Fl K) (x y u : K) : K := if u = 0 then x else if u = 1 then y else F.rnd (x + F.rnd (u * F.rnd (y - x)))

/-- A number below the rounded difference is below the difference. -/
theorem below {F : Fl K} (hF : Nearest F) {x z : K} (hz : F.rnd z = z) (h : z < F.rnd x) : z ≤ x := by
  by_contra hc
  have hc := not_le.1 hc
  have := hF.near x z hz
  rw [abs_of_pos (by linarith), abs_of_pos (by linarith)] at this
  linarith

/-- Interpolation upward. -/
theorem lerp_up {F : Fl K} (hF : Nearest F) {x y u : K} (hx : F.rnd x = x) (hy : F.rnd y = y) (hu : F.rnd u = u) (h0 : 0 ≤ u) (h1 : u ≤ 1) (h : x ≤ y) : x ≤ lerpR F x y u ∧ lerpR F x y u ≤ y := by
  unfold lerpR
  split
  · exact ⟨le_rfl, h⟩
  · split
    · exact ⟨h, le_rfl⟩
    · next hne =>
      have hlt := lt_of_le_of_ne h1 hne
      have hd := F.nonneg (show 0 ≤ y - x by linarith)
      have hz0 := F.nonneg (mul_nonneg h0 hd)
      have hle : F.rnd (u * F.rnd (y - x)) ≤ y - x := by
        rcases hd.lt_or_eq with hd | hd
        · exact below hF (F.idem _) (hF.shrink u _ hu (F.idem _) h0 hlt hd)
        · rw [← hd, mul_zero, F.zero]; linarith
      constructor
      · have := F.mono (show x ≤ x + F.rnd (u * F.rnd (y - x)) by linarith)
        rwa [hx] at this
      · have := F.mono (show x + F.rnd (u * F.rnd (y - x)) ≤ y by linarith)
        rwa [hy] at this

theorem lerp_neg {F : Fl K} (hF : Nearest F) (x y u : K) : lerpR F (-x) (-y) u = -lerpR F x y u := by
  unfold lerpR
  split
  · rfl
  · split
    · rfl
    · rw [show -y - -x = -(y - x) by ring, hF.odd, mul_neg, hF.odd, ← neg_add, hF.odd]

/-- **C146 (interpolation).**  Rounded to the nearest, the interpolation of two numbers lies between them. -/
theorem C146_interpolation {F : Fl K} (hF : Nearest F) {x y u : K} (hx : F.rnd x = x) (hy : F.rnd y = y) (hu : F.rnd u = u) (h0 : 0 ≤ u) (h1 : u ≤ 1) : min x y ≤ lerpR F x y u ∧ lerpR F x y u ≤ max x y := by
  rcases le_total x y with h | h
  · rw [min_eq_left h, max_eq_right h]; exact lerp_up hF hx hy hu h0 h1 h
  · rw [min_eq_right h, max_eq_left h]
    have := lerp_up hF (x := -x) (y := -y) (by rw [hF.odd, hx]) (by rw [hF.odd, hy]) hu h0 h1 (neg_le_neg h)
    rw [lerp_neg hF] at this
    constructor <;> linarith [this.1, this.2]

theorem lerp_rep {F : Fl K} {x y u : K} (hx : F.rnd x = x) (hy : F.rnd y = y) : F.rnd (lerpR F x y u) = lerpR F x y u := by
  unfold lerpR
  split
  · exact hx
  · split
    · exact hy
    · exact F.idem _

/-! ## Bounds -/

variable {n : Nat}

/-- Interpolation of configurations. -/
def interpR (F : Fl K) (a b : Fin n → K) (u : K) : Fin n → K := fun i => lerpR F (a i) (b i) u

/-- `JointBoundValidation::validate`: src/joint-bound-validation.cc:45-80 (degrees of freedom of the model and extra ones alike). -/
def validBounds (lo up q : Fin n → K) : Prop := ∀ i, ¬(up i < q i ∨ q i < lo i)

/-- Floating point configurations that this validation accepts. -/
structure Inside (F : Fl K) (lo up q : Fin n → K) : Prop where
  rep : ∀ i, F.rnd (q i) = q i
  valid : validBounds lo up q

/-- Straight paths between such configurations, the time range of which begins at 0: paths made by the steering method (src/steering-method/straight.cc:38-51) and by extraction. -/
def Boxed (F : Fl K) (lo up : Fin n → K) (v : List (Seg K (Fin n → K))) : Prop := ∀ s ∈ v, s.tr.1 = 0 ∧ Inside F lo up s.q0 ∧ Inside F lo up s.q1

theorem conf_inside {F : Fl K} (hF : Nearest F) {lo up : Fin n → K} {s : Seg K (Fin n → K)} (h0 : Inside F lo up s.q0) (h1 : Inside F lo up s.q1) {t : K} (ht : s.tr.1 ≤ t) (ht' : t ≤ s.tr.2) :
    Inside F lo up (conf F (interpR F) s t) := by
  unfold conf
  split
  · exact h0
  · next hc =>
    split
    · exact h1
    · have hl : 0 ≤ len F s.tr := len_nonneg (ht.trans ht')
      have hlp : 0 < len F s.tr := lt_of_le_of_ne hl (fun h => hc (Or.inr h.symm))
      have hnum : F.rnd (t - s.tr.1) ≤ len F s.tr := F.mono (by linarith)
      have hn0 : 0 ≤ F.rnd (t - s.tr.1) := F.nonneg (by linarith)
      have hu0 : 0 ≤ F.rnd (F.rnd (t - s.tr.1) / len F s.tr) := F.nonneg (div_nonneg hn0 hl)
      have hu1 : F.rnd (F.rnd (t - s.tr.1) / len F s.tr) ≤ 1 := by
        have := F.mono (show F.rnd (t - s.tr.1) / len F s.tr ≤ 1 by rw [div_le_one hlp]; exact hnum)
        rwa [hF.one] at this
      refine ⟨fun i => lerp_rep (h0.rep i) (h1.rep i), fun i => ?_⟩
      obtain ⟨b1, b2⟩ := C146_interpolation hF (h0.rep i) (h1.rep i) (F.idem (F.rnd (t - s.tr.1) / len F s.tr)) hu0 hu1
      have a0 := h0.valid i
      have a1 := h1.valid i
      rw [not_or, not_lt, not_lt] at a0 a1 ⊢
      exact ⟨b2.trans (max_le a0.1 a1.1), (le_min a0.2 a1.2).trans b1⟩

/-- Local parameters are within time ranges that begin at 0. -/
theorem boxed_found {F : Fl K} {lo up : Fin n → K} {v : List (Seg K (Fin n → K))} (hne : v ≠ []) (hv : Proper F v) (hb : Boxed F lo up v) {t : K} (h0 : 0 ≤ t) (ht : F.rnd t = t) :
    ∃ k l s, rankAtParam F (v.map Seg.tr) t = .at k l ∧ v[k]? = some s ∧ s ∈ v ∧ s.tr.1 ≤ l ∧ l ≤ s.tr.2 := by
  obtain ⟨k, l, p, h1, h2, h3, _, h5⟩ := C144_rank (by simpa using hne) (proper_ranges hv) h0 ht
  rw [List.getElem?_map] at h2
  obtain ⟨s, hs, rfl⟩ := Option.map_eq_some_iff.1 h2
  have hm := List.mem_of_getElem? hs
  exact ⟨k, l, s, h1, hs, hm, h3, h5 (hb s hm).1⟩

/-- **C146 (path vectors).**  Rounded to the nearest, a vector of straight paths between configurations that the joint bound validation accepts is accepted at every parameter, exactly. -/
theorem C146_vector {F : Fl K} (hF : Nearest F) {lo up : Fin n → K} {v : List (Seg K (Fin n → K))} (hne : v ≠ []) (hv : Proper F v) (hb : Boxed F lo up v) {t : K} (h0 : 0 ≤ t) (ht : F.rnd t = t) :
    ∃ q, evalV F (interpR F) v t = some q ∧ Inside F lo up q := by
  obtain ⟨k, l, s, h1, h2, h3, h4, h5⟩ := boxed_found hne hv hb h0 ht
  exact ⟨_, by simp only [evalV, h1, h2, Option.map_some], conf_inside hF (hb s h3).2.1 (hb s h3).2.2 h4 h5⟩

theorem boxed_append {F : Fl K} {lo up : Fin n → K} {v w : List (Seg K (Fin n → K))} (h : Boxed F lo up v) (h' : Boxed F lo up w) : Boxed F lo up (v ++ w) := by
  intro s hs
  rcases List.mem_append.1 hs with hs | hs
  · exact h s hs
  · exact h' s hs

theorem extractSeg_boxed {F : Fl K} (hF : Nearest F) {lo up : Fin n → K} {s : Seg K (Fin n → K)} (h0 : Inside F lo up s.q0) (h1 : Inside F lo up s.q1) {a b : K} (ha : s.tr.1 ≤ a ∧ a ≤ s.tr.2) (hb : s.tr.1 ≤ b ∧ b ≤ s.tr.2) :
    Boxed F lo up [extractSeg F (interpR F) s a b] := by
  intro x hx
  simp only [List.mem_singleton] at hx
  subst hx
  exact ⟨rfl, conf_inside hF h0 h1 ha.1 ha.2, conf_inside hF h0 h1 hb.1 hb.2⟩

/-- **C146 (extraction).**  What is extracted is made of straight paths between configurations within bounds. -/
theorem C146_extract {F : Fl K} (hF : Nearest F) {lo up : Fin n → K} {v w : List (Seg K (Fin n → K))} (hne : v ≠ []) (hv : Proper F v) (hb : Boxed F lo up v) {t0 t1 : K} (h0 : 0 ≤ t0) (h1 : 0 ≤ t1) (ht0 : F.rnd t0 = t0) (ht1 : F.rnd t1 = t1)
    (h : extract F (interpR F) v t0 t1 = some w) : Boxed F lo up w := by
  obtain ⟨i, li, si, ri, gi, mi, ai⟩ := boxed_found hne hv hb h0 ht0
  obtain ⟨e, le, se, re, ge, me, ae⟩ := boxed_found hne hv hb h1 ht1
  have rng : ∀ s ∈ v, ∀ b : Bool, (s.tr.1 ≤ Iend s.tr b ∧ Iend s.tr b ≤ s.tr.2) ∧ (s.tr.1 ≤ Iinit s.tr b ∧ Iinit s.tr b ≤ s.tr.2) := by
    intro s hs b
    have := (hv s hs).1
    cases b <;> simp [Iend, Iinit, this]
  have mid : ∀ (b : Bool) (i e : Nat), Boxed F lo up (if b then ((v.take i).drop (e + 1)).reverse.map (reverseSeg F (interpR F)) else (v.take e).drop (i + 1)) := by
    intro b i e
    cases b with
    | true =>
      intro s hs
      simp only [if_true] at hs
      obtain ⟨x, hx, rfl⟩ := List.mem_map.1 hs
      have hx : x ∈ v := List.mem_of_mem_take (List.mem_of_mem_drop (List.mem_reverse.1 hx))
      have hle := (hv x hx).1
      exact extractSeg_boxed hF (hb x hx).2.1 (hb x hx).2.2 (a := x.tr.2) (b := x.tr.1) ⟨hle, le_rfl⟩ ⟨le_rfl, hle⟩ _ (by simp [reverseSeg])
    | false =>
      intro s hs
      simp only [Bool.false_eq_true, if_false] at hs
      exact hb s (List.mem_of_mem_take (List.mem_of_mem_drop hs))
  simp only [extract, ri, re, gi, ge] at h
  split at h
  · next hie =>
    subst hie
    rw [gi] at ge
    cases ge
    cases h
    exact extractSeg_boxed hF (hb si mi).2.1 (hb si mi).2.2 ai ae
  · cases h
    exact boxed_append (v := [_]) (extractSeg_boxed hF (hb si mi).2.1 (hb si mi).2.2 ai (rng si mi _).1)
      (boxed_append (mid _ _ _) (extractSeg_boxed hF (hb se me).2.1 (hb se me).2.2 (rng se me _).2 ae))

/-- New paths come from the steering method: their time range begins at 0. -/
def Steered (_ : List (Seg K (Fin n → K))) (c : Choice K (Fin n → K)) : Prop := ∀ i s, c.new i = some s → s.tr.1 = 0

theorem iteration_boxed {F : Fl K} (hF : Nearest F) {lo up : Fin n → K} {v w : List (Seg K (Fin n → K))} (hne : v ≠ []) (hv : Proper F v) (hb : Boxed F lo up v) {a b : Fin n → K} (ha : Inside F lo up a) (hbb : Inside F lo up b)
    {c : Choice K (Fin n → K)} (hd : Drawn F (interpR F) a b v c) (hs : Steered v c) (h : iteration F (interpR F) v c = some w) : Boxed F lo up w := by
  have hr := proper_ranges hv
  have val : ∀ {t : K} {q : Fin n → K}, 0 ≤ t → F.rnd t = t → some q = evalV F (interpR F) v t → Inside F lo up q := by
    intro t q h0 ht hq
    obtain ⟨q', e, i⟩ := C146_vector hF hne hv hb h0 ht
    rw [e] at hq
    cases hq
    exact i
  have one : ∀ {new : Option (Seg K (Fin n → K))} {t0 t1 : K} {x : List (Seg K (Fin n → K))}, 0 ≤ t0 → 0 ≤ t1 → F.rnd t0 = t0 → F.rnd t1 = t1 →
      (∀ s, new = some s → s.tr.1 = 0 ∧ Inside F lo up s.q0 ∧ Inside F lo up s.q1) → part F (interpR F) v new t0 t1 = some x → Boxed F lo up x := by
    intro new t0 t1 x h0 h1 r0 r1 hn hx
    cases new with
    | some s =>
      cases hx
      intro s' hs'
      simp only [List.mem_singleton] at hs'
      subst hs'
      exact hn _ rfl
    | none => exact C146_extract hF hne hv hb h0 h1 r0 r1 hx
  unfold iteration at h
  split at h
  · next w0 w1 w2 k0 k1 k2 =>
    cases h
    have b0 := one le_rfl hd.t1.1 F.zero hd.t1.2 (fun s e => by
      obtain ⟨x, y⟩ := hd.n0 s e
      exact ⟨hs 0 s e, x ▸ ha, val hd.t1.1 hd.t1.2 y⟩) k0
    have b1 := one hd.t1.1 hd.t2.1 hd.t1.2 hd.t2.2 (fun s e => by
      obtain ⟨x, y⟩ := hd.n1 s e
      exact ⟨hs 1 s e, val hd.t1.1 hd.t1.2 x, val hd.t2.1 hd.t2.2 y⟩) k1
    have b2 := one hd.t2.1 (total_nonneg hr) hd.t2.2 (total_rep _) (fun s e => by
      obtain ⟨x, y⟩ := hd.n2 s e
      exact ⟨hs 2 s e, val hd.t2.1 hd.t2.2 x, y ▸ hbb⟩) k2
    split
    · exact boxed_append (boxed_append b0 b1) b2
    · exact hb
  · cases h

/-- **C146 (shortcuts).**  Rounded to the nearest, the path returned by the random shortcut after any number of iterations is accepted by the joint bound validation at every parameter, if the path given to it is made of straight paths between configurations accepted. -/
theorem C146_shortcut {F : Fl K} (hF : Nearest F) (hu : F.u < 1) {lo up : Fin n → K} {a b : Fin n → K} (ha : Inside F lo up a) (hbb : Inside F lo up b) (cs : List (Choice K (Fin n → K))) :
    ∀ {v : List (Seg K (Fin n → K))}, v ≠ [] → Proper F v → Boxed F lo up v → ∀ {b0 : Fin n → K}, Joins a v b0 → Along F (interpR F) (Drawn F (interpR F) a b) cs v → Along F (interpR F) Steered cs v →
      ∃ w, shortcuts F (interpR F) cs v = some w ∧ ∀ t, 0 ≤ t → F.rnd t = t → ∃ q, evalV F (interpR F) w t = some q ∧ validBounds lo up q := by
  induction cs with
  | nil =>
    intro v hne hv hb b0 _ _ _
    refine ⟨v, rfl, fun t h0 ht => ?_⟩
    obtain ⟨q, e, i⟩ := C146_vector hF hne hv hb h0 ht
    exact ⟨q, e, i.valid⟩
  | cons c cs ih =>
    intro v hne hv hb b0 hj hd hs
    obtain ⟨w, b1, e, nw, pw, jw, _⟩ := iteration_joins hu hF.odd hne hv hj hd.1
    obtain ⟨x, e', r⟩ := ih nw pw (iteration_boxed hF hne hv hb ha hbb hd.1 hs.1 e) jw (hd.2 w e) (hs.2 w e)
    exact ⟨x, by simp only [shortcuts, e, e'], r⟩

/-! ## Shots -/

/-- `Uniform::impl_shoot`, an extra degree of freedom: src/configuration-shooter/uniform.cc:47-57 (`lower + (upper - lower) * rand() / RAND_MAX`). -/
def shot (F : Fl K) (lo up r R : K) : K := F.rnd (lo + F.rnd (F.rnd (F.rnd (up - lo) * r) / R))

/-- **C147 (shots).**  Rounded to the nearest, a shot is within bounds, unless the random number is so close to `RAND_MAX` that the difference is below the rounding errors. -/
theorem C147_shot_partial {F : Fl K} (hF : Nearest F) {lo up r R : K} (hlo : F.rnd lo = lo) (hup : F.rnd up = up) (hle : lo ≤ up) (hr : 0 ≤ r) (hR : (1 + F.u) ^ 2 * r < R) :
    lo ≤ shot F lo up r R ∧ shot F lo up r R ≤ up := by
  have hu0 := F.u0
  have hR0 : 0 < R := lt_of_le_of_lt (by positivity) hR
  have hd := F.nonneg (show 0 ≤ up - lo by linarith)
  have hm := F.nonneg (mul_nonneg hd hr)
  have hz := F.nonneg (div_nonneg hm hR0.le)
  have step : ∀ x : K, 0 ≤ x → F.rnd x ≤ (1 + F.u) * x := by
    intro x hx
    have := (abs_le.1 (F.err x)).2
    rw [abs_of_nonneg hx] at this
    linarith
  have hzle : F.rnd (F.rnd (F.rnd (up - lo) * r) / R) ≤ up - lo := by
    rcases hd.lt_or_eq with h | h
    · refine below hF (F.idem _) ?_
      refine (step _ (div_nonneg hm hR0.le)).trans_lt ?_
      rw [mul_div_assoc', div_lt_iff₀ hR0]
      have h1 := mul_le_mul_of_nonneg_left (step _ (mul_nonneg hd hr)) (by linarith : 0 ≤ 1 + F.u)
      refine h1.trans_lt ?_
      have h2 := mul_lt_mul_of_pos_left hR h
      calc (1 + F.u) * ((1 + F.u) * (F.rnd (up - lo) * r)) = F.rnd (up - lo) * ((1 + F.u) ^ 2 * r) := by ring
        _ < _ := h2
    · rw [← h]; simp only [zero_mul, F.zero, zero_div]; linarith
  unfold shot
  constructor
  · have := F.mono (show lo ≤ lo + F.rnd (F.rnd (F.rnd (up - lo) * r) / R) by linarith)
    rwa [hlo] at this
  · have := F.mono (show lo + F.rnd (F.rnd (F.rnd (up - lo) * r) / R) ≤ up by linarith)
    rwa [hup] at this

/-! ## Numbers of type `double` -/

theorem double_nearest : Nearest double := binary_nearest 53 _

/-- The numbers -0.8 and 0.3 of type `double`, and `RAND_MAX`. -/
def loD : ℚ := -3602879701896397 / 4503599627370496
def upD : ℚ := 5404319552844595 / 18014398509481984
def randMax : ℚ := 2147483647

/-- **C147 (counterexample: shots).**  With numbers of type `double` and bounds -0.8 and 0.3, the shot made when `rand` returns `RAND_MAX` exceeds the upper bound; the joint bound validation refuses it. -/
theorem C147_shot_counterexample : double.rnd loD = loD ∧ double.rnd upD = upD ∧ loD < upD ∧ shot double loD upD randMax randMax = 1351079888211149 / 4503599627370496 ∧ upD < shot double loD upD randMax randMax := by
  have h1 : double.rnd (upD - loD) = 2476979795053773 / 2251799813685248 :=
    double_of (e := 0) (m := 4953959590107546) (by norm_num [upD, loD]) (by norm_num [upD, loD]) (by norm_num [upD, loD]) (by norm_num [upD, loD]) (by norm_num)
  have h2 : double.rnd (2476979795053773 / 2251799813685248 * randMax) = 4953959587800679 / 2097152 :=
    double_of (e := 31) (m := 4953959587800679) (by norm_num [randMax]) (by norm_num [randMax]) (by norm_num [randMax]) (by norm_num [randMax]) (by norm_num)
  have h3 : double.rnd (4953959587800679 / 2097152 / randMax) = 2476979795053773 / 2251799813685248 :=
    double_of (e := 0) (m := 4953959590107546) (by norm_num [randMax]) (by norm_num [randMax]) (by norm_num [randMax]) (by norm_num [randMax]) (by norm_num)
  have h4 : double.rnd (loD + 2476979795053773 / 2251799813685248) = 1351079888211149 / 4503599627370496 :=
    double_of (e := -2) (m := 5404319552844596) (by norm_num [loD]) (by norm_num [loD]) (by norm_num [loD]) (by norm_num [loD]) (by norm_num)
  have hs : shot double loD upD randMax randMax = 1351079888211149 / 4503599627370496 := by rw [shot, h1, h2, h3, h4]
  refine ⟨?_, ?_, by norm_num [loD, upD], hs, ?_⟩
  · have : double.rnd (3602879701896397 / 4503599627370496) = 3602879701896397 / 4503599627370496 :=
      double_of (e := -1) (m := 7205759403792794) (by norm_num) (by norm_num) (by norm_num) (by norm_num) (by norm_num)
    rw [show loD = -(3602879701896397 / 4503599627370496) by norm_num [loD], double_odd, this]
  · exact double_of (e := -2) (m := 5404319552844595) (by norm_num [upD]) (by norm_num [upD]) (by norm_num [upD]) (by norm_num [upD]) (by norm_num [upD])
  · rw [hs]; norm_num [upD]

/-- The hypotheses of `C147_shot_partial` hold for these bounds and every random number below `RAND_MAX`. -/
example (r : ℕ) (h : r ≤ 2147483646) : (0 : ℚ) ≤ r ∧ (1 + double.u) ^ 2 * (r : ℚ) < randMax := by
  have : double.u = 2⁻¹ ^ 53 := rfl
  have h' : (r : ℚ) ≤ 2147483646 := by exact_mod_cast h
  refine ⟨by positivity, ?_⟩
  rw [this, randMax]
  calc (1 + 2⁻¹ ^ 53) ^ 2 * (r : ℚ) ≤ (1 + 2⁻¹ ^ 53) ^ 2 * 2147483646 := mul_le_mul_of_nonneg_left h' (by positivity)
    _ < _ := by norm_num

/-- Two degrees of freedom between -1 and 1. -/
def zig : List (Seg ℚ (Fin 2 → ℚ)) := [⟨![-1, 1], ![1, 0], (0, 1)⟩, ⟨![1, 0], ![0, -1], (0, 1)⟩]

theorem rep_small : double.rnd (-1) = -1 ∧ double.rnd 0 = 0 ∧ double.rnd 1 = 1 := ⟨by rw [double_odd, double_one], double.zero, double_one⟩

/-- The hypotheses of `C146_vector`, `C146_extract` and `C146_shortcut` hold for this vector. -/
example : zig ≠ [] ∧ Proper double zig ∧ Boxed double ![-1, -1] ![1, 1] zig ∧ Joins ![-1, 1] zig ![0, -1] ∧ Inside double ![-1, -1] ![1, 1] ![-1, 1] ∧ Inside double ![-1, -1] ![1, 1] ![0, -1] := by
  obtain ⟨h1, h2, h3⟩ := rep_small
  have ins : ∀ q ∈ [![-1, 1], ![1, 0], ![(0 : ℚ), -1]], Inside double ![-1, -1] ![1, 1] q := by
    intro q hq
    simp only [List.mem_cons, List.not_mem_nil, or_false] at hq
    rcases hq with rfl | rfl | rfl
    all_goals exact ⟨fun i => by fin_cases i <;> simp [h1, h2, h3], fun i => by fin_cases i <;> norm_num⟩
  refine ⟨by simp [zig], ?_, ?_, ⟨rfl, rfl, rfl⟩, ins _ (by simp), ins _ (by simp)⟩
  · intro s hs
    simp only [zig, List.mem_cons, List.not_mem_nil, or_false] at hs
    rcases hs with rfl | rfl <;> exact ⟨by norm_num, h2, h3, by norm_num⟩
  · intro s hs
    simp only [zig, List.mem_cons, List.not_mem_nil, or_false] at hs
    rcases hs with rfl | rfl
    · exact ⟨rfl, ins _ (by simp), ins _ (by simp)⟩
    · exact ⟨rfl, ins _ (by simp), ins _ (by simp)⟩

end Verif.Rounding
