import Verif.Model.MathUtils
import Verif.Lemmas.FloatInstance
import Mathlib.Tactic.Linarith
import Mathlib.Tactic.FieldSimp
import Mathlib.Tactic.FinCases
import Mathlib.Analysis.Real.Pi.Bounds
import Mathlib.Data.Nat.Factorial.Basic

/-!
# C49 (angle wrapping), C58 (quaternion to angles), C59 (skew, Omega, matrix exponential)
-/

namespace Ikf
namespace MathU

section
variable {K : Type*} [Field K] [LinearOrder K] [IsStrictOrderedRing K] [FloorRing K]

/-! ## fmod -/

theorem trunc_abs_le (x : K) : |x - truncZ x| < 1 ∧ (0 ≤ x → 0 ≤ x - truncZ x) ∧ (x ≤ 0 → x - truncZ x ≤ 0) := by
  unfold truncZ
  split
  · rename_i h
    have h1 := Int.floor_le x
    have h2 := Int.lt_floor_add_one x
    refine ⟨by rw [abs_lt]; constructor <;> linarith, fun _ => by linarith, fun h0 => ?_⟩
    have : x = 0 := le_antisymm h0 h
    simp [this]
  · rename_i h
    have h1 := Int.le_ceil x
    have h2 := Int.ceil_lt_add_one x
    exact ⟨by rw [abs_lt]; constructor <;> linarith, fun h0 => absurd h0 h, fun _ => by linarith⟩

/-- What `fmod` computes for a positive divisor. -/
theorem fmod_spec (x y : K) (hy : 0 < y) :
    ∃ r, fmod x y = some r ∧ (∃ k : ℤ, x = r + k * y) ∧ |r| < y ∧ (0 ≤ x → 0 ≤ r) ∧ (x ≤ 0 → r ≤ 0) := by
  refine ⟨x - y * truncZ (x / y), by simp [fmod, hy.ne'], ⟨truncZ (x / y), by ring⟩, ?_, ?_, ?_⟩
  all_goals
    have e : x - y * truncZ (x / y) = y * (x / y - truncZ (x / y)) := by field_simp
    rw [e]
  · rw [abs_mul, abs_of_pos hy]
    have := (trunc_abs_le (x / y)).1
    nlinarith
  · intro h; exact mul_nonneg hy.le ((trunc_abs_le (x / y)).2.1 (div_nonneg h hy.le))
  · intro h
    exact mul_nonpos_of_nonneg_of_nonpos hy.le ((trunc_abs_le (x / y)).2.2 (div_nonpos_of_nonpos_of_nonneg h hy.le))

theorem fmod_neg_neg (x y : K) : fmod (-x) (-y) = (fmod x y).map Neg.neg := by
  unfold fmod
  by_cases h : y = 0
  · simp [h]
  · simp [h]; ring

/-! ## C49 -/

/-- Two values in the same half-open interval that differ by a multiple of its length are equal. -/
theorem unique_rep {a b lo L : K} {k : ℤ} (hL : 0 < L) (ha : lo ≤ a) (ha' : a < lo + L) (hb : lo ≤ b) (hb' : b < lo + L)
    (h : a = b + k * L) : a = b := by
  have h1 : (k : K) * L < 1 * L := by linarith
  have h2 : (-1 : K) * L < k * L := by linarith
  have h3 : (k : K) < 1 := lt_of_mul_lt_mul_right h1 hL.le
  have h4 : (-1 : K) < k := lt_of_mul_lt_mul_right h2 hL.le
  have h5 : k < 1 := by exact_mod_cast h3
  have h6 : -1 < k := by exact_mod_cast h4
  have : k = 0 := by omega
  simpa [this] using h

theorem wrapMax_spec (x m : K) (hm : 0 < m) :
    ∃ r, wrapMax id x m = some r ∧ 0 ≤ r ∧ r < m ∧ ∃ k : ℤ, x = r + k * m := by
  obtain ⟨a, ha, ⟨k1, hk1⟩, hab, -, -⟩ := fmod_spec x m hm
  rw [abs_lt] at hab
  obtain ⟨r, hr, ⟨k2, hk2⟩, hrb, hr0, -⟩ := fmod_spec (m + a) m hm
  refine ⟨r, by simp [wrapMax, ha, hr], hr0 (by linarith), (abs_lt.mp hrb).2, k1 + k2 - 1, ?_⟩
  push_cast
  have : a = r + k2 * m - m := by linarith
  rw [hk1, this]; ring

/-- C49, exact arithmetic. For every argument and every `min < max`, `wrapMinMax` returns a number of `[min, max)`
that differs from its argument by a whole multiple of `max - min`; and it is the only such number. -/
theorem c49_wrap (x min max : K) (h : min < max) :
    ∃ w, wrapMinMax id x min max = some w ∧ min ≤ w ∧ w < max ∧ (∃ k : ℤ, x = w + k * (max - min)) ∧
      ∀ w', min ≤ w' → w' < max → (∃ k : ℤ, x = w' + k * (max - min)) → w' = w := by
  obtain ⟨r, hr, h0, h1, k, hk⟩ := wrapMax_spec (x - min) (max - min) (by linarith)
  refine ⟨min + r, by simp [wrapMinMax, hr], by linarith, by linarith, ⟨k, by linarith⟩, ?_⟩
  rintro w' hw0 hw1 ⟨k', hk'⟩
  refine unique_rep (lo := min) (L := max - min) (k := k - k') (by linarith) hw0 (by linarith) (by linarith) (by linarith) ?_
  push_cast
  rw [sub_mul]; linarith

/-- C49. A value already in `[min, max)` is returned unchanged, and wrapping is idempotent and periodic. -/
theorem c49_wrap_id (x min max : K) (h : min < max) :
    (wrapMinMax id x min max = some x ↔ min ≤ x ∧ x < max) ∧
    (∀ w, wrapMinMax id x min max = some w → wrapMinMax id w min max = some w) ∧
    ∀ n : ℤ, wrapMinMax id (x + n * (max - min)) min max = wrapMinMax id x min max := by
  have key : ∀ x : K, min ≤ x → x < max → wrapMinMax id x min max = some x := by
    intro x h0 h1
    obtain ⟨w, hw, hw0, hw1, -, hu⟩ := c49_wrap x min max h
    rw [hw, hu x h0 h1 ⟨0, by simp⟩]
  refine ⟨⟨?_, fun hx => key x hx.1 hx.2⟩, ?_, ?_⟩
  · intro hx
    obtain ⟨w, hw, hw0, hw1, -, -⟩ := c49_wrap x min max h
    rw [hw] at hx; cases hx; exact ⟨hw0, hw1⟩
  · intro w hw'
    obtain ⟨v, hv, hv0, hv1, -, -⟩ := c49_wrap x min max h
    rw [hv] at hw'; cases hw'
    exact key _ hv0 hv1
  · intro n
    obtain ⟨w, hw, hw0, hw1, ⟨k, hk⟩, -⟩ := c49_wrap x min max h
    obtain ⟨v, hv, -, -, -, hu⟩ := c49_wrap (x + n * (max - min)) min max h
    rw [hw, hv, hu w hw0 hw1 ⟨k + n, by rw [hk]; push_cast; ring⟩]

/-- C49. The empty interval yields NaN; a reversed one wraps into `(max, min]`. -/
theorem c49_wrap_degenerate (x min max : K) :
    (wrapMinMax id x min max = none ↔ min = max) ∧
    (max < min → ∃ w, wrapMinMax id x min max = some w ∧ max < w ∧ w ≤ min ∧ ∃ k : ℤ, x = w + k * (max - min)) := by
  have hrev : max < min → ∃ w, wrapMinMax id x min max = some w ∧ max < w ∧ w ≤ min ∧
      ∃ k : ℤ, x = w + k * (max - min) := by
    intro h
    obtain ⟨r, hr, h0, h1, k, hk⟩ := wrapMax_spec (-(x - min)) (-(max - min)) (by linarith)
    have e : wrapMax id (x - min) (max - min) = some (-r) := by
      have e1 : fmod (x - min) (max - min) = (fmod (-(x - min)) (-(max - min))).map Neg.neg := by
        rw [fmod_neg_neg, Option.map_map]; cases fmod (x - min) (max - min) <;> simp
      unfold wrapMax at hr ⊢
      rw [e1]
      cases hf : fmod (-(x - min)) (-(max - min)) with
      | none => rw [hf] at hr; simp at hr
      | some a =>
        rw [hf] at hr
        simp only [id, Option.map_some] at hr ⊢
        have := fmod_neg_neg (-(max - min) + a) (-(max - min))
        rw [hr] at this
        have e3 : -(-(max - min) + a) = max - min + -a := by ring
        rw [e3, neg_neg] at this
        simpa using this
    refine ⟨min + -r, by simp [wrapMinMax, e], by linarith, by linarith, k, by linarith⟩
  refine ⟨⟨fun hn => ?_, fun he => ?_⟩, hrev⟩
  · rcases lt_trichotomy min max with h | h | h
    · obtain ⟨w, hw, -⟩ := c49_wrap x min max h; rw [hw] at hn; cases hn
    · exact h
    · obtain ⟨w, hw, -⟩ := hrev h; rw [hw] at hn; cases hn
  · subst he; simp [wrapMinMax, wrapMax, fmod]

/-! ### Floating point -/

/-- The facts about IEEE `double` the rounded theorem uses: `F` are the representable numbers. All of them are
standard (monotone correct rounding; Sterbenz; `fmod` is exact; doubling is exact); overflow is not modelled.
`binary53` below proves them for the 53-bit format. -/
structure Format (F : K → Prop) (rnd : K → K) : Prop where
  mem : ∀ x, F (rnd x)
  fix : ∀ x, F x → rnd x = x
  mono : ∀ x y, x ≤ y → rnd x ≤ rnd y
  neg : ∀ x, F x → F (-x)
  dbl : ∀ x, F x → F (x + x)
  sterbenz : ∀ a b, F a → F b → b / 2 ≤ a → a ≤ 2 * b → F (a - b)
  fmod : ∀ a b r, F a → F b → fmod a b = some r → F r

/-- C49 in floating point: for a representable bound `c > 0` (such as the double `M_PI`, or 180) and every argument,
`wrapMinMax(x, -c, c)` computed with rounding still lies in `[-c, c)` (the upper end is never returned), and it
differs from the argument by a multiple of `2c` up to a relative error: with unit roundoff `u` the difference is at most
`u (|x| + 6c)`. -/
theorem c49_wrap_float {F : K → Prop} {rnd : K → K} (hf : Format F rnd) (x c u : K) (hc : 0 < c) (hFc : F c)
    (hu : ∀ y, |rnd y - y| ≤ u * |y|) (hu0 : 0 ≤ u) :
    ∃ w, wrapMinMax rnd x (-c) c = some w ∧ -c ≤ w ∧ w < c ∧ ∃ k : ℤ, |w - (x + k * (2 * c))| ≤ u * (|x| + 6 * c) := by
  have hF0 : F 0 := by have := hf.sterbenz c c hFc hFc (by linarith) (by linarith); rwa [sub_self] at this
  have hL : rnd (c - -c) = 2 * c := by
    have : c - -c = c + c := by ring
    rw [this, hf.fix _ (hf.dbl c hFc)]; ring
  have h2c : 0 < 2 * c := by linarith
  have hF2 : F (2 * c) := by rw [two_mul]; exact hf.dbl c hFc
  obtain ⟨a1, ha1, ⟨k1, hk1⟩, hb1, -, -⟩ := fmod_spec (rnd (x - -c)) (2 * c) h2c
  rw [abs_lt] at hb1
  have hs0 : 0 ≤ rnd (2 * c + a1) := by
    have := hf.mono 0 (2 * c + a1) (by linarith); rwa [hf.fix 0 hF0] at this
  obtain ⟨a, ha, ⟨k2, hk2⟩, hb, hpos, -⟩ := fmod_spec (rnd (2 * c + a1)) (2 * c) h2c
  have ha0 := hpos hs0
  rw [abs_lt] at hb
  have hFa : F a := hf.fmod _ _ _ (hf.mem _) hF2 ha
  refine ⟨rnd (-c + a), by simp only [wrapMinMax, wrapMax, hL, ha1, ha], ?_, ?_, -k1 - k2 + 1, ?_⟩
  · have := hf.mono (-c) (-c + a) (by linarith)
    rwa [hf.fix _ (hf.neg c hFc)] at this
  · rcases le_total (c / 2) a with h | h
    · have := hf.sterbenz a c hFa hFc h (by linarith)
      rw [neg_add_eq_sub, hf.fix _ this]; linarith
    · have := hf.mono (-c + a) 0 (by linarith)
      rw [hf.fix 0 hF0] at this; linarith
  · have e1 := hu (x - -c)
    have e2 := hu (2 * c + a1)
    have e3 := hu (-c + a)
    have n1 : |x - -c| ≤ |x| + c := by
      have := abs_add_le x c; rw [abs_of_pos hc] at this; simpa using this
    have n2 : |2 * c + a1| ≤ 4 * c := by rw [abs_of_pos (by linarith)]; linarith
    have n3 : |-c + a| ≤ c := by rw [abs_le]; constructor <;> linarith
    have m1 := mul_le_mul_of_nonneg_left n1 hu0
    have m2 := mul_le_mul_of_nonneg_left n2 hu0
    have m3 := mul_le_mul_of_nonneg_left n3 hu0
    have key : rnd (-c + a) - (x + ((-k1 - k2 + 1 : ℤ) : K) * (2 * c)) =
        (rnd (x - -c) - (x - -c)) + (rnd (2 * c + a1) - (2 * c + a1)) + (rnd (-c + a) - (-c + a)) := by
      push_cast
      have : a1 = rnd (x - -c) - k1 * (2 * c) := by linarith
      have h2 : a = rnd (2 * c + a1) - k2 * (2 * c) := by linarith
      linear_combination h2 + this
    rw [key]
    have := abs_add_three (rnd (x - -c) - (x - -c)) (rnd (2 * c + a1) - (2 * c + a1)) (rnd (-c + a) - (-c + a))
    linarith

end

/-! The 53-bit binary format satisfies `Format`. -/

/-- Numbers with a 53-bit significand (unbounded exponent). -/
def F53 (x : ℚ) : Prop := ∃ m e : ℤ, x = m * 2 ^ e ∧ |m| < 2 ^ 53

theorem F53.neg {x : ℚ} (h : F53 x) : F53 (-x) := by
  obtain ⟨m, e, rfl, hm⟩ := h; exact ⟨-m, e, by push_cast; ring, by rwa [abs_neg]⟩

/-- A number bounded by two representable ones that is an integer combination of them is representable. -/
theorem F53.comb {a b r : ℚ} (ha : F53 a) (hb : F53 b) (k l : ℤ) (hr : r = k * a + l * b) (h1 : |r| ≤ |a|)
    (h2 : |r| ≤ |b|) : F53 r := by
  obtain ⟨m, e, rfl, hm⟩ := ha
  obtain ⟨n, f, rfl, hn⟩ := hb
  have fin : ∀ (p q : ℤ) (g : ℤ), |(p : ℚ) * 2 ^ g| ≤ |(q : ℚ) * 2 ^ g| → |q| < 2 ^ 53 → |p| < 2 ^ 53 := by
    intro p q g h hq
    rw [abs_mul, abs_mul] at h
    have h3 := le_of_mul_le_mul_right h (by rw [abs_of_pos (two_zpow_pos g)]; exact two_zpow_pos g)
    have : |p| ≤ |q| := by exact_mod_cast h3
    omega
  rcases le_total e f with h | h
  · obtain ⟨d, hd⟩ := Int.le.dest h
    have e1 : r = ((k * m + l * n * 2 ^ d : ℤ) : ℚ) * 2 ^ e := by
      rw [hr, ← hd, zpow_add₀ (by norm_num : (2 : ℚ) ≠ 0)]; push_cast; rw [zpow_natCast]; ring
    exact ⟨_, e, e1, fin _ m e (by rw [← e1]; exact h1) hm⟩
  · obtain ⟨d, hd⟩ := Int.le.dest h
    have e1 : r = ((k * m * 2 ^ d + l * n : ℤ) : ℚ) * 2 ^ f := by
      rw [hr, ← hd, zpow_add₀ (by norm_num : (2 : ℚ) ≠ 0)]; push_cast; rw [zpow_natCast]; ring
    exact ⟨_, f, e1, fin _ n f (by rw [← e1]; exact h2) hn⟩

theorem trunc53pos_mem (x : ℚ) (hx : 0 < x) : F53 (trunc53pos x) := by
  refine ⟨⌊x * 2 ^ (52 - Int.log 2 x)⌋, Int.log 2 x - 52, rfl, ?_⟩
  have h0 : 0 ≤ ⌊x * 2 ^ (52 - Int.log 2 x)⌋ := Int.floor_nonneg.mpr (mul_nonneg hx.le (two_zpow_pos _).le)
  rw [abs_of_nonneg h0, Int.floor_lt]
  have h1 := mul_lt_mul_of_pos_right (lt_pow_log x) (two_zpow_pos (52 - Int.log 2 x))
  rw [← zpow_add₀ (by norm_num : (2 : ℚ) ≠ 0)] at h1
  have e : Int.log 2 x + 1 + (52 - Int.log 2 x) = 53 := by ring
  rw [e] at h1
  norm_num at h1 ⊢; exact h1

theorem trunc53pos_fix (x : ℚ) (hx : 0 < x) (h : F53 x) : trunc53pos x = x := by
  obtain ⟨m, e, he, hm⟩ := h
  have hlt : x < 2 ^ (53 + e) := by
    rw [zpow_add₀ (by norm_num : (2 : ℚ) ≠ 0), he]
    apply mul_lt_mul_of_pos_right _ (two_zpow_pos e)
    have := lt_of_le_of_lt (le_abs_self m) hm
    have h2 : (m : ℚ) < ((2 ^ 53 : ℤ) : ℚ) := by exact_mod_cast this
    norm_num at h2 ⊢; exact h2
  have hl : Int.log 2 x < 53 + e := by
    by_contra hc
    have h1 := pow_log_le x hx
    have h2 : (2 : ℚ) ^ (53 + e) ≤ 2 ^ Int.log 2 x := zpow_le_zpow_right₀ (by norm_num) (by omega)
    linarith
  obtain ⟨d, hd⟩ := Int.le.dest (show Int.log 2 x - 52 ≤ e by omega)
  apply trunc53pos_of_multiple x (m * 2 ^ d)
  push_cast
  rw [mul_assoc, ← zpow_natCast, ← zpow_add₀ (by norm_num : (2 : ℚ) ≠ 0)]
  rw [show (d : ℤ) + (Int.log 2 x - 52) = e by omega]; exact he

/-- Non-vacuity of `c49_wrap_float`: 53-bit binary arithmetic rounding toward zero. -/
theorem binary53 : Format F53 trunc53 where
  mem x := by
    rcases lt_trichotomy x 0 with hx | rfl | hx
    · rw [trunc53_neg x hx]; exact (trunc53pos_mem _ (by linarith)).neg
    · rw [trunc53_zero]; exact ⟨0, 0, by simp, by simp⟩
    · rw [trunc53_pos x hx]; exact trunc53pos_mem x hx
  fix x h := by
    rcases lt_trichotomy x 0 with hx | rfl | hx
    · rw [trunc53_neg x hx, trunc53pos_fix _ (by linarith) h.neg, neg_neg]
    · exact trunc53_zero
    · rw [trunc53_pos x hx]; exact trunc53pos_fix x hx h
  mono := FP.trunc53.mono
  neg x h := h.neg
  dbl x h := by
    obtain ⟨m, e, rfl, hm⟩ := h
    exact ⟨m, e + 1, by rw [zpow_add₀ (by norm_num : (2 : ℚ) ≠ 0)]; ring, hm⟩
  sterbenz a b ha hb h1 h2 := by
    have hb0 : 0 ≤ b := by linarith
    refine ha.comb hb 1 (-1) (by push_cast; ring) ?_ ?_
    · rw [abs_of_nonneg (show (0:ℚ) ≤ a by linarith), abs_le]; constructor <;> linarith
    · rw [abs_of_nonneg hb0, abs_le]; constructor <;> linarith
  fmod a b r ha hb h := by
    unfold MathU.fmod at h
    split at h
    · cases h
    rename_i hb0
    cases h
    refine ha.comb hb 1 (-truncZ (a / b)) (by push_cast; ring) ?_ ?_
    all_goals
      have e : a - b * truncZ (a / b) = b * (a / b - truncZ (a / b)) := by field_simp
      rw [e, abs_mul]
    · have h1 : |a| = |b| * |a / b| := by rw [← abs_mul]; congr 1; field_simp
      rw [h1]
      apply mul_le_mul_of_nonneg_left _ (abs_nonneg b)
      unfold truncZ
      split
      · rename_i h0
        have := Int.floor_nonneg.mpr h0
        have h3 : (0 : ℚ) ≤ (⌊a / b⌋ : ℤ) := by exact_mod_cast this
        have := Int.floor_le (a / b)
        rw [abs_of_nonneg h0, abs_of_nonneg (by linarith)]; linarith
      · rename_i h0
        have h0' : a / b < 0 := not_le.mp h0
        have h3 : ((⌈a / b⌉ : ℤ) : ℚ) ≤ 0 := by exact_mod_cast Int.ceil_le.mpr (by simpa using h0'.le)
        have := Int.le_ceil (a / b)
        rw [abs_of_neg h0', abs_of_nonpos (by linarith)]; linarith
    · have := (trunc_abs_le (a / b)).1
      nlinarith [abs_nonneg b]

/-- ... with unit roundoff 2^-52, and 180 is representable: a concrete instance of `c49_wrap_float`. -/
example (x : ℚ) : ∃ w, wrapMinMax trunc53 x (-180) 180 = some w ∧ -180 ≤ w ∧ w < 180 ∧
    ∃ k : ℤ, |w - (x + k * (2 * 180))| ≤ 1 / 4503599627370496 * (|x| + 6 * 180) := by
  refine c49_wrap_float binary53 x 180 _ (by norm_num) ⟨180, 0, by norm_num, by norm_num⟩ ?_ (by norm_num)
  intro y
  rcases lt_trichotomy y 0 with hx | rfl | hx
  · rw [trunc53_neg y hx, abs_of_neg hx]
    have := trunc53pos_err (-y) (by linarith)
    rw [← abs_neg]
    have e : -(-trunc53pos (-y) - y) = trunc53pos (-y) - -y := by ring
    rw [e]; linarith
  · simp [trunc53_zero]
  · rw [trunc53_pos y hx, abs_of_pos hx]
    have := trunc53pos_err y hx; linarith

/-- C49. The named wrappers: `wrapToPi` into `[-π, π)`, `wrapTo180deg` into `[-180, 180)`, `wrapTo360deg` into
`[-360, 360)` (a period of 720). -/
theorem c49_named (x : ℝ) :
    (∃ w, wrapToPi x = some w ∧ -Real.pi ≤ w ∧ w < Real.pi ∧ ∃ k : ℤ, x = w + k * (2 * Real.pi)) ∧
    (∃ w, wrapTo180deg x = some w ∧ -180 ≤ w ∧ w < 180 ∧ ∃ k : ℤ, x = w + k * 360) ∧
    (∃ w, wrapTo360deg x = some w ∧ -360 ≤ w ∧ w < 360 ∧ ∃ k : ℤ, x = w + k * 720) := by
  refine ⟨?_, ?_, ?_⟩
  · obtain ⟨w, h, h0, h1, ⟨k, hk⟩, -⟩ := c49_wrap x (-Real.pi) Real.pi (by linarith [Real.pi_pos])
    exact ⟨w, h, h0, h1, k, by rw [hk]; ring⟩
  · obtain ⟨w, h, h0, h1, ⟨k, hk⟩, -⟩ := c49_wrap x (-180) 180 (by norm_num)
    exact ⟨w, h, h0, h1, k, by rw [hk]; ring⟩
  · obtain ⟨w, h, h0, h1, ⟨k, hk⟩, -⟩ := c49_wrap x (-360) 360 (by norm_num)
    exact ⟨w, h, h0, h1, k, by rw [hk]; ring⟩

/-- C49, finding. `wrapTo2Pi` does not wrap an angle to a 2π range: it uses `M_2_PI` = 2/π, so every angle outside
`[-2/π, 2/π)` is changed, by a multiple of 4/π - not of 2π: no angle in `[1, 2]` comes back as an equivalent angle. -/
theorem c49_wrapTo2Pi_fails (x : ℝ) :
    (∃ w, wrapTo2Pi x = some w ∧ -(2 / Real.pi) ≤ w ∧ w < 2 / Real.pi) ∧
    (1 ≤ x → x ≤ 2 → ∀ w, wrapTo2Pi x = some w → ¬ ∃ k : ℤ, x = w + k * (2 * Real.pi)) := by
  have hpi := Real.pi_pos
  have h3 := Real.pi_gt_three
  have hM : (0:ℝ) < 2 / Real.pi := by positivity
  have hM1 : 2 / Real.pi < 1 := by rw [div_lt_one hpi]; linarith
  obtain ⟨w, hw, h0, h1, -, -⟩ := c49_wrap x (-M_2_PI) M_2_PI (by unfold M_2_PI; linarith)
  unfold M_2_PI at h0 h1
  refine ⟨⟨w, hw, h0, h1⟩, ?_⟩
  rintro hx0 hx2 w' hw' ⟨k, hk⟩
  have : w' = w := by
    have : wrapTo2Pi x = some w := hw
    rw [this] at hw'; exact (Option.some.inj hw').symm
  subst this
  rcases lt_trichotomy k 0 with hk0 | hk0 | hk0
  · have : (k : ℝ) ≤ -1 := by exact_mod_cast Int.le_sub_one_of_lt hk0
    nlinarith
  · subst hk0; simp at hk; linarith
  · have : (1 : ℝ) ≤ k := by exact_mod_cast hk0
    nlinarith

/-- C49. Degrees and radians. -/
theorem c49_deg_rad (x : ℝ) : deg2rad (rad2deg x) = x ∧ rad2deg (deg2rad x) = x ∧ rad2deg Real.pi = 180 := by
  have := Real.pi_ne_zero
  unfold deg2rad rad2deg
  refine ⟨?_, ?_, ?_⟩ <;> field_simp

/-! ## C59 -/

/-- C59. `skew(v) w` is the cross product, `skew_inv` inverts `skew`, and `skew` inverts `skew_inv` exactly on the
antisymmetric matrices. -/
theorem c59_skew (v w : Fin 3 → ℝ) (M : Matrix (Fin 3) (Fin 3) ℝ) :
    (skew v).mulVec w = ![v 1 * w 2 - v 2 * w 1, v 2 * w 0 - v 0 * w 2, v 0 * w 1 - v 1 * w 0] ∧
    (skew v).transpose = -skew v ∧ skewInv (skew v) = v ∧ (skew (skewInv M) = M ↔ M.transpose = -M) := by
  refine ⟨?_, ?_, ?_, ?_⟩
  · ext i; fin_cases i <;> simp [skew, Matrix.mulVec, dotProduct, Fin.sum_univ_three] <;> ring
  · ext i j; fin_cases i <;> fin_cases j <;> simp [skew]
  · ext i; fin_cases i <;> simp [skew, skewInv]
  · constructor
    · intro h
      rw [← h]
      ext i j; fin_cases i <;> fin_cases j <;> simp [skew]
    · intro h
      have hh : ∀ i j, M j i = -M i j := fun i j => congrFun (congrFun h i) j
      have h00 : M 0 0 = 0 := by have := hh 0 0; linarith
      have h11 : M 1 1 = 0 := by have := hh 1 1; linarith
      have h22 : M 2 2 = 0 := by have := hh 2 2; linarith
      ext i j; fin_cases i <;> fin_cases j <;> simp [skew, skewInv, h00, h11, h22, hh 0 1, hh 1 2, hh 2 0]

/-- C59. `OmegaMat(v)` is antisymmetric and squares to `-|v|² I`. -/
theorem c59_omega (v : Fin 3 → ℝ) :
    (omegaMat v).transpose = -omegaMat v ∧
    omegaMat v * omegaMat v = -(v 0 ^ 2 + v 1 ^ 2 + v 2 ^ 2) • (1 : Matrix (Fin 4) (Fin 4) ℝ) := by
  have e : omegaMat v = !![0, -v 0, -v 1, -v 2; v 0, 0, v 2, -v 1; v 1, -v 2, 0, v 0; v 2, v 1, -v 0, 0] := by
    ext i j; fin_cases i <;> fin_cases j <;> simp [omegaMat, skew, Fin.cases, Fin.induction, Fin.induction.go]
  rw [e]
  constructor
  · ext i j; fin_cases i <;> fin_cases j <;> simp
  · ext i j; fin_cases i <;> fin_cases j <;> simp [Matrix.mul_apply, Fin.sum_univ_four, Matrix.one_apply] <;> ring

theorem matExpLoop_spec (A : Matrix (Fin 4) (Fin 4) ℝ) (n k : ℕ) (acc : Matrix (Fin 4) (Fin 4) ℝ) (hk : 1 ≤ k) :
    (n + k ≤ 13 → matExpLoop A n k ((k - 1).factorial : ℤ) acc (A ^ k) =
      .ok (acc + ∑ i ∈ Finset.range n, (1 / ((k + i).factorial : ℝ)) • A ^ (k + i))) ∧
    (k ≤ 13 → 13 < n + k → matExpLoop A n k ((k - 1).factorial : ℤ) acc (A ^ k) = .ub) := by
  induction n generalizing k acc with
  | zero => exact ⟨fun _ => by simp [matExpLoop], fun h h' => by omega⟩
  | succ n ih =>
    have hf : ((k - 1).factorial : ℤ) * k = (k.factorial : ℤ) := by
      obtain ⟨j, rfl⟩ : ∃ j, k = j + 1 := ⟨k - 1, by omega⟩
      simp [Nat.factorial_succ]; ring
    rw [matExpLoop]
    simp only [hf]
    have hpow : A ^ k * A = A ^ (k + 1) := (pow_succ A k).symm
    by_cases h12 : k ≤ 12
    · have hle : k.factorial ≤ 479001600 := by
        have : k.factorial ≤ Nat.factorial 12 := Nat.factorial_le h12
        simpa [Nat.factorial] using this
      have hc : ¬ ((k.factorial : ℤ) < -2147483648 ∨ 2147483647 < (k.factorial : ℤ)) := by omega
      rw [if_neg hc, hpow]
      obtain ⟨i1, i2⟩ := ih (k + 1) (acc + (1 / ((k.factorial : ℤ) : ℝ)) • A ^ k) (by omega)
      rw [show k + 1 - 1 = k by omega] at i1 i2
      refine ⟨fun h => ?_, fun _ h => i2 (by omega) (by omega)⟩
      rw [i1 (by omega), Finset.sum_range_succ']
      congr 1
      simp only [add_zero, Int.cast_natCast, add_assoc, add_left_cancel_iff]
      rw [add_comm]
      congr 1
      apply Finset.sum_congr rfl
      intro i _; rw [show 1 + i = i + 1 by ring]
    · refine ⟨fun h => by omega, fun h _ => ?_⟩
      have : k = 13 := by omega
      subst this
      rw [if_pos]; right; norm_num [Nat.factorial]

/-- C59. `MatExp(A, order)` is the exponential series cut after the power `order` for every `order ≤ 12`; for every
larger order the `int` factorial overflows, which is undefined behaviour. -/
theorem c59_matExp (A : Matrix (Fin 4) (Fin 4) ℝ) (n : ℕ) :
    (n ≤ 12 → matExp A n = .ok (∑ k ∈ Finset.range (n + 1), (1 / (k.factorial : ℝ)) • A ^ k)) ∧
    (12 < n → matExp A n = .ub) := by
  obtain ⟨h1, h2⟩ := matExpLoop_spec A n 1 1 le_rfl
  simp only [Nat.sub_self, Nat.factorial_zero, pow_one, Nat.cast_one] at h1 h2
  unfold matExp
  rw [Int.toNat_natCast]
  refine ⟨fun h => ?_, fun h => h2 (by norm_num) (by omega)⟩
  rw [h1 (by omega), Finset.sum_range_succ']
  congr 1
  rw [add_comm]
  congr 1
  · apply Finset.sum_congr rfl
    intro i _; rw [add_comm]
  · simp

/-! ## C58 -/

/-- The rotation matrix of a quaternion (the usual formula, for unit quaternions). -/
def Quat.rot (q : Quat) : Matrix (Fin 3) (Fin 3) ℝ :=
  !![1 - 2 * (q.y ^ 2 + q.z ^ 2), 2 * (q.x * q.y - q.w * q.z), 2 * (q.x * q.z + q.w * q.y);
     2 * (q.x * q.y + q.w * q.z), 1 - 2 * (q.x ^ 2 + q.z ^ 2), 2 * (q.y * q.z - q.w * q.x);
     2 * (q.x * q.z - q.w * q.y), 2 * (q.y * q.z + q.w * q.x), 1 - 2 * (q.x ^ 2 + q.y ^ 2)]

/-- Rotation by `a` about the x axis. -/
noncomputable def rotX (a : ℝ) : Matrix (Fin 3) (Fin 3) ℝ :=
  !![1, 0, 0; 0, Real.cos a, -Real.sin a; 0, Real.sin a, Real.cos a]
/-- Rotation by `a` about the y axis. -/
noncomputable def rotY (a : ℝ) : Matrix (Fin 3) (Fin 3) ℝ :=
  !![Real.cos a, 0, Real.sin a; 0, 1, 0; -Real.sin a, 0, Real.cos a]
/-- Rotation by `a` about the z axis. -/
noncomputable def rotZ (a : ℝ) : Matrix (Fin 3) (Fin 3) ℝ :=
  !![Real.cos a, -Real.sin a, 0; Real.sin a, Real.cos a, 0; 0, 0, 1]

theorem atan2_polar (c t : ℝ) (hc : 0 < c) (h0 : -Real.pi < t) (h1 : t ≤ Real.pi) :
    atan2 (c * Real.sin t) (c * Real.cos t) = t := by
  have := Complex.arg_mul_cos_add_sin_mul_I hc (θ := t) ⟨h0, h1⟩
  have e : (⟨c * Real.cos t, c * Real.sin t⟩ : ℂ) = (c : ℂ) * (Complex.cos t + Complex.sin t * Complex.I) := by
    apply Complex.ext <;> simp [Complex.cos_ofReal_re, Complex.sin_ofReal_re, Complex.cos_ofReal_im, Complex.sin_ofReal_im]
  unfold atan2
  rw [e, this]

/-- The entries used. -/
theorem rot_entries (q : Quat) (r p y : ℝ) (h : q.rot = rotZ y * rotY p * rotX r) :
    2 * (q.w * q.x + q.y * q.z) = Real.cos p * Real.sin r ∧ 1 - 2 * (q.x * q.x + q.y * q.y) = Real.cos p * Real.cos r ∧
    2 * (q.w * q.z + q.x * q.y) = Real.cos p * Real.sin y ∧ 1 - 2 * (q.y * q.y + q.z * q.z) = Real.cos p * Real.cos y ∧
    2 * (q.w * q.y - q.z * q.x) = Real.sin p := by
  have e := fun i j => congrFun (congrFun h i) j
  have h21 := e 2 1
  have h22 := e 2 2
  have h10 := e 1 0
  have h00 := e 0 0
  have h20 := e 2 0
  simp [Quat.rot, rotX, rotY, rotZ, Matrix.mul_apply, Fin.sum_univ_three] at h21 h22 h10 h00 h20
  refine ⟨?_, ?_, ?_, ?_, ?_⟩ <;> nlinarith

/-- C58. For a quaternion that represents `R = Rz(yaw) Ry(pitch) Rx(roll)` (the convention of math.hpp) away from
gimbal lock, `quat2rpy` returns the roll and the yaw, for all angles; the pitch it returns is `asin(sin(pitch)/2)`. -/
theorem c58_rpy_partial (q : Quat) (r p y : ℝ) (h : q.rot = rotZ y * rotY p * rotX r)
    (hp : -(Real.pi / 2) < p ∧ p < Real.pi / 2) (hr : -Real.pi < r ∧ r ≤ Real.pi) (hy : -Real.pi < y ∧ y ≤ Real.pi) :
    quat2rpy q = (r, Real.arcsin (Real.sin p / 2), y) := by
  obtain ⟨e1, e2, e3, e4, e5⟩ := rot_entries q r p y h
  have hc := Real.cos_pos_of_mem_Ioo ⟨hp.1, hp.2⟩
  unfold quat2rpy
  rw [e1, e2, e3, e4, atan2_polar _ r hc hr.1 hr.2, atan2_polar _ y hc hy.1 hy.2]
  rw [show q.w * q.y - q.z * q.x = Real.sin p / 2 by linarith]

/-- C58, finding. The returned pitch is wrong for every non-zero pitch: its sine is half of the right one. -/
theorem c58_pitch_fails (q : Quat) (r p y : ℝ) (h : q.rot = rotZ y * rotY p * rotX r) :
    Real.sin (quat2rpy q).2.1 = Real.sin p / 2 ∧ (Real.sin p ≠ 0 → (quat2rpy q).2.1 ≠ p) := by
  obtain ⟨-, -, -, -, e5⟩ := rot_entries q r p y h
  have h1 : Real.sin (quat2rpy q).2.1 = Real.sin p / 2 := by
    unfold quat2rpy
    simp only
    rw [show q.w * q.y - q.z * q.x = Real.sin p / 2 by linarith]
    have := Real.neg_one_le_sin p
    have := Real.sin_le_one p
    exact Real.sin_arcsin (by linarith) (by linarith)
  refine ⟨h1, fun hs he => hs ?_⟩
  rw [he] at h1; linarith

/-- A quaternion for every pitch: the hypotheses are met, also with a wrong pitch. -/
example (p : ℝ) : (⟨Real.cos (p / 2), 0, Real.sin (p / 2), 0⟩ : Quat).rot = rotZ 0 * rotY p * rotX 0 := by
  have h1 : Real.cos p = 1 - 2 * Real.sin (p / 2) ^ 2 := by
    have := Real.cos_two_mul (p / 2); have h2 := Real.sin_sq_add_cos_sq (p / 2)
    rw [show 2 * (p / 2) = p by ring] at this; linarith
  have h2 : Real.sin p = 2 * (Real.cos (p / 2) * Real.sin (p / 2)) := by
    have := Real.sin_two_mul (p / 2); rw [show 2 * (p / 2) = p by ring] at this; linarith
  ext i j; fin_cases i <;> fin_cases j <;> simp [Quat.rot, rotX, rotY, rotZ, Matrix.mul_apply, Fin.sum_univ_three, h1, h2]

end MathU
end Ikf
