import Verif.Model.Stats
import Verif.Spec.Stats

/-!
# Statistics of numbers and rounding to digits (C123)
-/

namespace Ikf
namespace Stats

/-- **C123.** The mean of doubles is the arithmetic mean; of none it is not a number. -/
theorem c123_mean (c : List ℝ) : (∀ m, mean c = some m ↔ IsMean c m) ∧ (mean c = none ↔ c = []) := by
  unfold mean IsMean
  by_cases h : c = []
  · subst h; simp
  · have hl : c.length ≠ 0 := by simpa using h
    have hr : (c.length : ℝ) ≠ 0 := by exact_mod_cast hl
    refine ⟨fun m => ?_, by simp [h]⟩
    simp only [hl, if_false, Option.some.injEq, h, ne_eq, not_false_eq_true, true_and]
    rw [div_eq_iff hr, eq_comm]

theorem foldl_sq (m : ℝ) (c : List ℝ) (a : ℝ) :
    c.foldl (fun a d => a + (d - m) ^ 2) a = a + (c.map fun x => (x - m) ^ 2).sum := by
  induction c generalizing a with
  | nil => simp
  | cons x r ih => simp [ih, add_assoc]

theorem sq_sum_nonneg (m : ℝ) (c : List ℝ) : 0 ≤ (c.map fun x => (x - m) ^ 2).sum := by
  induction c with
  | nil => simp
  | cons x r ih => simpa using add_nonneg (sq_nonneg _) ih

/-- **C123.** The standard deviation of two or more doubles is the sample standard deviation; one value has none. -/
theorem c123_stddev (c : List ℝ) (h : 2 ≤ c.length) (s : ℝ) : stddev c = some s ↔ IsStdDev c s := by
  have hl : c.length ≠ 1 := by omega
  have hne : c ≠ [] := by rintro rfl; simp at h
  have hr : (c.length : ℝ) ≠ 0 := by positivity
  have h1 : 0 < (c.length : ℝ) - 1 := by
    have : (2 : ℝ) ≤ c.length := by exact_mod_cast h
    linarith
  have hm : ∀ m, IsMean c m ↔ m = c.sum / c.length := by
    intro m
    unfold IsMean
    rw [eq_div_iff hr]
    exact ⟨fun h => h.2, fun h => ⟨hne, h⟩⟩
  unfold stddev
  simp only [hl, if_false, Option.some.injEq, foldl_sq, zero_add]
  have hq : 0 ≤ (c.map fun x => (x - c.sum / c.length) ^ 2).sum / ((c.length : ℝ) - 1) :=
    div_nonneg (sq_sum_nonneg _ c) h1.le
  unfold IsStdDev
  constructor
  · rintro rfl
    refine ⟨h, Real.sqrt_nonneg _, fun m hmm => ?_⟩
    rw [(hm m).1 hmm, Real.sq_sqrt hq, div_mul_cancel₀ _ h1.ne']
  · rintro ⟨-, h0, e⟩
    have := e _ ((hm _).2 rfl)
    rw [← this, mul_div_cancel_right₀ _ h1.ne', Real.sqrt_sq h0]

/-- **C123.** The spread is zero exactly if all numbers are equal. -/
theorem c123_spread (c : List ℝ) (h : 2 ≤ c.length) : stddev c = some 0 ↔ ∀ x ∈ c, ∀ y ∈ c, x = y := by
  rw [c123_stddev c h]
  have hne : c ≠ [] := by rintro rfl; simp at h
  have hr : (c.length : ℝ) ≠ 0 := by positivity
  have zero : ∀ (m : ℝ) (l : List ℝ), (l.map fun x => (x - m) ^ 2).sum = 0 ↔ ∀ x ∈ l, x = m := by
    intro m l
    induction l with
    | nil => simp
    | cons x r ih =>
      have h1 := sq_nonneg (x - m)
      have h2 := sq_sum_nonneg m r
      simp only [List.map_cons, List.sum_cons, List.forall_mem_cons]
      constructor
      · intro e
        have e1 : (x - m) ^ 2 = 0 := by linarith
        have e2 : (r.map fun x => (x - m) ^ 2).sum = 0 := by linarith
        exact ⟨sub_eq_zero.1 (pow_eq_zero_iff (by norm_num) |>.1 e1), ih.1 e2⟩
      · rintro ⟨e1, e2⟩
        rw [ih.2 e2, e1]; simp
  have hm : IsMean c (c.sum / c.length) := ⟨hne, by rw [div_mul_cancel₀ _ hr]⟩
  constructor
  · rintro ⟨-, -, e⟩
    have := e _ hm
    simp only [ne_eq, OfNat.ofNat_ne_zero, not_false_eq_true, zero_pow, zero_mul] at this
    have := (zero _ c).1 this.symm
    intro x hx y hy
    rw [this x hx, this y hy]
  · intro e
    refine ⟨h, le_rfl, fun m hmm => ?_⟩
    obtain ⟨x, hx⟩ := List.exists_mem_of_ne_nil c hne
    have all : c = List.replicate c.length x := by
      rw [List.eq_replicate_iff]
      exact ⟨rfl, fun y hy => e y hy x hx⟩
    have hs : c.sum = c.length * x := by
      rw [all]; simp
    have : m = x := by
      have h2 := hmm.2
      rw [hs, mul_comm] at h2
      exact mul_left_cancel₀ hr h2
    rw [(zero m c).2 (fun y hy => by rw [this]; exact e y hy x hx)]
    simp

theorem maxElement_spec {K : Type} [LinearOrder K] (x : K) (r : List K) : IsMax (x :: r) (maxElement x r) := by
  unfold maxElement
  induction r generalizing x with
  | nil => exact ⟨by simp, by simp⟩
  | cons y r ih =>
    simp only [List.foldl_cons]
    obtain ⟨h1, h2⟩ := ih (if x < y then y else x)
    constructor
    · rcases List.mem_cons.1 h1 with e | e
      · rw [e]; split <;> simp
      · simp [e]
    · intro z hz
      have hb := h2 (if x < y then y else x) (by simp)
      rcases List.mem_cons.1 hz with rfl | hz
      · refine le_trans ?_ hb
        split
        · exact le_of_lt ‹_›
        · exact le_rfl
      · rcases List.mem_cons.1 hz with rfl | hz
        · refine le_trans ?_ hb
          split
          · exact le_rfl
          · exact not_lt.1 ‹_›
        · exact h2 z (by simp [hz])

theorem minElement_spec {K : Type} [LinearOrder K] (x : K) (r : List K) : IsMin (x :: r) (minElement x r) := by
  unfold minElement
  induction r generalizing x with
  | nil => exact ⟨by simp, by simp⟩
  | cons y r ih =>
    simp only [List.foldl_cons]
    obtain ⟨h1, h2⟩ := ih (if y < x then y else x)
    constructor
    · rcases List.mem_cons.1 h1 with e | e
      · rw [e]; split <;> simp
      · simp [e]
    · intro z hz
      have hb := h2 (if y < x then y else x) (by simp)
      rcases List.mem_cons.1 hz with rfl | hz
      · refine le_trans hb ?_
        split
        · exact le_of_lt ‹_›
        · exact le_rfl
      · rcases List.mem_cons.1 hz with rfl | hz
        · refine le_trans hb ?_
          split
          · exact le_rfl
          · exact not_lt.1 ‹_›
        · exact h2 z (by simp [hz])

/-- **C123.** `max` and `min` of a non-empty container of any ordered type are its largest and smallest element, and the mean
of doubles is between them. -/
theorem c123_extremes {K : Type} [LinearOrder K] (lim : K) (c : List K) (h : c ≠ []) :
    IsMax c (max lim c) ∧ IsMin c (min lim c) := by
  cases c with
  | nil => exact absurd rfl h
  | cons x r => exact ⟨maxElement_spec x r, minElement_spec x r⟩

/-- **C123.** The mean is between the smallest and the largest number. -/
theorem c123_between (lim : ℝ) (c : List ℝ) (m : ℝ) (h : mean c = some m) : min lim c ≤ m ∧ m ≤ max lim c := by
  obtain ⟨hne, hm⟩ := (c123_mean c).1 m |>.1 h
  obtain ⟨h1, h2⟩ := c123_extremes lim c hne
  have hr : 0 < (c.length : ℝ) := by
    have : 0 < c.length := List.length_pos_iff.2 hne
    exact_mod_cast this
  have up := List.sum_le_card_nsmul c (max lim c) h1.2
  have lo := List.card_nsmul_le_sum c (min lim c) h2.2
  rw [nsmul_eq_mul] at up lo
  constructor
  · refine le_of_mul_le_mul_right ?_ hr
    linarith [mul_comm (min lim c) (c.length : ℝ)]
  · refine le_of_mul_le_mul_right ?_ hr
    linarith [mul_comm (max lim c) (c.length : ℝ)]

/-- **C123.** Nothing depends on the order of the numbers. -/
theorem c123_order (lim : ℝ) {c d : List ℝ} (h : c.Perm d) :
    mean c = mean d ∧ stddev c = stddev d ∧ max lim c = max lim d ∧ min lim c = min lim d := by
  refine ⟨?_, ?_, ?_, ?_⟩
  · unfold mean; rw [h.length_eq, h.sum_eq]
  · unfold stddev
    simp only [foldl_sq, h.length_eq, h.sum_eq, (h.map fun x => (x - d.sum / d.length) ^ 2).sum_eq]
  · by_cases hc : c = []
    · subst hc; rw [h.nil_eq]
    · have hd : d ≠ [] := fun e => hc (by subst e; exact h.eq_nil)
      have a := (c123_extremes lim c hc).1
      have b := (c123_extremes lim d hd).1
      exact le_antisymm (b.2 _ (h.mem_iff.1 a.1)) (a.2 _ (h.mem_iff.2 b.1))
  · by_cases hc : c = []
    · subst hc; rw [h.nil_eq]
    · have hd : d ≠ [] := fun e => hc (by subst e; exact h.eq_nil)
      have a := (c123_extremes lim c hc).2
      have b := (c123_extremes lim d hd).2
      exact le_antisymm (a.2 _ (h.mem_iff.2 b.1)) (b.2 _ (h.mem_iff.1 a.1))

/-! ### Rounding -/

theorem cround_near (x : ℝ) : |(cround x : ℝ) - x| ≤ 1 / 2 := by
  unfold cround
  rw [abs_le]
  split
  · have h1 := Int.floor_le (x + 1 / 2)
    have h2 := Int.lt_floor_add_one (x + 1 / 2)
    constructor <;> linarith
  · have h1 := Int.le_ceil (x - 1 / 2)
    have h2 := Int.ceil_lt_add_one (x - 1 / 2)
    constructor <;> linarith

theorem cround_int (k : ℤ) : cround (k : ℝ) = k := by
  unfold cround
  split
  · rw [Int.floor_eq_iff]; constructor <;> linarith
  · rw [Int.ceil_eq_iff]; constructor <;> linarith

theorem cround_mono {x y : ℝ} (h : x ≤ y) : cround x ≤ cround y := by
  unfold cround
  split
  · rw [if_pos (le_trans ‹_› h)]
    exact Int.floor_mono (by linarith)
  · split
    · have h0 : x < 0 := not_le.1 ‹_›
      have h1 : ⌈x - 1 / 2⌉ ≤ 0 := Int.ceil_le.2 (by push_cast; linarith)
      have h2 : 0 ≤ ⌊y + 1 / 2⌋ := Int.le_floor.2 (by push_cast; linarith)
      omega
    · exact Int.ceil_mono (by linarith)

theorem cround_neg (x : ℝ) : cround (-x) = -cround x := by
  unfold cround
  rcases lt_trichotomy x 0 with h | rfl | h
  · rw [if_pos (by linarith), if_neg (by linarith), show -x + 1 / 2 = -(x - 1 / 2) by ring, Int.floor_neg]
  · norm_num
  · rw [if_neg (by linarith), if_pos h.le, show -x - 1 / 2 = -(x + 1 / 2) by ring, Int.ceil_neg]

theorem scale_ok {p : ℕ} (h : p ≤ 19) : scale p = .ok (10 ^ p) := by
  unfold scale
  rw [if_pos]
  exact lt_of_le_of_lt (Nat.pow_le_pow_right (by norm_num) h) (by norm_num)

theorem scale_ub {p : ℕ} (h : 20 ≤ p) : scale p = .ub := by
  unfold scale
  rw [if_neg]
  have := Nat.pow_le_pow_right (n := 10) (by norm_num) h
  have : (2 : ℕ) ^ 64 ≤ 10 ^ 20 := by norm_num
  omega

theorem roundn_eq {p : ℕ} (h : p ≤ 19) (x : ℝ) : roundn x p = .ok ((cround (x * 10 ^ p) : ℝ) / 10 ^ p) := by
  unfold roundn
  rw [scale_ok h]
  show Res.ok _ = _
  push_cast
  rfl

/-- **C123.** With at most 19 digits a double is rounded to a nearest multiple of the last digit; rounding keeps the order,
respects the sign and changes nothing the second time. (Exact arithmetic.) -/
theorem c123_round (x : ℝ) {p : ℕ} (h : p ≤ 19) : ∃ y, roundn x p = .ok y ∧ IsRounded x p y ∧ roundn y p = .ok y ∧
    roundn (-x) p = .ok (-y) ∧ ∀ x' ≥ x, ∃ y' ≥ y, roundn x' p = .ok y' := by
  have hp : (0 : ℝ) < 10 ^ p := by positivity
  refine ⟨_, roundn_eq h x, ⟨⟨_, rfl⟩, ?_⟩, ?_, ?_, fun x' hx => ⟨_, ?_, roundn_eq h x'⟩⟩
  · have := cround_near (x * 10 ^ p)
    rw [le_div_iff₀ hp, ← abs_of_pos hp, ← abs_mul, abs_of_pos hp, sub_mul, div_mul_cancel₀ _ hp.ne']
    exact this
  · rw [roundn_eq h, div_mul_cancel₀ _ hp.ne', cround_int]
  · rw [roundn_eq h, neg_mul, cround_neg]
    push_cast
    rw [neg_div]
  · refine div_le_div_of_nonneg_right ?_ hp.le
    exact_mod_cast cround_mono (mul_le_mul_of_nonneg_right hx hp.le)

/-- **C123 is false of `roundn` with 20 or more digits**: undefined for every number. -/
theorem c123_digits_fails (x : ℝ) {p : ℕ} (h : 20 ≤ p) : roundn x p = .ub := by
  unfold roundn
  rw [scale_ub h]
  rfl

/-- **C123 is false of `roundn` of a negative `int`**: with at most nine digits the result is undefined, although the rounded
value is the number itself. -/
theorem c123_negative_fails {v : ℤ} (hv : v < 0) (hr : -2 ^ 31 ≤ v) {p : ℕ} (hp : p ≤ 9) : roundnInt v p = .ub := by
  unfold roundnInt
  rw [scale_ok (by omega)]
  show (if _ then _ else _) = _
  rw [if_neg]
  have h1 : (1 : ℤ) ≤ 10 ^ p := one_le_pow₀ (by norm_num)
  have h2 : (10 : ℤ) ^ p ≤ 10 ^ 9 := pow_le_pow_right₀ (by norm_num) hp
  have e : (v * ((10 ^ p : ℕ) : ℤ)) % 2 ^ 64 = v * 10 ^ p + 2 ^ 64 := by
    push_cast
    have a : v * 10 ^ p < 0 := mul_neg_of_neg_of_pos hv (by positivity)
    have b : -2 ^ 64 ≤ v * 10 ^ p := by nlinarith
    rw [← Int.add_emod_right, Int.emod_eq_of_lt (by linarith) (by linarith)]
  rw [e, not_lt]
  push_cast
  rw [Int.le_ediv_iff_mul_le (by positivity)]
  have : v * 10 ^ p ≥ -2 ^ 31 * 10 ^ 9 := by nlinarith
  have : (2 : ℤ) ^ 31 * 10 ^ p ≤ 2 ^ 31 * 10 ^ 9 := by nlinarith
  norm_num at *
  linarith

/-- **C123 is false of the mean of `int`s**: it is cut off toward zero, and undefined for an empty container. -/
theorem c123_int_mean_fails : meanInt [0, 1] = .ok 0 ∧ meanInt [0, -1] = .ok 0 ∧ meanInt [] = .ub ∧
    meanInt [2 ^ 31 - 1, 1] = .ub := by
  refine ⟨?_, ?_, ?_, ?_⟩ <;> decide

/-- **C123 is false of `max` of an empty container**: it is the largest number there is, so that the maximum of a container put
together from two is not the larger of the two maxima. (`min` of an empty container is neutral in this sense.) -/
theorem c123_empty_fails {K : Type} [LinearOrder K] (lim : K) (hlim : ∀ x : K, x ≤ lim) (c : List K) :
    (max lim [] = lim) ∧ (max lim c ≠ lim → max lim ([] ++ c) < Max.max (max lim []) (max lim c)) ∧
    min lim ([] ++ c) = Min.min (min lim []) (min lim c) := by
  refine ⟨rfl, fun h => ?_, ?_⟩
  · exact lt_max_of_lt_left (lt_of_le_of_ne (hlim _) h)
  · exact (min_eq_right (hlim _)).symm

/-- **C123 is false of `stddev` of fewer than two values**: of none it is 0, of one it is not a number. -/
theorem c123_few_fails (x : ℝ) : stddev [] = some 0 ∧ stddev [x] = none := by
  simp [stddev]

/-! ### Examples -/

example : mean [1, 2, 6] = some 3 ∧ stddev [1, 2, 6] = some (Real.sqrt 7) := by
  constructor
  · unfold mean; norm_num
  · unfold stddev; norm_num

example : max (100 : ℤ) [3, 7, -2] = 7 ∧ min (100 : ℤ) [3, 7, -2] = -2 := by decide

example : roundn (1.235 : ℝ) 2 = .ok 1.24 := by
  rw [roundn_eq (by norm_num)]
  have : cround ((1.235 : ℝ) * 10 ^ 2) = 124 := by
    unfold cround
    rw [if_pos (by norm_num), Int.floor_eq_iff]
    norm_num
  rw [this]
  norm_num

example : roundnInt 7 3 = .ok 7 ∧ roundnInt (-1) 0 = .ub := by decide

end Stats
end Ikf
