import Verif.Lemmas.Timestamp
import Verif.Lemmas.FloatInstance

/-! # Properties C01-C04: timestamps -/

namespace Ikf
open Timestamp

/-- C01. In-range normalised timestamps: the key exists without overflow, equals the exact number of
nanoseconds, and converts back to the very same timestamp. -/
theorem c01_key_roundtrip (t : Timestamp) (hn : t.Normal) (hr : t.InRange) :
    t.stampNs = .ok (t.sec * 1000000000 + t.nsec) ∧
    ofStampNs (t.sec * 1000000000 + t.nsec) = t := by
  unfold Normal InRange at *
  constructor
  · unfold stampNs
    rw [if_pos (by omega), if_pos (by omega), if_pos (by omega)]
  · rw [ofStampNs_nonneg _ (by omega)]
    ext <;> simp <;> omega

/-- C01. Distinct in-range timestamps never share a key, and key order is time order. -/
theorem c01_key_order (a b : Timestamp) (ha : a.Normal) (hb : b.Normal) (hra : a.InRange)
    (hrb : b.InRange) (ka kb : Int) (hka : a.stampNs = .ok ka) (hkb : b.stampNs = .ok kb) :
    (ka = kb ↔ a = b) ∧ (ka < kb ↔ Timestamp.lt a b = true) := by
  have h1 := (c01_key_roundtrip a ha hra).1
  have h2 := (c01_key_roundtrip b hb hrb).1
  rw [hka] at h1; rw [hkb] at h2
  simp at h1 h2
  rw [lt_iff]
  unfold Normal InRange at *
  constructor
  · constructor
    · intro h; ext <;> omega
    · rintro rfl; omega
  · omega

example : (⟨1720712106, 999999999⟩ : Timestamp).Normal ∧ (⟨1720712106, 999999999⟩ : Timestamp).InRange := by
  decide

/-- C01. Exactly when the error branch and the undefined overflow are taken. -/
theorem c01_key_outcome (t : Timestamp) :
    (t.stampNs = .loggedZero ↔ 9223372036 < t.sec) ∧
    (t.stampNs = .overflow ↔
      t.sec ≤ 9223372036 ∧ (t.sec < -9223372036 ∨
        t.sec * 1000000000 + t.nsec < -9223372036854775808 ∨
        9223372036854775807 < t.sec * 1000000000 + t.nsec)) := by
  unfold stampNs
  constructor
  · split
    · split
      · split <;> simp <;> omega
      · simp; omega
    · simp; omega
  · split
    · split
      · split
        · simp; omega
        · simp; omega
      · simp; omega
    · simp; omega

/-- C01, refutation of the unrestricted claim: every time beyond the limit gets the key of time
zero, so a buffer cannot tell them apart. -/
theorem c01_out_of_range_collides (t : Timestamp) (h : 9223372036 < t.sec) :
    keyOf t.stampNs = keyOf (⟨0, 0⟩ : Timestamp).stampNs ∧ t ≠ ⟨0, 0⟩ := by
  have h1 := (c01_key_outcome t).1.mpr h
  have h2 : (⟨0, 0⟩ : Timestamp).stampNs = .ok 0 := by decide
  rw [h1, h2]
  refine ⟨rfl, ?_⟩
  rintro rfl; simp at h

/-- C01, refutation for normalised times before zero: the key does not convert back. -/
theorem c01_negative_no_roundtrip (t : Timestamp) (hn : t.Normal) (h0 : 0 < t.nsec)
    (hs : t.sec < 0) (hlo : -9223372036 ≤ t.sec) :
    t.stampNs = .ok (t.sec * 1000000000 + t.nsec) ∧
    ofStampNs (t.sec * 1000000000 + t.nsec) = ⟨t.sec + 1, t.nsec - 1000000000⟩ := by
  unfold Normal at hn
  constructor
  · unfold stampNs
    rw [if_pos (by omega), if_pos (by omega), if_pos (by omega)]
  · unfold ofStampNs
    have hd := tdiv_tmod (t.sec * 1000000000 + t.nsec) 1000000000
    have h3 : (t.sec * 1000000000 + t.nsec).tmod 1000000000 ≤ 0 := by
      have := Int.tmod_nonneg (a := -(t.sec * 1000000000 + t.nsec)) 1000000000 (by omega)
      rw [Int.neg_tmod] at this; omega
    have h4 : -1000000000 < (t.sec * 1000000000 + t.nsec).tmod 1000000000 := by
      have := Int.tmod_lt_of_pos (-(t.sec * 1000000000 + t.nsec)) (b := 1000000000) (by omega)
      rw [Int.neg_tmod] at this; omega
    ext <;> simp <;> omega

example : (⟨-1, 500000000⟩ : Timestamp).Normal ∧
    ofStampNs (-500000000) = ⟨0, -500000000⟩ ∧
    Timestamp.eq (ofStampNs (-500000000)) ⟨-1, 500000000⟩ = false := by decide

/-- C02. Trichotomy: exactly one of `<`, `==`, `>` is true. -/
theorem c02_trichotomy (a b : Timestamp) :
    (Timestamp.lt a b = true ∧ Timestamp.eq a b = false ∧ Timestamp.gt a b = false) ∨
    (Timestamp.lt a b = false ∧ Timestamp.eq a b = true ∧ Timestamp.gt a b = false) ∨
    (Timestamp.lt a b = false ∧ Timestamp.eq a b = false ∧ Timestamp.gt a b = true) := by
  have h1 := lt_iff a b
  have h2 := Timestamp.eq_iff a b
  have h3 := @Timestamp.ext_iff a b
  rcases hl : Timestamp.lt a b with _ | _ <;> rcases he : Timestamp.eq a b with _ | _ <;>
    simp [gt, hl, he] at *
  have e := h2; subst e; omega

/-- C02. `<` is a strict order, `>` its converse, `<=` its reflexive closure, `==` is equality. -/
theorem c02_order_laws (a b c : Timestamp) :
    Timestamp.lt a a = false ∧
    (Timestamp.lt a b = true → Timestamp.lt b c = true → Timestamp.lt a c = true) ∧
    (Timestamp.gt a b = Timestamp.lt b a) ∧
    (Timestamp.le a b = true ↔ Timestamp.lt a b = true ∨ a = b) ∧
    (Timestamp.eq a b = true ↔ a = b) := by
  refine ⟨?_, ?_, ?_, ?_, Timestamp.eq_iff a b⟩
  · have := lt_iff a a
    rcases h : Timestamp.lt a a with _ | _
    · rfl
    · rw [h] at this; simp at this
  · simp only [lt_iff]; omega
  · have ht := c02_trichotomy a b
    have h1 := lt_iff a b
    have h2 := lt_iff b a
    have h3 := Timestamp.eq_iff a b
    rcases ht with h | h | h
    · rw [h.2.2]
      symm
      rw [Bool.eq_false_iff, ne_eq, h2]
      have := h1.mp h.1; omega
    · rw [h.2.2]
      have := h3.mp h.2.1; subst this; exact h.1.symm
    · rw [h.2.2]; symm; rw [h2]
      have h5 : ¬ (a.sec < b.sec ∨ a.sec = b.sec ∧ a.nsec < b.nsec) := by
        rw [← h1, h.1]; simp
      have h6 : ¬ (a.sec = b.sec ∧ a.nsec = b.nsec) := by
        intro h7
        have : a = b := Timestamp.ext h7.1 h7.2
        rw [← h3, h.2.1] at this; simp at this
      omega
  · have ht := c02_trichotomy a b
    have h3 := Timestamp.eq_iff a b
    rw [← h3]
    unfold le
    rcases ht with h | h | h <;> simp [h.1, h.2.1, h.2.2]

example : Timestamp.lt ⟨1, -5⟩ ⟨1, 3⟩ = true ∧ Timestamp.lt ⟨1, 3⟩ ⟨2, -7⟩ = true := by decide

/-- C03. Whatever the rounding of doubles, `from_sec` of any value from -2^53 up to the 33-bit limit
gives a normalised timestamp at most one carry above the floor. -/
theorem c03_fromSec_normal (fp : FP) (x : ℚ) (hlo : -9007199254740992 ≤ ⌊x⌋) (hhi : ⌊x⌋ ≤ 8589934591) :
    (fp.fromSec x).Normal ∧ ⌊x⌋ ≤ (fp.fromSec x).sec ∧ (fp.fromSec x).sec ≤ ⌊x⌋ + 1 ∧
    ((fp.fromSec x).sec = ⌊x⌋ + 1 → (fp.fromSec x).nsec = 0) := by
  have hb := fp.rawNs_bounds x hlo hhi
  rw [fp.fromSec_eq x hlo hhi]
  unfold Normal
  refine ⟨⟨?_, ?_⟩, ?_, ?_, ?_⟩ <;> simp <;> omega

/-- C03. `from_sec` is monotone. -/
theorem c03_fromSec_mono (fp : FP) (x y : ℚ) (h : x ≤ y) (hlo : -9007199254740992 ≤ ⌊x⌋)
    (hhi : ⌊y⌋ ≤ 8589934591) : Timestamp.le (fp.fromSec x) (fp.fromSec y) = true := by
  have hf : ⌊x⌋ ≤ ⌊y⌋ := Int.floor_le_floor h
  have hm := fp.fromSec_ns_mono x y h hlo hhi
  have hx := (c03_fromSec_normal fp x hlo (by omega)).1
  have hy := (c03_fromSec_normal fp y (by omega) hhi).1
  rw [(c02_order_laws _ _ ⟨0,0⟩).2.2.2.1]
  rcases lt_or_eq_of_le hm with h1 | h1
  · left; rwa [lt_iff_ns _ _ hx hy]
  · right; exact ext_ns _ _ hx hy h1

/-- C03. Out-of-range and non-finite values become time zero. -/
theorem c03_fromSec_invalid_zero (fp : FP) (x : ℚ) (h : 8589934591 < ⌊x⌋) :
    fp.fromDouble (some x) = ⟨0, 0⟩ ∧ fp.fromDouble none = ⟨0, 0⟩ := by
  constructor
  · simp [FP.fromDouble, FP.fromSec, not_le.mpr h]
  · rfl

/-- C03. Whole seconds are converted exactly. -/
theorem c03_fromSec_int (fp : FP) (n : ℤ) (hlo : -9007199254740992 ≤ n) (hhi : n ≤ 8589934591) :
    fp.fromSec n = ⟨n, 0⟩ := by
  have hf : ⌊(n:ℚ)⌋ = n := Int.floor_intCast n
  rw [fp.fromSec_eq _ (by omega) (by omega)]
  have : fp.rawNs n = 0 := by
    unfold FP.rawNs
    rw [hf, fp.exactInt n hlo (by omega), sub_self, fp.rnd_zero, zero_mul, fp.rnd_zero,
      roundHalfAway_zero]
  rw [this, hf]; simp

/-- C03. `to_sec` is monotone on normalised times. -/
theorem c03_toSec_mono (fp : FP) (a b : Timestamp) (ha : a.Normal) (hb : b.Normal)
    (hlo : -9007199254740992 ≤ a.sec) (hhi : b.sec ≤ 9007199254740991)
    (h : Timestamp.le a b = true) : fp.toSec a ≤ fp.toSec b := by
  apply fp.toSec_mono a b ha hb hlo hhi
  rw [(c02_order_laws _ _ ⟨0,0⟩).2.2.2.1, lt_iff_ns a b ha hb] at h
  rcases h with h | rfl
  · exact h.le
  · exact le_rfl

/-- C03. Subtraction is antitone in its right argument: a longer elapsed time never compares
shorter, whatever the rounding. -/
theorem c03_sub_antitone (fp : FP) (t a b : Timestamp) (ha : a.Normal) (hb : b.Normal)
    (hlo : -9007199254740992 ≤ a.sec) (hhi : b.sec ≤ 9007199254740991)
    (h : Timestamp.le a b = true)
    (h1 : -9007199254740992 ≤ ⌊fp.rnd (fp.toSec t - fp.toSec b)⌋)
    (h2 : ⌊fp.rnd (fp.toSec t - fp.toSec a)⌋ ≤ 8589934591) :
    Timestamp.le (fp.sub t b) (fp.sub t a) = true := by
  have := c03_toSec_mono fp a b ha hb hlo hhi h
  exact c03_fromSec_mono fp _ _ (fp.mono _ _ (by linarith)) h1 h2

/-- The hypotheses are met, and the rounding instance is a genuine 53-bit one. -/
example : -9007199254740992 ≤ ⌊(12345678.9 : ℚ)⌋ ∧ ⌊(12345678.9 : ℚ)⌋ ≤ 8589934591 ∧
    (FP.trunc53).fromSec 7 = ⟨7, 0⟩ := by
  refine ⟨by norm_num, by norm_num, ?_⟩
  have := c03_fromSec_int FP.trunc53 7 (by norm_num) (by norm_num)
  simpa using this

/-- C04. Millisecond stamps round-trip for every integer, of either sign. -/
theorem c04_ms_roundtrip (k : Int) : (ofStampMs k).stampMs = k := by
  unfold ofStampMs stampMs
  have h := tdiv_tmod k 1000
  have : (k.tmod 1000 * 1000000).tdiv 1000000 = k.tmod 1000 := Int.mul_tdiv_cancel _ (by omega)
  simp only [this]; omega

/-- C04. Microsecond stamps round-trip for every integer, of either sign, although the conversion
goes through unsigned arithmetic. -/
theorem c04_us_roundtrip (k : Int) : (ofStampUs k).stampUs = k := by
  have h := tdiv_tmod k 1000000
  have hlo : -1000000 < k.tmod 1000000 ∧ k.tmod 1000000 < 1000000 := by
    rcases Int.le_total 0 k with hk | hk
    · rw [Int.tmod_eq_emod_of_nonneg hk]; omega
    · have h1 := Int.tmod_nonneg (a := -k) 1000000 (by omega)
      have h2 := Int.tmod_lt_of_pos (-k) (b := 1000000) (by omega)
      rw [Int.neg_tmod] at h1 h2; omega
  have e : toI32 ((k.tmod 1000000 % 18446744073709551616 * 1000) % 18446744073709551616)
      = k.tmod 1000000 * 1000 := by
    unfold toI32; omega
  unfold ofStampUs stampUs
  simp only [e]
  rw [Int.mul_tdiv_cancel _ (by omega)]; omega

/-- C04. On normalised non-negative times, `stamp_ms`/`stamp_us` are the key divided down. -/
theorem c04_ms_us_truncate (t : Timestamp) (hn : t.Normal) (_hs : 0 ≤ t.sec) :
    t.stampMs = (t.sec * 1000000000 + t.nsec) / 1000000 ∧
    t.stampUs = (t.sec * 1000000000 + t.nsec) / 1000 := by
  unfold Normal at hn
  unfold stampMs stampUs
  rw [Int.tdiv_eq_ediv_of_nonneg hn.1, Int.tdiv_eq_ediv_of_nonneg hn.1]
  omega

example : (ofStampUs (-1234567)).stampUs = -1234567 := by decide

end Ikf
