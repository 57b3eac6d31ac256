import Verif.Lemmas.Timestamp
import Mathlib.Tactic.Positivity
import Mathlib.Tactic.Linarith

/-! Absolute error bounds of the double conversions, from the `FP` axioms alone. -/

namespace Ikf
namespace FP

theorem rnd_err_tiny (fp : FP) (x : ℚ) (h : |x| < 1/1000000000000000000000000000000) :
    |fp.rnd x - x| ≤ 3/1000000000000000000000000000000 := by
  rw [abs_lt] at h
  have e1 := fp.relErr (1/1000000000000000000000000000000) (by rw [abs_of_pos (by norm_num)])
  have e2 := fp.relErr (-(1/1000000000000000000000000000000)) (by rw [abs_neg, abs_of_pos (by norm_num)])
  rw [abs_of_pos (by norm_num : (0:ℚ) < 1/1000000000000000000000000000000)] at e1
  rw [abs_neg, abs_of_pos (by norm_num : (0:ℚ) < 1/1000000000000000000000000000000)] at e2
  rw [abs_le] at e1 e2
  have m1 := fp.mono x _ h.2.le
  have m2 := fp.mono _ x h.1.le
  rw [abs_le]
  norm_num at *
  constructor <;> linarith

theorem rnd_err (fp : FP) (x B : ℚ) (h : |x| ≤ B) :
    |fp.rnd x - x| ≤ B / 4503599627370496 + 3/1000000000000000000000000000000 := by
  have hB : 0 ≤ B := le_trans (abs_nonneg x) h
  by_cases hx : |x| < 1/1000000000000000000000000000000
  · have := fp.rnd_err_tiny x hx
    have : 0 ≤ B / 4503599627370496 := by positivity
    linarith
  · have := fp.relErr x (not_lt.mp hx)
    have h2 : |x| / 4503599627370496 ≤ B / 4503599627370496 := by
      apply div_le_div_of_nonneg_right h; norm_num
    have : (0:ℚ) ≤ 3/1000000000000000000000000000000 := by norm_num
    linarith

/-- `to_sec` is within 2 microseconds of the exact time for every stamp below 2^33 s. -/
theorem toSec_err (fp : FP) (t : Timestamp) (hn : t.Normal) (h0 : 0 ≤ t.sec) (h1 : t.sec ≤ 8589934592) :
    |fp.toSec t - (t.ns : ℚ) / 1000000000| ≤ 1/500000 := by
  unfold Timestamp.Normal at hn
  have hs : fp.rnd (t.sec : ℚ) = t.sec := fp.exactInt t.sec (by omega) (by omega)
  have hn0 : (0:ℚ) ≤ t.nsec := by exact_mod_cast hn.1
  have hn1 : (t.nsec:ℚ) ≤ 1000000000 := by exact_mod_cast hn.2.le
  have hs0 : (0:ℚ) ≤ t.sec := by exact_mod_cast h0
  have hs1 : (t.sec:ℚ) ≤ 8589934592 := by exact_mod_cast h1
  set c := fp.rnd (1/1000000000) with hc
  have hce := fp.rnd_err (1/1000000000) (1/1000000000) (by rw [abs_of_pos (by norm_num)])
  rw [← hc, abs_le] at hce
  have hc0 : 0 ≤ c := fp.rnd_nonneg _ (by norm_num)
  have hp0 : 0 ≤ c * t.nsec := by positivity
  have hcs : c ≤ 1/999999999 := by norm_num at hce ⊢; linarith
  have hp1 : c * t.nsec ≤ 2 := by nlinarith
  have hpe : |c * t.nsec - t.nsec / 1000000000| ≤ 1/1000000000000 := by
    have : c * t.nsec - t.nsec / 1000000000 = (c - 1/1000000000) * t.nsec := by ring
    rw [this, abs_le]
    norm_num at hce ⊢
    constructor <;> nlinarith
  set p := fp.rnd (c * t.nsec) with hpdef
  have hpr := fp.rnd_err (c * t.nsec) 2 (by rw [abs_of_nonneg hp0]; exact hp1)
  rw [← hpdef, abs_le] at hpr
  have hp' : 0 ≤ p := fp.rnd_nonneg _ hp0
  have hsum := fp.rnd_err (t.sec + p) 8589934595 (by
    rw [abs_of_nonneg (by positivity)]; norm_num at hpr; linarith)
  have hts : fp.toSec t = fp.rnd (t.sec + p) := by unfold toSec; rw [hs]
  have hns : (t.ns : ℚ) / 1000000000 = t.sec + t.nsec / 1000000000 := by
    unfold Timestamp.ns; push_cast; ring
  rw [hts, hns]
  rw [abs_le] at hsum hpe ⊢
  norm_num at hsum hpe hpr ⊢
  constructor <;> linarith

theorem roundHalfAway_err (x : ℚ) (h : 0 ≤ x) : |(roundHalfAway x : ℚ) - x| ≤ 1/2 := by
  rw [roundHalfAway_nonneg x h]
  have h1 := Int.floor_le (x + 1/2)
  have h2 := Int.lt_floor_add_one (x + 1/2)
  rw [abs_le]; constructor <;> linarith

/-- `from_sec` is within one nanosecond of its argument. -/
theorem fromSec_err (fp : FP) (x : ℚ) (hlo : -9007199254740992 ≤ ⌊x⌋) (hhi : ⌊x⌋ ≤ 8589934591) :
    |((fp.fromSec x).ns : ℚ) - x * 1000000000| ≤ 1 := by
  rw [fp.fromSec_ns x hlo hhi]
  have he : fp.rnd (⌊x⌋ : ℤ) = (⌊x⌋ : ℤ) := fp.exactInt _ hlo (by omega)
  have h1 := Int.floor_le x
  have h2 := Int.lt_floor_add_one x
  obtain ⟨f0, f1⟩ := fp.frac_bounds x hlo hhi
  obtain ⟨s0, s1⟩ := fp.scaled_bounds x hlo hhi
  unfold rawNs
  rw [he] at *
  set f := fp.rnd (x - (⌊x⌋:ℤ)) with hf
  have e1 := fp.rnd_err (x - (⌊x⌋:ℤ)) 1 (by rw [abs_of_nonneg (by linarith)]; linarith)
  rw [← hf] at e1
  have e2 := fp.rnd_err (f * 1000000000) 1000000000 (by rw [abs_of_nonneg (by positivity)]; linarith)
  have e3 := roundHalfAway_err _ s0
  rw [abs_le] at e1 e2 e3 ⊢
  have hfr : Int.fract x = x - (⌊x⌋:ℤ) := rfl
  push_cast
  norm_num at e1 e2 e3 ⊢
  rw [hfr] at e1
  constructor <;> linarith

/-- Exact rounding: `from_sec` of a whole number of nanoseconds is that number. -/
theorem exact_fromSec_ns (d : ℤ) (hlo : -9007199254740992 * 1000000000 ≤ d)
    (hhi : d < 8589934592 * 1000000000) :
    (FP.exact.fromSec ((d : ℚ) / 1000000000)).ns = d := by
  have hfl : ⌊(d:ℚ) / 1000000000⌋ = d / 1000000000 := by
    have := Rat.floor_intCast_div_natCast d 1000000000
    simpa using this
  rw [fromSec_ns _ _ (by omega) (by omega)]
  unfold rawNs FP.exact
  simp only [id]
  rw [hfl]
  have hm : ((d:ℚ) / 1000000000 - ((d / 1000000000 : ℤ) : ℚ)) * 1000000000 = ((d % 1000000000 : ℤ) : ℚ) := by
    have h : d = 1000000000 * (d / 1000000000) + d % 1000000000 := by omega
    have hq : (d:ℚ) = 1000000000 * ((d / 1000000000 : ℤ):ℚ) + ((d % 1000000000 : ℤ):ℚ) := by exact_mod_cast h
    rw [sub_mul]; linarith
  rw [hm, roundHalfAway_nonneg _ (by exact_mod_cast (by omega : 0 ≤ d % 1000000000))]
  have : ⌊((d % 1000000000 : ℤ):ℚ) + 1/2⌋ = d % 1000000000 := by
    rw [Int.floor_eq_iff]; constructor <;> linarith
  rw [this]; omega

theorem exact_rnd (x : ℚ) : FP.exact.rnd x = x := rfl

theorem exact_toSec (t : Timestamp) : FP.exact.toSec t = (t.ns : ℚ) / 1000000000 := by
  unfold toSec FP.exact Timestamp.ns; simp only [id]; push_cast; ring

end FP

theorem ofStampNs_normal (k : Int) (h : 0 ≤ k) :
    (Timestamp.ofStampNs k).Normal ∧ (Timestamp.ofStampNs k).ns = k ∧
    (Timestamp.ofStampNs k).sec = k / 1000000000 := by
  rw [ofStampNs_nonneg k h]; unfold Timestamp.Normal Timestamp.ns
  refine ⟨⟨?_, ?_⟩, ?_, rfl⟩ <;> simp only <;> omega

theorem FP.secOfKey_err (fp : FP) (k : Int) (h0 : 0 ≤ k) (h1 : k ≤ 8589934592000000000) :
    |fp.toSec (Timestamp.ofStampNs k) - (k:ℚ) / 1000000000| ≤ 1/500000 := by
  obtain ⟨h, h2, h3⟩ := ofStampNs_normal k h0
  have := fp.toSec_err (Timestamp.ofStampNs k) h (by rw [h3]; omega) (by rw [h3]; omega)
  rwa [h2] at this

end Ikf
