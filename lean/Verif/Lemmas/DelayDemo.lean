import Verif.Model.DelayDemo
import Verif.Lemmas.FpErr

/-! # The sample times of the example program -/

namespace Ikf
namespace DelayDemo

/-- Durations and rates the theorems cover: up to 11 days, up to 50 kHz. -/
structure Range (a : Args) : Prop where
  dur0 : 1 ≤ a.duration
  dur1 : a.duration ≤ 1000000
  freq1 : a.freq ≤ 50000

variable {fp : FP} {a : Args}

theorem rel1 (fp : FP) (x : ℚ) (h : 1 / 1000000000000000000000000000000 ≤ x) :
    x - x / 4503599627370496 ≤ fp.rnd x ∧ fp.rnd x ≤ x + x / 4503599627370496 := by
  have hx : 0 ≤ x := by linarith [show (0:ℚ) ≤ 1 / 1000000000000000000000000000000 by norm_num]
  have := fp.relErr x (by rwa [abs_of_nonneg hx])
  rw [abs_of_nonneg hx, abs_le] at this
  constructor <;> linarith

theorem size_bounds3 (hr : Range a) : 2 ≤ size fp a ∧ ((size fp a - 1 : ℕ) : ℚ) ≤ dur a * (max 1 a.freq : Int) + 1 ∧
    dur a * (max 1 a.freq : Int) ≤ ((size fp a : ℕ) : ℚ) := by
  obtain ⟨h0, h1, h2⟩ := hr
  set f : Int := max 1 a.freq with hf
  have hf1 : 1 ≤ f := le_max_left _ _
  have hf2 : f ≤ 50000 := by omega
  have qf1 : (1:ℚ) ≤ f := by exact_mod_cast hf1
  have qf2 : (f:ℚ) ≤ 50000 := by exact_mod_cast hf2
  have qd0 : (1:ℚ) ≤ dur a := by unfold dur; exact_mod_cast h0
  have qd1 : dur a ≤ 1000000 := by unfold dur; exact_mod_cast h1
  have inv1 : 1 / 50000 ≤ 1 / (f:ℚ) := one_div_le_one_div_of_le (by linarith) qf2
  have inv2 : 1 / (f:ℚ) ≤ 1 := by rw [div_le_one (by linarith)]; exact qf1
  have es := rel1 fp (1 / (f:ℚ)) (by linarith [show (1:ℚ) / 1000000000000000000000000000000 ≤ 1 / 50000 by norm_num])
  have hs : step fp a = fp.rnd (1 / (f:ℚ)) := rfl
  rw [← hs] at es
  set s := step fp a
  have hs0 : 0 < s := by linarith [show (0:ℚ) < 1 / 50000 - 1 / 4503599627370496 by norm_num]
  have hq : dur a / s * s = dur a := div_mul_cancel₀ _ (ne_of_gt hs0)
  have hfi : (f:ℚ) * (1 / f) = 1 := by field_simp
  -- x = D / s lies between D f (1 - 2e-15) and D f (1 + 2e-15)
  have hx1 : dur a / s ≤ dur a * f * (1 + 1 / 2251799813685248) := by
    rw [div_le_iff₀ hs0]
    have : dur a * f * (1 + 1 / 2251799813685248) * (1 / f - 1 / f / 4503599627370496) =
      dur a * (f * (1 / f)) * ((1 + 1 / 2251799813685248) * (1 - 1 / 4503599627370496)) := by ring
    have h3 : dur a * f * (1 + 1 / 2251799813685248) * (1 / f - 1 / f / 4503599627370496) ≤ dur a * f * (1 + 1 / 2251799813685248) * s :=
      mul_le_mul_of_nonneg_left es.1 (by positivity)
    rw [this, hfi] at h3
    have h4 : dur a * 1 ≤ dur a * 1 * ((1 + 1 / 2251799813685248) * (1 - 1 / 4503599627370496)) :=
      le_mul_of_one_le_right (by linarith) (by norm_num)
    linarith
  have hx2 : dur a * f * (1 - 1 / 4503599627370496) ≤ dur a / s := by
    rw [le_div_iff₀ hs0]
    have h3 : dur a * f * (1 - 1 / 4503599627370496) * s ≤ dur a * f * (1 - 1 / 4503599627370496) * (1 / f + 1 / f / 4503599627370496) :=
      mul_le_mul_of_nonneg_left es.2 (by have : (0:ℚ) ≤ 1 - 1 / 4503599627370496 := by norm_num
                                         positivity)
    have : dur a * f * (1 - 1 / 4503599627370496) * (1 / f + 1 / f / 4503599627370496) =
      dur a * (f * (1 / f)) * ((1 - 1 / 4503599627370496) * (1 + 1 / 4503599627370496)) := by ring
    rw [this, hfi] at h3
    have h4 : dur a * 1 * ((1 - 1 / 4503599627370496) * (1 + 1 / 4503599627370496)) ≤ dur a * 1 :=
      mul_le_of_le_one_right (by linarith) (by norm_num)
    linarith
  have hdf : dur a * f ≤ 50000000000 := by nlinarith
  have hdf1 : 1 ≤ dur a * f := by nlinarith
  set x := dur a / s
  have ex := fp.rnd_err x 60000000000 (by rw [abs_le]; constructor <;> nlinarith)
  have e2 : |fp.rnd (fp.rnd x + 1) - (fp.rnd x + 1)| ≤ 70000000000 / 4503599627370496 + 3/1000000000000000000000000000000 := by
    apply fp.rnd_err
    rw [abs_le] at ex ⊢
    norm_num at ex
    constructor <;> nlinarith
  have hsz : size fp a = ⌊fp.rnd (fp.rnd x + 1)⌋.toNat := rfl
  set y := fp.rnd (fp.rnd x + 1)
  have hlow : 2 ≤ ⌊y⌋ := by
    rcases (by omega : a.duration * f = 1 ∨ 2 ≤ a.duration * f ∨ a.duration * f ≤ 0) with h | h | h
    · have hd : a.duration = 1 := by
        rcases Int.mul_eq_one_iff_eq_one_or_neg_one.mp h with ⟨h5, _⟩ | ⟨h5, _⟩ <;> omega
      have hf' : f = 1 := by rw [hd] at h; omega
      have i1 : fp.rnd 1 = 1 := by have := fp.exactInt 1 (by norm_num) (by norm_num); simpa using this
      have i2 : fp.rnd 2 = 2 := by have := fp.exactInt 2 (by norm_num) (by norm_num); simpa using this
      have : s = 1 := by rw [hs, hf']; norm_num; exact i1
      have hx : x = 1 := by
        show dur a / s = 1
        rw [this]; unfold dur; rw [hd]; norm_num
      have : y = 2 := by
        show fp.rnd (fp.rnd x + 1) = 2
        rw [hx, i1]; norm_num; exact i2
      rw [this]; norm_num
    · have h3 : (2:ℚ) ≤ dur a * f := by unfold dur; exact_mod_cast h
      rw [Int.le_floor]
      rw [abs_le] at ex e2
      norm_num at ex e2 ⊢
      nlinarith
    · have h3 : dur a * f ≤ 0 := by unfold dur; exact_mod_cast h
      linarith
  have hup : (⌊y⌋ : ℚ) ≤ dur a * f + 2 := by
    have h3 := Int.floor_le y
    rw [abs_le] at ex e2
    norm_num at ex e2
    have h4 : (⌊y⌋ : ℚ) < ((a.duration * f + 2 : ℤ) : ℚ) + 1 := by
      push_cast
      change (⌊y⌋ : ℚ) < dur a * f + 2 + 1
      nlinarith
    have h5 : ⌊y⌋ < a.duration * f + 2 + 1 := by exact_mod_cast h4
    have h6 : ⌊y⌋ ≤ a.duration * f + 2 := by omega
    have h7 : (⌊y⌋ : ℚ) ≤ ((a.duration * f + 2 : ℤ) : ℚ) := by exact_mod_cast h6
    push_cast at h7
    exact h7
  have hdown : a.duration * f ≤ ⌊y⌋ := by
    rw [Int.le_floor]
    push_cast
    change dur a * f ≤ y
    rw [abs_le] at ex e2
    norm_num at ex e2
    nlinarith
  refine ⟨by rw [hsz]; omega, ?_, ?_⟩
  swap
  · have h8 : ((size fp a : ℕ) : ℤ) = ⌊y⌋ := by rw [hsz]; omega
    have h9 : a.duration * f ≤ ((size fp a : ℕ) : ℤ) := by rw [h8]; exact hdown
    have h10 : ((a.duration * f : ℤ) : ℚ) ≤ (((size fp a : ℕ) : ℤ) : ℚ) := by exact_mod_cast h9
    push_cast at h10
    exact h10
  have hcast : ((size fp a - 1 : ℕ) : ℤ) = ⌊y⌋ - 1 := by rw [hsz]; omega
  have : ((size fp a - 1 : ℕ) : ℚ) = (⌊y⌋ : ℚ) - 1 := by
    have := congrArg (fun z : ℤ => (z : ℚ)) hcast
    push_cast at this
    simpa using this
  rw [this]; linarith

theorem size_bounds (hr : Range a) : 2 ≤ size fp a ∧ ((size fp a - 1 : ℕ) : ℚ) ≤ dur a * (max 1 a.freq : Int) + 1 :=
  ⟨(size_bounds3 hr).1, (size_bounds3 hr).2.1⟩

/-- The time between two samples (s), without rounding. -/
def gap (fp : FP) (a : Args) : ℚ := dur a / ((size fp a - 1 : ℕ) : ℚ)

theorem gap_bounds (hr : Range a) : 1 / 50001 ≤ gap fp a ∧ gap fp a * ((size fp a - 1 : ℕ) : ℚ) = dur a := by
  obtain ⟨h1, h2⟩ := size_bounds (fp := fp) hr
  obtain ⟨h3, h4, h5⟩ := hr
  have hn : (1:ℚ) ≤ ((size fp a - 1 : ℕ) : ℚ) := by exact_mod_cast (by omega : 1 ≤ size fp a - 1)
  have hf2 : max 1 a.freq ≤ 50000 := by omega
  have qf2 : ((max 1 a.freq : ℤ):ℚ) ≤ 50000 := by exact_mod_cast hf2
  have qd0 : (1:ℚ) ≤ dur a := by unfold dur; exact_mod_cast h3
  set n := ((size fp a - 1 : ℕ) : ℚ)
  refine ⟨?_, div_mul_cancel₀ _ (by linarith)⟩
  unfold gap
  rw [le_div_iff₀ (by linarith)]
  nlinarith

theorem fromSec_int (fp : FP) (k : ℤ) (h0 : 0 ≤ k) (h1 : k ≤ 8589934591) : (fp.fromSec (k : ℚ)).ns = k * 1000000000 := by
  have hz : fp.rnd 0 = 0 := by have := fp.exactInt 0 (by norm_num) (by norm_num); simpa using this
  have hk := fp.exactInt k (by omega) (by omega)
  unfold FP.fromSec
  simp only [Int.floor_intCast, h1, if_true, hk, sub_self, hz, zero_mul]
  have : roundHalfAway 0 = 0 := by unfold roundHalfAway; norm_num
  rw [this]
  simp [Timestamp.ns]

theorem time_last (hr : Range a) : time fp a (size fp a - 1) = a.duration * 1000000000 := by
  obtain ⟨h1, h2⟩ := size_bounds (fp := fp) hr
  unfold time lin
  rw [if_pos (by omega)]
  exact fromSec_int fp a.duration (by have := hr.dur0; omega) (by have := hr.dur1; omega)

theorem time_err (hr : Range a) {k : ℕ} (hk : k ≤ size fp a - 1) : |(time fp a k : ℚ) - k * gap fp a * 1000000000| ≤ 2 := by
  obtain ⟨g1, g2⟩ := gap_bounds (fp := fp) hr
  obtain ⟨s1, -⟩ := size_bounds (fp := fp) hr
  have qd0 : (1:ℚ) ≤ dur a := by unfold dur; exact_mod_cast hr.dur0
  have qd1 : dur a ≤ 1000000 := by unfold dur; exact_mod_cast hr.dur1
  by_cases hlast : k = size fp a - 1
  · rw [hlast, time_last hr, mul_comm ((size fp a - 1 : ℕ) : ℚ), g2]
    unfold dur
    push_cast
    simp
  · have hn : (1:ℚ) ≤ ((size fp a - 1 : ℕ) : ℚ) := by exact_mod_cast (by omega : 1 ≤ size fp a - 1)
    have hkn : (k:ℚ) ≤ ((size fp a - 1 : ℕ) : ℚ) := by exact_mod_cast hk
    have hk0 : (0:ℚ) ≤ k := by positivity
    set n := ((size fp a - 1 : ℕ) : ℚ) with hnd
    set γ := gap fp a with hγ
    have e1 := rel1 fp γ (by linarith [show (1:ℚ) / 1000000000000000000000000000000 ≤ 1 / 50001 by norm_num])
    have hkγ : k * γ ≤ dur a := by rw [← g2]; nlinarith
    have hkγ0 : 0 ≤ k * γ := by nlinarith
    set s := fp.rnd γ with hs
    have b1 : k * s ≤ k * γ + k * γ / 4503599627370496 := by
      have := mul_le_mul_of_nonneg_left e1.2 hk0
      linarith
    have b2 : k * γ - k * γ / 4503599627370496 ≤ k * s := by
      have := mul_le_mul_of_nonneg_left e1.1 hk0
      linarith
    have e2 := fp.rnd_err (k * s) 1000001 (by rw [abs_le]; constructor <;> linarith)
    have hlin : lin fp a k = fp.rnd (k * s) := by
      unfold lin
      rw [if_neg (by omega)]
      rfl
    rw [abs_le] at e2
    norm_num at e2
    set x := fp.rnd (k * s) with hx
    have hx0 : -1 ≤ x := by linarith
    have hx1 : x ≤ 1000001 := by linarith
    have hfl : -1 ≤ ⌊x⌋ := Int.le_floor.mpr (by push_cast; linarith)
    have hfu : ⌊x⌋ ≤ 1000001 := by
      have : (⌊x⌋ : ℚ) ≤ ((1000001 : ℤ) : ℚ) := by push_cast; linarith [Int.floor_le x]
      exact_mod_cast this
    have e3 := fp.fromSec_err x (by omega) (by omega)
    have ht : time fp a k = (fp.fromSec x).ns := by unfold time; rw [hlin]
    rw [ht]
    rw [abs_le] at e3 ⊢
    constructor <;> linarith

theorem time_lt (hr : Range a) {j k : ℕ} (hjk : j < k) (hk : k ≤ size fp a - 1) : time fp a j + 13000 ≤ time fp a k := by
  have e1 := time_err (fp := fp) hr (by omega : j ≤ size fp a - 1)
  have e2 := time_err (fp := fp) hr hk
  obtain ⟨g1, -⟩ := gap_bounds (fp := fp) hr
  rw [abs_le] at e1 e2
  have h1 : (j:ℚ) + 1 ≤ k := by exact_mod_cast hjk
  have h2 : gap fp a ≤ (k - j) * gap fp a := by nlinarith
  have : (((time fp a j + 13000 : ℤ)) : ℚ) ≤ ((time fp a k : ℤ) : ℚ) := by
    push_cast
    nlinarith
  exact_mod_cast this

theorem time_le (hr : Range a) {k : ℕ} (hk : k ≤ size fp a - 1) : time fp a k ≤ a.duration * 1000000000 := by
  rw [← time_last (fp := fp) hr]
  rcases Nat.lt_or_ge k (size fp a - 1) with h | h
  · have := time_lt (fp := fp) hr h (le_refl _); omega
  · rw [(by omega : k = size fp a - 1)]

theorem time_zero : time fp a 0 = 0 := by
  have hz : fp.rnd 0 = 0 := by have := fp.exactInt 0 (by norm_num) (by norm_num); simpa using this
  unfold time lin
  rw [if_neg (by omega)]
  rw [Nat.cast_zero, zero_mul, hz]
  have := fromSec_int fp 0 (le_refl _) (by norm_num)
  simpa using this

theorem time_pos (hr : Range a) {k : ℕ} (h1 : 1 ≤ k) (hk : k ≤ size fp a - 1) : 13000 ≤ time fp a k := by
  have := time_lt (fp := fp) hr (show 0 < k by omega) hk
  rw [time_zero] at this
  omega

/-- The last sample, in seconds, is the duration. -/
theorem sec_last (hr : Range a) : fp.secOfKey (a.duration * 1000000000) = dur a := by
  have hz : fp.rnd 0 = 0 := by have := fp.exactInt 0 (by norm_num) (by norm_num); simpa using this
  have h0 := hr.dur0
  have h1 := hr.dur1
  have hk := fp.exactInt a.duration (by omega) (by omega)
  obtain ⟨hn, hns, hsec⟩ := ofStampNs_normal (a.duration * 1000000000) (by omega)
  have hs : (Timestamp.ofStampNs (a.duration * 1000000000)).sec = a.duration := by rw [hsec]; omega
  have hnn : (Timestamp.ofStampNs (a.duration * 1000000000)).nsec = 0 := by
    unfold Timestamp.ns at hns
    rw [hs] at hns
    omega
  unfold FP.secOfKey FP.toSec
  rw [hs, hnn]
  simp only [Int.cast_zero, mul_zero, hz, add_zero, hk]
  rfl

end DelayDemo
end Ikf
