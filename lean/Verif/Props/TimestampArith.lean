import Verif.Lemmas.FpErr
import Verif.Lemmas.FloatInstance
import Mathlib.Tactic.Linarith

/-! # Property C65: sums and differences of timestamps -/

namespace Ikf
open Timestamp

/-- C65. `is_zero` answers for the zero stamp only, which among normalised stamps is the one whose
time is zero nanoseconds. -/
theorem c65_is_zero (t : Timestamp) :
    (t.isZero = true ↔ t.sec = 0 ∧ t.nsec = 0) ∧
    (t.Normal → (t.isZero = true ↔ t.sec * 1000000000 + t.nsec = 0)) := by
  have h : t.isZero = true ↔ t.sec = 0 ∧ t.nsec = 0 := by unfold isZero; simp
  refine ⟨h, fun hn => ?_⟩
  rw [h]; unfold Normal at hn; omega

theorem floor_range (x : ℚ) (lo hi : ℤ) (h1 : (lo:ℚ) ≤ x) (h2 : x < hi) :
    lo ≤ ⌊x⌋ ∧ ⌊x⌋ ≤ hi - 1 := by
  constructor
  · exact Int.le_floor.mpr h1
  · have : ⌊x⌋ < hi := Int.floor_lt.mpr h2
    omega

/-- C65. Whatever the rounding of the doubles, the sum of two stamps is within 10 microseconds of the
exact sum (sums below 2^33-1 s). -/
theorem c65_add_error (fp : FP) (a b : Timestamp) (ha : a.Normal) (hb : b.Normal) (ha0 : 0 ≤ a.sec)
    (hb0 : 0 ≤ b.sec) (hs : a.sec + b.sec ≤ 8589934588) :
    |(fp.add a b).ns - (a.ns + b.ns)| ≤ 10000 := by
  have ea := fp.toSec_err a ha ha0 (by omega)
  have eb := fp.toSec_err b hb hb0 (by omega)
  unfold Normal at ha hb
  have hna : (a.ns : ℚ) = a.sec * 1000000000 + a.nsec := by unfold ns; push_cast; ring
  have hnb : (b.ns : ℚ) = b.sec * 1000000000 + b.nsec := by unfold ns; push_cast; ring
  have q1 : (0:ℚ) ≤ a.sec := by exact_mod_cast ha0
  have q2 : (0:ℚ) ≤ b.sec := by exact_mod_cast hb0
  have q3 : (a.sec:ℚ) + b.sec ≤ 8589934588 := by exact_mod_cast hs
  have q4 : (0:ℚ) ≤ a.nsec ∧ (a.nsec:ℚ) < 1000000000 := by exact_mod_cast ha
  have q5 : (0:ℚ) ≤ b.nsec ∧ (b.nsec:ℚ) < 1000000000 := by exact_mod_cast hb
  set x := fp.toSec a with hx
  set y := fp.toSec b with hy
  rw [abs_le] at ea eb
  have er := fp.rnd_err (x + y) 8589934592 (by rw [abs_le]; constructor <;> linarith [ea.1, ea.2, eb.1, eb.2])
  rw [abs_le] at er
  norm_num at ea eb er
  set z := fp.rnd (x + y) with hz
  obtain ⟨f1, f2⟩ := floor_range z (-1) 8589934591 (by push_cast; linarith) (by push_cast; linarith)
  have ef := fp.fromSec_err z (by omega) (by omega)
  rw [abs_le] at ef
  have hadd : fp.add a b = fp.fromSec z := rfl
  rw [hadd, abs_le]
  have g1 : (-10000 : ℚ) ≤ (((fp.fromSec z).ns - (a.ns + b.ns) : ℤ) : ℚ) := by push_cast; linarith
  have g2 : (((fp.fromSec z).ns - (a.ns + b.ns) : ℤ) : ℚ) ≤ 10000 := by push_cast; linarith
  exact ⟨by exact_mod_cast g1, by exact_mod_cast g2⟩

/-- C65. The difference of two stamps is within 10 microseconds of the exact difference, in both
signs. -/
theorem c65_sub_error (fp : FP) (a b : Timestamp) (ha : a.Normal) (hb : b.Normal) (ha0 : 0 ≤ a.sec)
    (hb0 : 0 ≤ b.sec) (ha1 : a.sec ≤ 8589934588) (hb1 : b.sec ≤ 8589934588) :
    |(fp.sub a b).ns - (a.ns - b.ns)| ≤ 10000 := by
  have ea := fp.toSec_err a ha ha0 (by omega)
  have eb := fp.toSec_err b hb hb0 (by omega)
  unfold Normal at ha hb
  have hna : (a.ns : ℚ) = a.sec * 1000000000 + a.nsec := by unfold ns; push_cast; ring
  have hnb : (b.ns : ℚ) = b.sec * 1000000000 + b.nsec := by unfold ns; push_cast; ring
  have q1 : (0:ℚ) ≤ a.sec := by exact_mod_cast ha0
  have q2 : (0:ℚ) ≤ b.sec := by exact_mod_cast hb0
  have q3 : (a.sec:ℚ) ≤ 8589934588 := by exact_mod_cast ha1
  have q3' : (b.sec:ℚ) ≤ 8589934588 := by exact_mod_cast hb1
  have q4 : (0:ℚ) ≤ a.nsec ∧ (a.nsec:ℚ) < 1000000000 := by exact_mod_cast ha
  have q5 : (0:ℚ) ≤ b.nsec ∧ (b.nsec:ℚ) < 1000000000 := by exact_mod_cast hb
  set x := fp.toSec a with hx
  set y := fp.toSec b with hy
  rw [abs_le] at ea eb
  have er := fp.rnd_err (x - y) 8589934592 (by rw [abs_le]; constructor <;> linarith [ea.1, ea.2, eb.1, eb.2])
  rw [abs_le] at er
  norm_num at ea eb er
  set z := fp.rnd (x - y) with hz
  obtain ⟨f1, f2⟩ := floor_range z (-8589934592) 8589934591 (by push_cast; linarith) (by push_cast; linarith)
  have ef := fp.fromSec_err z (by omega) (by omega)
  rw [abs_le] at ef
  have hadd : fp.sub a b = fp.fromSec z := rfl
  rw [hadd, abs_le]
  have g1 : (-10000 : ℚ) ≤ (((fp.fromSec z).ns - (a.ns - b.ns) : ℤ) : ℚ) := by push_cast; linarith
  have g2 : (((fp.fromSec z).ns - (a.ns - b.ns) : ℤ) : ℚ) ≤ 10000 := by push_cast; linarith
  exact ⟨by exact_mod_cast g1, by exact_mod_cast g2⟩

/-- C65. A stamp minus itself is the zero stamp, whatever the rounding. -/
theorem c65_sub_self (fp : FP) (a : Timestamp) : (fp.sub a a).isZero = true := by
  unfold FP.sub
  have h0 : fp.rnd (fp.toSec a - fp.toSec a) = 0 := by
    rw [sub_self]; simpa using fp.exactInt 0 (by norm_num) (by norm_num)
  have h1 : fp.rnd (0:ℚ) = 0 := by simpa using fp.exactInt 0 (by norm_num) (by norm_num)
  rw [h0]
  unfold FP.fromSec isZero
  have h2 : ⌊(2:ℚ)⁻¹⌋ = 0 := by rw [Int.floor_eq_iff]; norm_num
  simp [h1, roundHalfAway, h2]

/-- C65. Addition commutes, whatever the rounding. -/
theorem c65_add_comm (fp : FP) (a b : Timestamp) : fp.add a b = fp.add b a := by
  unfold FP.add; rw [add_comm]

/-- C65. In exact arithmetic sums and differences are exact. -/
theorem c65_exact (a b : Timestamp) (ha : a.Normal) (hb : b.Normal) (ha0 : 0 ≤ a.sec)
    (hb0 : 0 ≤ b.sec) (hs : a.sec + b.sec ≤ 8589934588) :
    (FP.exact.add a b).ns = a.ns + b.ns ∧ (FP.exact.sub a b).ns = a.ns - b.ns := by
  unfold Normal at ha hb
  unfold FP.add FP.sub
  rw [FP.exact_rnd, FP.exact_rnd, FP.exact_toSec, FP.exact_toSec]
  constructor
  · have : (a.ns:ℚ) / 1000000000 + (b.ns:ℚ) / 1000000000 = ((a.ns + b.ns : ℤ) : ℚ) / 1000000000 := by
      push_cast; ring
    rw [this, FP.exact_fromSec_ns] <;> unfold ns <;> omega
  · have : (a.ns:ℚ) / 1000000000 - (b.ns:ℚ) / 1000000000 = ((a.ns - b.ns : ℤ) : ℚ) / 1000000000 := by
      push_cast; ring
    rw [this, FP.exact_fromSec_ns] <;> unfold ns <;> omega

example : (⟨1720712106, 999999999⟩ : Timestamp).Normal ∧ (⟨3, 500000000⟩ : Timestamp).Normal ∧
    (1720712106 + 3 : Int) ≤ 8589934588 := by decide

end Ikf
