import Verif.Model.Stamped
import Verif.Lemmas.FpErr
import Verif.Props.Timestamp

/-! # Property C110: stamped data are ordered by their stamps -/

namespace Ikf
namespace Stamped
variable {α : Type _}

/-! ## Stamped data and timestamps -/

/-- C110. Comparing stamped data is comparing their stamps, whatever the data: exactly one of `<`, `==`, `>` holds; for normalised stamps
that is the order of the times in nanoseconds. -/
theorem c110_order (a b : Stamped α) (ha : a.stamp.Normal) (hb : b.stamp.Normal) :
    (lt a b = true ↔ a.stamp.ns < b.stamp.ns) ∧ (eq a b = true ↔ a.stamp.ns = b.stamp.ns) ∧ (gt a b = true ↔ b.stamp.ns < a.stamp.ns) := by
  have h1 : lt a b = true ↔ a.stamp.ns < b.stamp.ns := Timestamp.lt_iff_ns a.stamp b.stamp ha hb
  have h2 : eq a b = true ↔ a.stamp.ns = b.stamp.ns :=
    (Timestamp.eq_iff a.stamp b.stamp).trans ⟨fun h => by rw [h], Timestamp.ext_ns _ _ ha hb⟩
  refine ⟨h1, h2, ?_⟩
  unfold gt
  rw [Bool.and_eq_true, Bool.not_eq_true', Bool.not_eq_true', Bool.eq_false_iff, Bool.eq_false_iff, ne_eq, ne_eq, h1, h2]
  omega

/-- C110. The order is strict and total up to the data, for all stamps: what `std::sort` and sorted containers require. -/
theorem c110_weak_order (a b c : Stamped α) :
    lt a a = false ∧ (lt a b = true → lt b c = true → lt a c = true) ∧
    (lt a b = false ∧ lt b a = false ↔ a.stamp = b.stamp) ∧ (eq a b = true ↔ a.stamp = b.stamp) ∧ gt a b = lt b a := by
  obtain ⟨h1, h2, h3, -, h5⟩ := c02_order_laws a.stamp b.stamp c.stamp
  refine ⟨h1, h2, ?_, h5, h3⟩
  have i1 := Timestamp.lt_iff a.stamp b.stamp
  have i2 := Timestamp.lt_iff b.stamp a.stamp
  have e := @Timestamp.ext_iff a.stamp b.stamp
  rw [show lt a b = Timestamp.lt a.stamp b.stamp from rfl, show lt b a = Timestamp.lt b.stamp a.stamp from rfl, Bool.eq_false_iff,
    Bool.eq_false_iff, ne_eq, ne_eq, i1, i2, e]
  omega

/-- C110. A timestamp compares like any data with that stamp, on either side. -/
theorem c110_timestamp (a b : Stamped α) :
    ltT a b.stamp = lt a b ∧ eqT a b.stamp = eq a b ∧ gtT a b.stamp = gt a b ∧ tLt a.stamp b = lt a b ∧ (tLt b.stamp a = gtT a b.stamp) := by
  refine ⟨rfl, rfl, rfl, rfl, ?_⟩
  exact ((c110_weak_order a b b).2.2.2.2).symm

/-! ## Times in seconds -/

/-- The comparisons of `a` with the time `d` in seconds, on either side of the operator, are those of its stamp with `d`. -/
def Agrees (fp : FP) (a : Stamped α) (d : ℚ) : Prop :=
  (ltD fp a d = true ↔ (a.stamp.ns : ℚ) / 1000000000 < d) ∧
  (eqD fp a d = true ↔ (a.stamp.ns : ℚ) / 1000000000 = d) ∧
  (gtD fp a d = true ↔ d < (a.stamp.ns : ℚ) / 1000000000) ∧
  (dLt fp d a = true ↔ d < (a.stamp.ns : ℚ) / 1000000000)

/-- C110. They are right for any two times more than 2 microseconds apart. Partial: closer ones are not (`c110_seconds_fails`). -/
theorem c110_seconds_partial (fp : FP) (a : Stamped α) (ha : a.stamp.Normal) (h0 : 0 ≤ a.stamp.sec) (h1 : a.stamp.sec ≤ 8589934592) (d : ℚ)
    (d0 : 0 ≤ d) (d1 : d < 8589934592) (hd : 1 / 500000 < |d - (a.stamp.ns : ℚ) / 1000000000|) : Agrees fp a d := by
  have e1 := fp.toSec_err a.stamp ha h0 h1
  have hf0 : 0 ≤ ⌊d⌋ := Int.floor_nonneg.mpr d0
  have hf1 : ⌊d⌋ ≤ 8589934591 := by
    have : ⌊d⌋ < 8589934592 := Int.floor_lt.mpr (by exact_mod_cast d1)
    omega
  have e2 := fp.fromSec_err d (by omega) hf1
  have hnorm := (c03_fromSec_normal fp d (by omega) hf1).1
  have hlt := Timestamp.lt_iff_ns (fp.fromSec d) a.stamp hnorm ha
  set T : ℚ := (a.stamp.ns : ℚ) / 1000000000 with hT
  have hTn : (a.stamp.ns : ℚ) = T * 1000000000 := by rw [hT]; ring
  rw [abs_le] at e1 e2
  have hl : ltD fp a d = true ↔ T < d := by
    unfold ltD
    rw [decide_eq_true_iff]
    rcases lt_abs.mp hd with h | h
    · exact ⟨fun _ => by linarith, fun _ => by linarith⟩
    · exact ⟨fun _ => by linarith, fun _ => by linarith⟩
  have he : eqD fp a d = true ↔ T = d := by
    unfold eqD
    rw [decide_eq_true_iff]
    rcases lt_abs.mp hd with h | h
    · exact ⟨fun _ => by linarith, fun _ => by linarith⟩
    · exact ⟨fun _ => by linarith, fun _ => by linarith⟩
  refine ⟨hl, he, ?_, ?_⟩
  · unfold gtD
    rw [Bool.and_eq_true, Bool.not_eq_true', Bool.not_eq_true', Bool.eq_false_iff, Bool.eq_false_iff, ne_eq, ne_eq, hl, he]
    constructor
    · rintro ⟨h2, h3⟩
      exact lt_of_le_of_ne (not_lt.mp h3) (fun h => h2 h.symm)
    · intro h
      exact ⟨fun h2 => by linarith, fun h2 => by linarith⟩
  · unfold dLt
    rw [hlt]
    have hq : (fp.fromSec d).ns < a.stamp.ns ↔ ((fp.fromSec d).ns : ℚ) < T * 1000000000 := by
      rw [← hTn]; exact_mod_cast Iff.rfl
    rw [hq]
    rcases lt_abs.mp hd with h | h
    · exact ⟨fun _ => by linarith, fun _ => by linarith⟩
    · exact ⟨fun _ => by linarith, fun _ => by linarith⟩

/-- C110 fails for times that differ by less than a nanosecond: with 1 s and a double just below it, `a > d` is true and `d < a` is false. -/
theorem c110_seconds_fails (fp : FP) (x : α) :
    ∃ d, fp.rnd d = d ∧ gtD fp ⟨x, ⟨1, 0⟩⟩ d = true ∧ dLt fp d (⟨x, ⟨1, 0⟩⟩ : Stamped α) = false := by
  have e := fp.rnd_err (9999999999 / 10000000000) 1 (by norm_num [abs_le])
  have hle : fp.rnd (9999999999 / 10000000000) ≤ 1 := by
    have := fp.mono (9999999999 / 10000000000) 1 (by norm_num)
    rwa [FP.rnd_one] at this
  set d := fp.rnd (9999999999 / 10000000000) with hd
  rw [abs_le] at e
  norm_num at e
  have hlt : d < 1 := by linarith
  have hd0 : 0 ≤ d := by linarith
  have hfl : ⌊d⌋ = 0 := by rw [Int.floor_eq_iff]; constructor <;> push_cast <;> linarith
  have hdd : fp.rnd d = d := by rw [hd, fp.idem]
  refine ⟨d, hdd, ?_, ?_⟩
  · have ht : fp.toSec ⟨1, 0⟩ = 1 := by
      unfold FP.toSec
      simp [FP.rnd_zero, FP.rnd_one]
    unfold gtD eqD ltD
    simp only [ht]
    simp
    exact ⟨ne_of_gt hlt, hlt.le⟩
  · have hs : fp.fromSec d = ⟨1, 0⟩ := by
      unfold FP.fromSec
      simp only [hfl]
      rw [if_pos (by norm_num)]
      have hx : fp.rnd (d - fp.rnd ((0 : ℤ) : ℚ)) = d := by
        rw [Int.cast_zero, FP.rnd_zero, sub_zero, hdd]
      rw [hx]
      have e2 := fp.rnd_err (d * 1000000000) 1000000000 (by rw [abs_of_nonneg (by positivity)]; linarith)
      rw [abs_le] at e2
      norm_num at e2
      have hup : fp.rnd (d * 1000000000) ≤ 1000000000 := by
        have := fp.mono (d * 1000000000) 1000000000 (by linarith)
        rwa [FP.rnd_1e9] at this
      have hr : roundHalfAway (fp.rnd (d * 1000000000)) = 1000000000 := by
        rw [roundHalfAway_nonneg _ (by linarith), Int.floor_eq_iff]
        constructor <;> push_cast <;> linarith
      rw [hr]
      rfl
    unfold dLt
    rw [hs]
    rfl

/-! ## Examples -/

example : lt ⟨"b", ⟨1, 5⟩⟩ (⟨"a", ⟨2, 0⟩⟩ : Stamped String) = true ∧ eq ⟨"b", ⟨1, 5⟩⟩ (⟨"a", ⟨1, 5⟩⟩ : Stamped String) = true := by decide

example (fp : FP) : Agrees fp (⟨"a", ⟨2, 0⟩⟩ : Stamped String) 1 :=
  c110_seconds_partial fp _ (by constructor <;> norm_num) (by norm_num) (by norm_num) 1 (by norm_num) (by norm_num)
    (by norm_num [Timestamp.ns])

end Stamped
end Ikf
