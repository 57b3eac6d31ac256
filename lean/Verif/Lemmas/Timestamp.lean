import Verif.Model.Timestamp
import Mathlib.Tactic.Linarith
import Mathlib.Tactic.NormNum
import Mathlib.Tactic.Positivity

namespace Ikf

theorem tdiv_tmod (k n : Int) : n * k.tdiv n + k.tmod n = k := Int.mul_tdiv_add_tmod k n

theorem tdiv_eq_of_nonneg (k : Int) (h : 0 ≤ k) : k.tdiv 1000000000 = k / 1000000000 :=
  Int.tdiv_eq_ediv_of_nonneg h

theorem tmod_eq_of_nonneg (k : Int) (h : 0 ≤ k) : k.tmod 1000000000 = k % 1000000000 :=
  Int.tmod_eq_emod_of_nonneg h

/-- On a non-negative stamp the truncating decomposition is the Euclidean one. -/
theorem ofStampNs_nonneg (k : Int) (h : 0 ≤ k) :
    Timestamp.ofStampNs k = ⟨k / 1000000000, k % 1000000000⟩ := by
  simp [Timestamp.ofStampNs, tdiv_eq_of_nonneg k h, tmod_eq_of_nonneg k h]

theorem roundHalfAway_nonneg (x : ℚ) (h : 0 ≤ x) : roundHalfAway x = ⌊x + 1/2⌋ := by
  simp [roundHalfAway, h]

theorem roundHalfAway_mono_nonneg (x y : ℚ) (h : 0 ≤ x) (hxy : x ≤ y) :
    roundHalfAway x ≤ roundHalfAway y := by
  rw [roundHalfAway_nonneg x h, roundHalfAway_nonneg y (le_trans h hxy)]
  exact Int.floor_le_floor (by linarith)

theorem roundHalfAway_zero : roundHalfAway 0 = 0 := by
  rw [roundHalfAway_nonneg 0 le_rfl]; norm_num

theorem roundHalfAway_1e9 : roundHalfAway 1000000000 = 1000000000 := by
  rw [roundHalfAway_nonneg _ (by norm_num)]
  rw [Int.floor_eq_iff]; norm_num

namespace FP

theorem rnd_zero (fp : FP) : fp.rnd 0 = 0 := by
  have := fp.exactInt 0 (by norm_num) (by norm_num); simpa using this

theorem rnd_one (fp : FP) : fp.rnd 1 = 1 := by
  have := fp.exactInt 1 (by norm_num) (by norm_num); simpa using this

theorem rnd_1e9 (fp : FP) : fp.rnd 1000000000 = 1000000000 := by
  have := fp.exactInt 1000000000 (by norm_num) (by norm_num); simpa using this

theorem rnd_nonneg (fp : FP) (x : ℚ) (h : 0 ≤ x) : 0 ≤ fp.rnd x := by
  have := fp.mono 0 x h; rwa [fp.rnd_zero] at this

/-- The nanosecond part before the carry, as computed by `from_sec`. -/
def rawNs (fp : FP) (x : ℚ) : ℤ :=
  roundHalfAway (fp.rnd (fp.rnd (x - fp.rnd ⌊x⌋) * 1000000000))

theorem frac_bounds (fp : FP) (x : ℚ) (hlo : -9007199254740992 ≤ ⌊x⌋) (hhi : ⌊x⌋ ≤ 8589934591) :
    0 ≤ fp.rnd (x - fp.rnd ⌊x⌋) ∧ fp.rnd (x - fp.rnd ⌊x⌋) ≤ 1 := by
  have he : fp.rnd (⌊x⌋ : ℤ) = (⌊x⌋ : ℤ) := fp.exactInt _ hlo (by omega)
  rw [he]
  have h1 := Int.floor_le x
  have h2 := Int.lt_floor_add_one x
  refine ⟨fp.rnd_nonneg _ (by linarith), ?_⟩
  have := fp.mono (x - ⌊x⌋) 1 (by linarith)
  rwa [fp.rnd_one] at this

theorem scaled_bounds (fp : FP) (x : ℚ) (hlo : -9007199254740992 ≤ ⌊x⌋) (hhi : ⌊x⌋ ≤ 8589934591) :
    0 ≤ fp.rnd (fp.rnd (x - fp.rnd ⌊x⌋) * 1000000000) ∧
    fp.rnd (fp.rnd (x - fp.rnd ⌊x⌋) * 1000000000) ≤ 1000000000 := by
  obtain ⟨h0, h1⟩ := fp.frac_bounds x hlo hhi
  refine ⟨fp.rnd_nonneg _ (by positivity), ?_⟩
  have := fp.mono (fp.rnd (x - fp.rnd ⌊x⌋) * 1000000000) 1000000000 (by linarith)
  rwa [fp.rnd_1e9] at this

theorem rawNs_bounds (fp : FP) (x : ℚ) (hlo : -9007199254740992 ≤ ⌊x⌋) (hhi : ⌊x⌋ ≤ 8589934591) :
    0 ≤ fp.rawNs x ∧ fp.rawNs x ≤ 1000000000 := by
  obtain ⟨h0, h1⟩ := fp.scaled_bounds x hlo hhi
  have a := roundHalfAway_mono_nonneg 0 _ le_rfl h0
  have b := roundHalfAway_mono_nonneg _ _ h0 h1
  rw [roundHalfAway_zero] at a
  rw [roundHalfAway_1e9] at b
  exact ⟨a, b⟩

theorem fromSec_eq (fp : FP) (x : ℚ) (hlo : -9007199254740992 ≤ ⌊x⌋) (hhi : ⌊x⌋ ≤ 8589934591) :
    fp.fromSec x = ⟨⌊x⌋ + fp.rawNs x / 1000000000, fp.rawNs x % 1000000000⟩ := by
  have hb := fp.rawNs_bounds x hlo hhi
  have : fp.fromSec x = ⟨⌊x⌋ + (fp.rawNs x).tdiv 1000000000, (fp.rawNs x).tmod 1000000000⟩ := by
    simp [fromSec, rawNs, hhi]
  rw [this, tdiv_eq_of_nonneg _ hb.1, tmod_eq_of_nonneg _ hb.1]

theorem fromSec_ns (fp : FP) (x : ℚ) (hlo : -9007199254740992 ≤ ⌊x⌋) (hhi : ⌊x⌋ ≤ 8589934591) :
    (fp.fromSec x).ns = ⌊x⌋ * 1000000000 + fp.rawNs x := by
  rw [fp.fromSec_eq x hlo hhi]; simp only [Timestamp.ns]; omega

theorem fromSec_ns_mono (fp : FP) (x y : ℚ) (h : x ≤ y) (hlo : -9007199254740992 ≤ ⌊x⌋)
    (hhi : ⌊y⌋ ≤ 8589934591) : (fp.fromSec x).ns ≤ (fp.fromSec y).ns := by
  have hf : ⌊x⌋ ≤ ⌊y⌋ := Int.floor_le_floor h
  rw [fp.fromSec_ns x hlo (by omega), fp.fromSec_ns y (by omega) hhi]
  have hx := fp.rawNs_bounds x hlo (by omega)
  have hy := fp.rawNs_bounds y (by omega) hhi
  rcases lt_or_eq_of_le hf with hlt | heq
  · omega
  · have : fp.rawNs x ≤ fp.rawNs y := by
      unfold rawNs
      rw [heq]
      have hs := (fp.scaled_bounds x hlo (by omega)).1
      rw [heq] at hs
      apply roundHalfAway_mono_nonneg _ _ hs
      apply fp.mono
      have := fp.mono (x - fp.rnd ⌊y⌋) (y - fp.rnd ⌊y⌋) (by linarith)
      linarith
    omega

end FP

theorem Timestamp.lt_iff (a b : Timestamp) :
    Timestamp.lt a b = true ↔ a.sec < b.sec ∨ (a.sec = b.sec ∧ a.nsec < b.nsec) := by
  unfold Timestamp.lt
  split
  · simp [*]
  · split
    · rename_i h1 h2
      simp at h2
      split
      · rename_i h3; simp [h2, h3]
      · rename_i h3; simp [h2, h3]
    · rename_i h1 h2
      simp at h2
      simp [h2, h1]

theorem Timestamp.eq_iff (a b : Timestamp) : Timestamp.eq a b = true ↔ a = b := by
  simp [Timestamp.eq, Timestamp.ext_iff]

/-- Normalised timestamps compare like their exact nanosecond value. -/
theorem Timestamp.lt_iff_ns (a b : Timestamp) (ha : a.Normal) (hb : b.Normal) :
    Timestamp.lt a b = true ↔ a.ns < b.ns := by
  rw [Timestamp.lt_iff]; unfold Timestamp.Normal at ha hb; unfold Timestamp.ns; omega

theorem Timestamp.ext_ns (a b : Timestamp) (ha : a.Normal) (hb : b.Normal) (h : a.ns = b.ns) :
    a = b := by
  unfold Timestamp.Normal at ha hb; unfold Timestamp.ns at h
  ext <;> omega

namespace FP

/-- `to_sec` is monotone in the exact time, for normalised times of moderate size. -/
theorem toSec_mono (fp : FP) (a b : Timestamp) (ha : a.Normal) (hb : b.Normal)
    (hlo : -9007199254740992 ≤ a.sec) (hhi : b.sec ≤ 9007199254740991) (h : a.ns ≤ b.ns) :
    fp.toSec a ≤ fp.toSec b := by
  unfold Timestamp.Normal at ha hb
  unfold Timestamp.ns at h
  have hs : a.sec ≤ b.sec := by omega
  have hc0 : 0 ≤ fp.rnd (1/1000000000) := fp.rnd_nonneg _ (by norm_num)
  have bound : ∀ n : Int, 0 ≤ n → n < 1000000000 →
      0 ≤ fp.rnd (fp.rnd (1/1000000000) * n) ∧ fp.rnd (fp.rnd (1/1000000000) * n) ≤ 
        fp.rnd (fp.rnd (1/1000000000) * 999999999) := by
    intro n h0 h1
    have h0' : (0:ℚ) ≤ n := by exact_mod_cast h0
    have h1' : (n:ℚ) ≤ 999999999 := by exact_mod_cast (by omega : n ≤ 999999999)
    exact ⟨fp.rnd_nonneg _ (by positivity), fp.mono _ _ (mul_le_mul_of_nonneg_left h1' hc0)⟩
  unfold toSec
  apply fp.mono
  rcases lt_or_eq_of_le hs with hlt | heq
  · rw [fp.exactInt a.sec hlo (by omega), fp.exactInt b.sec (by omega) (by omega)]
    have hA := bound a.nsec ha.1 ha.2
    have hB := bound b.nsec hb.1 hb.2
    have hs' : (a.sec : ℚ) + 1 ≤ b.sec := by exact_mod_cast hlt
    -- the fractional part never exceeds one: needs `rnd 1e-9 * 999999999 ≤ 1`
    have hle1 : fp.rnd (fp.rnd (1/1000000000) * 999999999) ≤ 1 := by
      have he := fp.relErr (1/1000000000) (by rw [abs_of_pos (by norm_num)]; norm_num)
      rw [abs_of_pos (by norm_num : (0:ℚ) < 1/1000000000)] at he
      have he2 := (abs_le.mp he).2
      have : fp.rnd (1/1000000000) * 999999999 ≤ 1 := by
        have hx : fp.rnd (1/1000000000) ≤ 1/1000000000 + 1/1000000000/4503599627370496 := by
          linarith
        calc fp.rnd (1/1000000000) * 999999999
            ≤ (1/1000000000 + 1/1000000000/4503599627370496) * 999999999 := by linarith
          _ ≤ 1 := by norm_num
      have := fp.mono _ _ this
      rwa [fp.rnd_one] at this
    linarith
  · rw [heq]
    have : a.nsec ≤ b.nsec := by omega
    have h' : (a.nsec : ℚ) ≤ b.nsec := by exact_mod_cast this
    have := fp.mono _ _ (mul_le_mul_of_nonneg_left h' hc0)
    linarith

end FP
end Ikf
