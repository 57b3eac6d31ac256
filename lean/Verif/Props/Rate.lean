import Verif.Model.Rate
import Verif.Lemmas.FpErr

/-! # Property C91: the rate -/

namespace Ikf
namespace Rate

/-! ## Specification -/

/-- A cycle on a clock that does not go back: less than 24 days of work, and the thread never wakes up early. -/
def Steady (p : Int × Int) : Prop := 0 ≤ p.1 ∧ p.1 < 2147483648 * 1000000 ∧ 0 ≤ p.2

/-- At most `hz` cycles per second: `n` cycles take `n / hz` seconds at least. -/
def Limits (hz : ℚ) (period : ℕ) : Prop :=
  ∀ start L, (∀ p ∈ L, Steady p) → (L.length : ℚ) / hz * 1000000000 ≤ (loop period start L - start : Int)

/-! ## The period -/

/-- C91. The period is the wanted one in whole milliseconds, one less than 1 ms away; for 0 there is none. -/
theorem c91_period (fp : FP) (hz : ℚ) (h : 1 / 4294967 ≤ hz) : ∃ n, setRate fp hz = .ok n ∧ ⌊1000 / hz⌋ ≤ n ∧ n ≤ ⌈1000 / hz⌉ := by
  have h0 : 0 < hz := by linarith [show (0:ℚ) < 1 / 4294967 by norm_num]
  have hx0 : 0 ≤ 1000 / hz := by positivity
  have hx1 : 1000 / hz ≤ 4294967000 := by
    rw [div_le_iff₀ h0]; linarith
  have hr0 : 0 ≤ fp.rnd (1000 / hz) := FP.rnd_nonneg fp _ hx0
  have hfl0 : 0 ≤ ⌊1000 / hz⌋ := Int.floor_nonneg.mpr hx0
  have hce1 : ⌈1000 / hz⌉ ≤ 4294967000 := Int.ceil_le.mpr (by exact_mod_cast hx1)
  have hfc : ⌊1000 / hz⌋ ≤ ⌈1000 / hz⌉ := Int.floor_le_ceil _
  have hlo : (⌊1000 / hz⌋ : ℚ) ≤ fp.rnd (1000 / hz) := by
    rw [← fp.exactInt ⌊1000 / hz⌋ (by omega) (by omega)]
    exact fp.mono _ _ (Int.floor_le _)
  have hhi : fp.rnd (1000 / hz) ≤ (⌈1000 / hz⌉ : ℚ) := by
    rw [← fp.exactInt ⌈1000 / hz⌉ (by omega) (by omega)]
    exact fp.mono _ _ (Int.le_ceil _)
  have hce1' : (⌈1000 / hz⌉ : ℚ) ≤ 4294967000 := by exact_mod_cast hce1
  refine ⟨⌊fp.rnd (1000 / hz)⌋.toNat, ?_, ?_, ?_⟩
  · unfold setRate
    rw [if_neg (ne_of_gt h0)]
    simp only
    rw [if_pos ⟨by linarith, by linarith⟩, max_eq_left hr0]
  · have := Int.le_floor.mpr hlo
    omega
  · have : ⌊fp.rnd (1000 / hz)⌋ ≤ ⌈1000 / hz⌉ := by
      have := (Int.floor_le (fp.rnd (1000 / hz))).trans hhi
      exact_mod_cast this
    omega

theorem c91_maximum (fp : FP) : setRate fp 0 = .ok 0 := by simp [setRate]

/-! ## Sleeping -/

theorem sleepMs_eq {period : ℕ} {start w : Int} (h0 : 0 ≤ w) (h1 : w < 2147483648 * 1000000) (hp : period < 2147483648) :
    sleepMs period start (start + w) = period - w / 1000000 := by
  unfold sleepMs Cyc.toI32
  rw [show start + w - start = w by ring, Int.tdiv_eq_ediv_of_nonneg h0]
  omega

/-- C91. A cycle is never shorter than the period. -/
theorem cycle_long {period : ℕ} (hp : period < 2147483648) {p : Int × Int} (h : Steady p) (start : Int) :
    period * 1000000 ≤ sleep period start (start + p.1) p.2 - start := by
  obtain ⟨h0, h1, h2⟩ := h
  unfold sleep
  rw [sleepMs_eq h0 h1 hp]
  split <;> omega

/-- C91. A cycle whose work takes less than the period, and that is not woken up late, is less than 1 ms longer than the period; one whose
work takes longer is as long as the work. -/
theorem c91_cycle {period : ℕ} (hp : period < 2147483648) {w late : Int} (h : Steady (w, late)) (start : Int) :
    max ((period : Int) * 1000000) w ≤ sleep period start (start + w) late - start ∧
    sleep period start (start + w) late - start - late ≤ max ((period : Int) * 1000000 + 999999) w := by
  have h3 := cycle_long hp h start
  obtain ⟨h0, h1, h2⟩ := h
  simp only at *
  unfold sleep at *
  rw [sleepMs_eq h0 h1 hp] at *
  constructor
  · refine max_le h3 ?_
    split <;> omega
  · split
    · exact le_max_of_le_left (by omega)
    · exact le_max_of_le_right (by omega)

/-- C91. `n` cycles take `n` periods at least (lost time is not caught up). -/
theorem c91_rate_partial {period : ℕ} (hp : period < 2147483648) (start : Int) (L : List (Int × Int)) (h : ∀ p ∈ L, Steady p) :
    L.length * (period * 1000000) ≤ loop period start L - start := by
  induction L generalizing start with
  | nil => simp [loop]
  | cons p L ih =>
    have h1 := cycle_long hp (h p (by simp)) start
    have h2 := ih (sleep period start (start + p.1) p.2) (fun q hq => h q (by simp [hq]))
    unfold loop at *
    rw [List.foldl_cons]
    simp only [List.length_cons]
    push_cast
    have : ((L.length : Int) + 1) * (period * 1000000) = L.length * (period * 1000000) + period * 1000000 := by ring
    omega

/-- C91. A rate that divides 1000 Hz is kept. -/
theorem c91_whole_ms (fp : FP) (k : ℕ) (h1 : 1 ≤ k) (h2 : k < 2147483) : setRate fp (1000 / k) = .ok k ∧ Limits (1000 / k) k := by
  have hk : (0:ℚ) < k := by exact_mod_cast h1
  have hk2 : (k : ℚ) ≤ 2147483 := by exact_mod_cast h2.le
  have e : (1000 : ℚ) / (1000 / k) = k := by field_simp
  constructor
  · obtain ⟨n, hn, h3, h4⟩ := c91_period fp (1000 / k) (by
      rw [div_le_div_iff₀ (by norm_num) hk]; linarith)
    rw [e] at h3 h4
    have e1 : ⌊(k : ℚ)⌋ = k := by simp
    have e2 : ⌈(k : ℚ)⌉ = k := by simp
    rw [e1] at h3
    rw [e2] at h4
    rw [hn]
    congr 1
    omega
  · intro start L hL
    have := c91_rate_partial (period := k) (by omega) start L hL
    have e3 : (L.length : ℚ) / (1000 / k) * 1000000000 = ((L.length * (k * 1000000) : Int) : ℚ) := by
      push_cast; field_simp; ring
    rw [e3]
    exact_mod_cast this

/-- C91 in full is false: at 300 Hz the loop may run at 333 Hz, from 1001 Hz on it never sleeps, and neither does it at a rate of once per
29 days. -/
theorem c91_rate_fails (fp : FP) :
    (∃ n, setRate fp 300 = .ok n ∧ ¬ Limits 300 n) ∧
    (∀ hz, 1001 ≤ hz → ∃ n, setRate fp hz = .ok n ∧ ¬ Limits hz n) ∧
    (∃ n, setRate fp (1 / 2500000) = .ok n ∧ ¬ Limits (1 / 2500000) n) := by
  refine ⟨?_, ?_, ?_⟩
  · refine ⟨3, ?_, ?_⟩
    · have hr := fp.relErr (1000 / 300) (by norm_num)
      rw [abs_le] at hr
      have e : |(1000 / 300 : ℚ)| = 1000 / 300 := by norm_num
      rw [e] at hr
      norm_num at hr
      unfold setRate
      rw [if_neg (by norm_num)]
      simp only
      norm_num
      rw [if_pos ⟨by linarith, by linarith⟩]
      congr 1
      have : ⌊max (fp.rnd (10 / 3)) 0⌋ = 3 := by
        rw [max_eq_left (by linarith), Int.floor_eq_iff]
        push_cast
        constructor <;> linarith
      rw [this]; rfl
    · intro h
      have := h 0 [(0, 0)] (by simp [Steady])
      norm_num [loop, sleep, sleepMs, Cyc.toI32] at this
  · intro hz h1
    have hr := fp.relErr (1000 / 1001) (by norm_num)
    rw [abs_le] at hr
    have e : |(1000 / 1001 : ℚ)| = 1000 / 1001 := by norm_num
    rw [e] at hr
    have hx0 : 0 ≤ fp.rnd (1000 / hz) := FP.rnd_nonneg fp _ (by positivity)
    have hx1 : fp.rnd (1000 / hz) ≤ fp.rnd (1000 / 1001) := fp.mono _ _ (by gcongr)
    have hx2 : fp.rnd (1000 / hz) < 1 := by
      have : (1000 / 1001 : ℚ) + 1000 / 1001 / 4503599627370496 < 1 := by norm_num
      linarith
    refine ⟨0, ?_, ?_⟩
    · unfold setRate
      rw [if_neg (by linarith)]
      simp only
      rw [if_pos ⟨by linarith, by linarith⟩]
      congr 1
      have : ⌊max (fp.rnd (1000 / hz)) 0⌋ = 0 := by
        rw [max_eq_left hx0, Int.floor_eq_iff]
        push_cast
        constructor <;> linarith
      rw [this]; rfl
    · intro h
      have := h 0 [(0, 0)] (by simp [Steady])
      norm_num [loop, sleep, sleepMs, Cyc.toI32] at this
      have : 0 < hz⁻¹ := inv_pos.mpr (by linarith)
      linarith
  · refine ⟨2500000000, ?_, ?_⟩
    · have e : fp.rnd (1000 / (1 / 2500000)) = 2500000000 := by
        have := fp.exactInt 2500000000 (by norm_num) (by norm_num)
        push_cast at this
        rw [← this]
        congr 1
        norm_num
      unfold setRate
      rw [if_neg (by norm_num), e]
      simp only
      rw [if_pos ⟨by norm_num, by norm_num⟩]
      congr 1
    · intro h
      have := h 0 [(0, 0)] (by simp [Steady])
      norm_num [loop, sleep, sleepMs, Cyc.toI32] at this

/-- A period below zero, or one above 49 days, is undefined behaviour. -/
theorem c91_range (fp : FP) : setRate fp (-1) = .ub ∧ setRate fp (1 / 5000000) = .ub := by
  have e1 := fp.exactInt (-1000) (by norm_num) (by norm_num)
  have e2 := fp.exactInt 5000000000 (by norm_num) (by norm_num)
  push_cast at e1 e2
  constructor
  · unfold setRate
    rw [if_neg (by norm_num), show (1000 : ℚ) / (-1) = -1000 by norm_num, e1]
    norm_num
  · unfold setRate
    rw [if_neg (by norm_num), show (1000 : ℚ) / (1 / 5000000) = 5000000000 by norm_num, e2]
    norm_num

/-- The premises of C91 are met: the rates the library uses itself, and a loop of three cycles, one of them too long. -/
example (fp : FP) : setRate fp 10 = .ok 100 := by
  have := (c91_whole_ms fp 100 (by norm_num) (by norm_num)).1
  norm_num at this
  exact this

example : (∀ p ∈ ([(3000000, 50000), (130000000, 0), (99999999, 7)] : List (Int × Int)), Steady p) ∧
    loop 100 0 [(3000000, 50000), (130000000, 0), (99999999, 7)] = 331050006 := by
  constructor
  · simp [Steady]
  · decide

end Rate
end Ikf
