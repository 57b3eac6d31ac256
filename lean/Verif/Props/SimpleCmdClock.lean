import Verif.Props.SimpleCmd

/-!
# The times of the estimates of `ikf_simple_cmd` in exact arithmetic (C107)
-/

namespace Ikf
namespace SimpleCmd

/-- Nearest whole number of nanoseconds. -/
theorem exact_fromSec_round (x : ℚ) (h0 : 0 ≤ x) (h1 : x < 8589934592) : (FP.exact.fromSec x).ns = ⌊x * 1000000000 + 1 / 2⌋ := by
  have f0 : 0 ≤ ⌊x⌋ := Int.floor_nonneg.mpr h0
  have f1 : ⌊x⌋ ≤ 8589934591 := by
    have : ⌊x⌋ < 8589934592 := Int.floor_lt.mpr (by exact_mod_cast h1)
    omega
  rw [FP.fromSec_ns _ _ (by omega) f1]
  unfold FP.rawNs FP.exact
  simp only [id]
  have hfr : 0 ≤ (x - (⌊x⌋ : ℤ)) * 1000000000 := by
    have := Int.floor_le x
    nlinarith
  rw [roundHalfAway_nonneg _ hfr]
  have e : x * 1000000000 + 1 / 2 = (x - (⌊x⌋ : ℤ)) * 1000000000 + 1 / 2 + ((⌊x⌋ * 1000000000 : ℤ) : ℚ) := by push_cast; ring
  rw [e, Int.floor_add_intCast]
  ring

/-- Period in nanoseconds, rounded. -/
def tickNs (f : ℕ) : ℤ := ⌊(1000000000 : ℚ) / f + 1 / 2⌋

theorem tickNs_nonneg (f : ℕ) : 0 ≤ tickNs f := by
  unfold tickNs
  exact Int.floor_nonneg.mpr (by positivity)

theorem tickNs_le (f : ℕ) (hf : 0 < f) : tickNs f ≤ 1000000000 := by
  unfold tickNs
  have : (1000000000 : ℚ) / f ≤ 1000000000 := div_le_self (by norm_num) (by exact_mod_cast hf)
  have h : ⌊(1000000000 : ℚ) / f + 1 / 2⌋ < 1000000001 := Int.floor_lt.mpr (by push_cast; linarith)
  omega

theorem next_exact (f : ℕ) (hf : 0 < f) (t : Int) (h0 : 0 ≤ t) (h1 : t ≤ 8589934590 * 1000000000) :
    next FP.exact (1 / f) t = t + tickNs f := by
  unfold next
  rw [FP.exact_toSec, (ofStampNs_normal t h0).2.1, FP.exact_rnd]
  have hq : (1 : ℚ) / f ≤ 1 := by rw [div_le_one (by exact_mod_cast hf)]; exact_mod_cast hf
  have hq0 : (0 : ℚ) ≤ 1 / f := by positivity
  have t0 : (0 : ℚ) ≤ t := by exact_mod_cast h0
  have t1 : (t : ℚ) ≤ 8589934590 * 1000000000 := by exact_mod_cast h1
  have b1 : (t : ℚ) / 1000000000 ≤ 8589934590 := by rw [div_le_iff₀ (by norm_num)]; exact t1
  rw [exact_fromSec_round _ (by positivity) (by linarith)]
  unfold tickNs
  have e : ((t : ℚ) / 1000000000 + 1 / f) * 1000000000 + 1 / 2 = (1000000000 : ℚ) / f + 1 / 2 + (t : ℤ) := by ring
  rw [e, Int.floor_add_intCast]
  ring

/-- In the terms of the model: with exact arithmetic, after `k` steps of frequency `f` the estimates are at `k` times the rounded period. -/
theorem clock_exact (f : ℕ) (hf : 0 < f) (k : ℕ) (hk : (k : ℤ) * tickNs f ≤ 8589934590 * 1000000000) :
    clock FP.exact (1 / f) k = k * tickNs f := by
  induction k with
  | zero => simp [clock]
  | succ k ih =>
    have h0 := tickNs_nonneg f
    have h1 : (k : ℤ) * tickNs f ≤ 8589934590 * 1000000000 := by
      push_cast at hk
      nlinarith
    rw [clock, ih h1, next_exact f hf _ (by positivity) h1, max_eq_right (by omega)]
    push_cast
    ring

theorem dt_exact (o : Opts) {f : ℕ} (h : o.freq = f) (hf : 0 < f) : o.dt FP.exact = 1 / f := by
  unfold Opts.dt
  rw [FP.exact_rnd, h, max_eq_right (by omega)]
  simp

theorem samples_exact (o : Opts) {f D : ℕ} (h : o.freq = f) (hD : o.duration = D) (hf : 0 < f) : o.samples FP.exact = .ok (D * f + 1) := by
  have e : FP.exact.rnd (FP.exact.rnd ((o.duration : ℚ) / o.dt FP.exact) + 1) = ((D * f + 1 : ℕ) : ℚ) := by
    rw [dt_exact o h hf, hD, FP.exact_rnd, FP.exact_rnd]
    push_cast; field_simp
  have e2 : ⌊((D * f + 1 : ℕ) : ℚ)⌋ = ((D * f + 1 : ℕ) : ℤ) := Int.floor_natCast _
  have e3 : ¬ (((D * f + 1 : ℕ) : ℚ) < 1) := by push_cast; nlinarith [show (0:ℚ) ≤ D * f by positivity]
  unfold Opts.samples
  simp only [e, e2, if_neg e3, Int.toNat_natCast]

theorem tArr_exact (o : Opts) {f D : ℕ} (hD : o.duration = D) (hf : 0 < f) (k : ℕ) (hk : k ≤ D * f) :
    o.tArr FP.exact (D * f + 1) k = (k : ℚ) / f := by
  unfold Opts.tArr
  have f0 : (f : ℚ) ≠ 0 := by exact_mod_cast hf.ne'
  rw [hD]
  by_cases h : k + 1 = D * f + 1
  · rw [if_pos h]
    obtain rfl : k = D * f := by omega
    push_cast
    field_simp
  · rw [if_neg h]
    simp only [FP.exact_rnd]
    have : D ≠ 0 := by rintro rfl; omega
    have d0 : (D : ℚ) ≠ 0 := by exact_mod_cast this
    rw [Nat.add_sub_cancel]
    push_cast
    field_simp

/-- In the terms of the model: with exact arithmetic and a frequency that divides 10⁹, each estimate is recorded under the time it has in the
filter. -/
theorem times_model (o : Opts) (f D p : ℕ) (h : o.freq = f) (hD : o.duration = D) (hp : f * p = 1000000000) (hmax : D ≤ 8000000000) (k : ℕ) (hk : k ≤ D * f) :
    o.samples FP.exact = .ok (D * f + 1) ∧ (FP.exact.fromSec (o.tArr FP.exact (D * f + 1) k)).ns = clock FP.exact (o.dt FP.exact) k ∧
      clock FP.exact (o.dt FP.exact) k = k * p := by
  have hf : 0 < f := by rcases Nat.eq_zero_or_pos f with rfl | h; simp at hp; exact h
  have f0 : (f : ℚ) ≠ 0 := by exact_mod_cast hf.ne'
  have hq : (f : ℚ) * p = 1000000000 := by exact_mod_cast hp
  have tp : tickNs f = p := by
    unfold tickNs
    have : (1000000000 : ℚ) / f = p := by rw [← hq]; field_simp
    rw [this, Int.floor_eq_iff]
    constructor <;> push_cast <;> linarith
  have hkp : (k : ℤ) * p ≤ 8000000000 * 1000000000 := by
    have h1 : k * p ≤ D * f * p := Nat.mul_le_mul_right _ hk
    have h2 : D * f * p = D * 1000000000 := by rw [Nat.mul_assoc, hp]
    have h3 : k * p ≤ 8000000000 * 1000000000 := by rw [h2] at h1; nlinarith
    exact_mod_cast h3
  have hc := clock_exact f hf k (by rw [tp]; linarith)
  rw [tp] at hc
  refine ⟨samples_exact o h hD hf, ?_, by rw [dt_exact o h hf]; exact hc⟩
  rw [dt_exact o h hf, hc, tArr_exact o hD hf k hk]
  have hx : (k : ℚ) / f * 1000000000 = ((k * p : ℤ) : ℚ) := by rw [← hq]; push_cast; field_simp
  have hlt : (k : ℚ) / f < 8589934592 := by
    rw [div_lt_iff₀ (by exact_mod_cast hf)]
    have h1 : (k : ℚ) ≤ D * f := by exact_mod_cast hk
    have h2 : (D : ℚ) ≤ 8000000000 := by exact_mod_cast hmax
    have h3 : (0 : ℚ) < f := by exact_mod_cast hf
    nlinarith
  rw [exact_fromSec_round _ (by positivity) hlt, hx, Int.floor_eq_iff]
  constructor <;> push_cast <;> linarith

/-- In the terms of the model: otherwise the filters fall behind: at frequency 3, the estimate recorded for second `m` is one of `m` nanoseconds
earlier, even in exact arithmetic. -/
theorem drift_model (o : Opts) (D m : ℕ) (h : o.freq = 3) (hD : o.duration = D) (hm : m ≤ D) (hmax : D ≤ 8000000000) :
    (FP.exact.fromSec (o.tArr FP.exact (D * 3 + 1) (m * 3))).ns = m * 1000000000 ∧ clock FP.exact (o.dt FP.exact) (m * 3) = m * 1000000000 - m := by
  have tp : tickNs 3 = 333333333 := by
    unfold tickNs
    rw [Int.floor_eq_iff]
    constructor <;> norm_num
  constructor
  · rw [tArr_exact o (f := 3) hD (by norm_num) (m * 3) (by omega)]
    have hx : ((m * 3 : ℕ) : ℚ) / (3 : ℕ) = m := by push_cast; field_simp
    have h2 : (m : ℚ) ≤ 8000000000 := by exact_mod_cast (by omega)
    rw [hx, exact_fromSec_round _ (by positivity) (by linarith), Int.floor_eq_iff]
    constructor <;> push_cast <;> linarith
  · rw [dt_exact o (f := 3) h (by norm_num), clock_exact 3 (by norm_num) _ (by rw [tp]; push_cast; omega), tp]
    push_cast
    ring

/-- In the terms of the model: above 2 · 10⁹ Hz the step is less than half a nanosecond: no propagation is accepted, the estimates stay at time 0. -/
theorem frozen_model (o : Opts) (f : ℕ) (h : o.freq = f) (hf : 2000000000 < f) (k : ℕ) : clock FP.exact (o.dt FP.exact) k = 0 := by
  have tp : tickNs f = 0 := by
    unfold tickNs
    have h1 : (2000000000 : ℚ) < f := by exact_mod_cast hf
    have h2 : (1000000000 : ℚ) / f < 1 / 2 := by rw [div_lt_iff₀ (by linarith)]; linarith
    have h3 : (0 : ℚ) ≤ (1000000000 : ℚ) / f := by positivity
    rw [Int.floor_eq_iff]
    constructor <;> push_cast <;> linarith
  rw [dt_exact o h (by omega), clock_exact f (by omega) k (by rw [tp]; omega), tp]
  ring

section
variable {g1 g2 g3 : ℕ → ℕ → ℝ} {o : Opts} {d : Draws} {st : St}

/-- What is recorded under index `k` has the time of sample `k`. -/
theorem recorded_time {fp : FP} {n : ℕ} (hm : main g1 g2 g3 fp o d = .ok st) (hs : o.samples fp = .ok n) {i k : ℕ} (hi : i < Spec.bodies o) (hk : k < n) :
    ∃ x, st.est i k = some (Spec.sampleTime fp o n k, x) := by
  obtain ⟨n', l, c, h1, -, -, -, -, -, h7, h8⟩ := c107_records hm
  have := samples_eq hs
  obtain rfl : n' = n := by omega
  cases k with
  | zero => exact ⟨_, h7 i hi⟩
  | succ k => obtain ⟨_, c1, -, -, -, -, q⟩ := h8 k i hk hi; exact ⟨_, q⟩

theorem final_time {fp : FP} {n : ℕ} (hm : main g1 g2 g3 fp o d = .ok st) (hs : o.samples fp = .ok n) {i : ℕ} (hi : i < Spec.bodies o) :
    StdHdl.stamp st.h i = some (Spec.time fp o (n - 1)) := by
  obtain ⟨n', l, c, h1, -, -, -, -, h6, -, -⟩ := c107_records hm
  have := samples_eq hs
  obtain rfl : n' = n := by omega
  exact h6 i hi

/-- C107: with exact arithmetic the estimates are, after `k` steps of frequency `f`, at `k` times the period rounded to
nanoseconds; at the end of the program at `D f` times that. -/
theorem c107_clock_exact (f D : ℕ) (hf : 0 < f) (h : o.freq = f) (hD : o.duration = D) (hmax : D * f * ⌊(1000000000 : ℚ) / f + 1 / 2⌋ ≤ 8589934590 * 1000000000)
    (hm : main g1 g2 g3 FP.exact o d = .ok st) {i : ℕ} (hi : i < Spec.bodies o) :
    (∀ k ≤ D * f, Spec.time FP.exact o k = k * ⌊(1000000000 : ℚ) / f + 1 / 2⌋) ∧ StdHdl.stamp st.h i = some ((D : ℤ) * f * ⌊(1000000000 : ℚ) / f + 1 / 2⌋) := by
  have key : ∀ k ≤ D * f, Spec.time FP.exact o k = k * ⌊(1000000000 : ℚ) / f + 1 / 2⌋ := by
    intro k hk
    rw [time_eq, dt_exact o h hf, clock_exact f hf k]
    · rfl
    · refine le_trans (mul_le_mul_of_nonneg_right ?_ (tickNs_nonneg f)) hmax
      exact_mod_cast hk
  refine ⟨key, ?_⟩
  rw [final_time hm (samples_exact o h hD hf) hi, Nat.add_sub_cancel, key _ le_rfl]
  push_cast
  rfl

/-- C107: with exact arithmetic and a frequency that divides 10⁹, each estimate is recorded under the time it has in the
filter: sample `k` at `k` periods. -/
theorem c107_times_partial (f D p : ℕ) (h : o.freq = f) (hD : o.duration = D) (hp : f * p = 1000000000) (hmax : D ≤ 8000000000)
    (hm : main g1 g2 g3 FP.exact o d = .ok st) {i k : ℕ} (hi : i < Spec.bodies o) (hk : k ≤ D * f) :
    (∃ T x, st.est i k = some (T, x) ∧ T.ns = k * p) ∧ Spec.time FP.exact o k = k * p ∧ StdHdl.stamp st.h i = some ((D : ℤ) * 1000000000) := by
  obtain ⟨h1, h2, h3⟩ := times_model o f D p h hD hp hmax k hk
  obtain ⟨x, hx⟩ := recorded_time hm h1 hi (k := k) (by omega)
  refine ⟨⟨_, x, hx, ?_⟩, ?_, ?_⟩
  · rw [sampleTime_eq, h2, h3]
  · rw [time_eq, h3]
  · rw [final_time hm h1 hi, time_eq, Nat.add_sub_cancel, (times_model o f D p h hD hp hmax (D * f) le_rfl).2.2]
    have : (f : ℤ) * p = 1000000000 := by exact_mod_cast hp
    rw [← this]
    push_cast
    rw [mul_assoc]

/-- C107: otherwise the filters fall behind: at frequency 3, the estimate recorded for second `m` is one of `m` nanoseconds
earlier, even in exact arithmetic; in the end the filters are at `D` seconds minus `D` nanoseconds. -/
theorem c107_drift_fails (D : ℕ) (h : o.freq = 3) (hD : o.duration = D) (hmax : D ≤ 8000000000) (hm : main g1 g2 g3 FP.exact o d = .ok st) {i m : ℕ}
    (hi : i < Spec.bodies o) (hmD : m ≤ D) :
    (∃ T x, st.est i (m * 3) = some (T, x) ∧ T.ns = m * 1000000000) ∧ Spec.time FP.exact o (m * 3) = m * 1000000000 - m ∧
      StdHdl.stamp st.h i = some ((D : ℤ) * 1000000000 - D) := by
  obtain ⟨h2, h3⟩ := drift_model o D m h hD hmD hmax
  have hs := samples_exact o (f := 3) (D := D) h hD (by norm_num)
  obtain ⟨x, hx⟩ := recorded_time hm hs hi (k := m * 3) (by omega)
  refine ⟨⟨_, x, hx, ?_⟩, ?_, ?_⟩
  · rw [sampleTime_eq, h2]
  · rw [time_eq, h3]
  · rw [final_time hm hs hi, time_eq, Nat.add_sub_cancel, (drift_model o D D h hD le_rfl hmax).2]

/-- C107: above 2 · 10⁹ Hz the step is less than half a nanosecond: no propagation is accepted; whatever the duration, the
estimates are still at time 0 when the program ends. -/
theorem c107_frozen_fails (f : ℕ) (h : o.freq = f) (hf : 2000000000 < f) (hm : main g1 g2 g3 FP.exact o d = .ok st) {i : ℕ} (hi : i < Spec.bodies o) :
    StdHdl.stamp st.h i = some 0 := by
  obtain ⟨n, l, c, h1, -, -, -, -, h6, -, -⟩ := c107_records hm
  rw [h6 i hi, time_eq, frozen_model o f h hf]

end

/-- The default options but without joint observations: 100 Hz, 5 s: the program returns, and index 500 is at 5 s. -/
example (g1 g2 g3 : ℕ → ℕ → ℝ) (d : Draws) : ∃ st, main g1 g2 g3 FP.exact ⟨4, 5, false, 100, 0, 0, 0⟩ d = .ok st ∧
    ∃ T x, st.est 3 500 = some (T, x) ∧ T.ns = 5000000000 := by
  obtain ⟨st, hm⟩ := ((c107_outcome_partial g1 g2 g3 FP.exact ⟨4, 5, false, 100, 0, 0, 0⟩ d).1 (by decide)).2 (.inl rfl)
  obtain ⟨T, x, h1, h2⟩ := (c107_times_partial (i := 3) (k := 500) 100 5 10000000 rfl rfl (by norm_num) (by norm_num) hm (by decide) (by norm_num)).1
  exact ⟨st, hm, T, x, h1, by rw [h2]; norm_num⟩

end SimpleCmd
end Ikf
