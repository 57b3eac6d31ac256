import Verif.Model.ProgressBar
import Verif.Lemmas.FpErr
import Mathlib.Algebra.Order.Floor.Semiring
import Mathlib.Tactic.FieldSimp

/-! # Property C108: the progress bar -/

namespace Ikf
namespace PBar

/-! ## Specification -/

/-- `x` is the time `s` (seconds) in hours, minutes and whole seconds. -/
def Clock (x : Hms) (s : ℚ) : Prop :=
  0 ≤ x.h ∧ 0 ≤ x.m ∧ x.m < 60 ∧ 0 ≤ x.s ∧ x.s < 60 ∧ ((3600 * x.h + 60 * x.m + x.s : Int) : ℚ) ≤ s ∧
    s < ((3600 * x.h + 60 * x.m + x.s : Int) : ℚ) + 1

/-- What the `i`-th call of `progress` prints at time `now`, for a bar of `n` steps and `len` symbols that shows itself every `every` steps;
`T` is the time of the last step. The time left is the time spent per step so far, times the steps left. -/
def Prints (n len every : ℕ) (remTime percentage actualNum finalTime : Bool) (T : ℚ) (i : ℕ) (now : ℚ) : Option Line → Prop
  | none => i < n ∧ ¬ every ∣ i
  | some (.done t) => n ≤ i ∧ t.isSome = finalTime ∧ ∀ x ∈ t, Clock x T
  | some (.bar f b num pct time) =>
    i < n ∧ every ∣ i ∧ f = len * i / n ∧ f + b = len ∧
    num = (if actualNum then some (i, n) else none) ∧
    pct.isSome = percentage ∧ (∀ p ∈ pct, |p - 100 * i / n| ≤ 1 / 1000000) ∧
    time.isSome = remTime ∧
    ∀ x ∈ time, Clock x.1 now ∧ ∃ r, Clock x.2 r ∧ |r - now / i * (n - i)| ≤ 1 / 100000

/-! ## Times -/

theorem hms_ok {s : ℚ} (h0 : 0 ≤ s) (h1 : s < 2147483648) : ∃ x, hms s = .ok x ∧ Clock x s := by
  have f0 : 0 ≤ ⌊s⌋ := Int.floor_nonneg.mpr h0
  have f1 : ⌊s⌋ < 2147483648 := Int.floor_lt.mpr (by exact_mod_cast h1)
  refine ⟨⟨⌊s⌋.tdiv 3600, (⌊s⌋.tmod 3600).tdiv 60, ⌊s⌋.tmod 60⟩, ?_, ?_⟩
  · unfold hms
    simp only
    rw [if_pos (by omega)]
  · have e1 : ⌊s⌋.tdiv 3600 = ⌊s⌋ / 3600 := Int.tdiv_eq_ediv_of_nonneg f0
    have e2 : ⌊s⌋.tmod 3600 = ⌊s⌋ % 3600 := Int.tmod_eq_emod_of_nonneg f0
    have e3 : ⌊s⌋.tmod 60 = ⌊s⌋ % 60 := Int.tmod_eq_emod_of_nonneg f0
    have e4 : (⌊s⌋ % 3600).tdiv 60 = ⌊s⌋ % 3600 / 60 := Int.tdiv_eq_ediv_of_nonneg (by omega)
    have e : 3600 * (⌊s⌋ / 3600) + 60 * (⌊s⌋ % 3600 / 60) + ⌊s⌋ % 60 = ⌊s⌋ := by omega
    unfold Clock
    simp only [e1, e2, e3, e4]
    rw [e]
    refine ⟨by omega, by omega, by omega, by omega, by omega, Int.floor_le s, Int.lt_floor_add_one s⟩

theorem rnd_nat (fp : FP) (k : ℕ) (h : k ≤ 9007199254740992) : fp.rnd (k : ℚ) = k := by
  have := fp.exactInt k (by omega) (by omega)
  exact_mod_cast this

theorem percent_eq (fp : FP) {i n : ℕ} (hi : i ≤ n) (hn : n ≤ 1073741824) :
    percentOf fp i n = fp.rnd (100 * i / n) := by
  unfold percentOf
  rw [rnd_nat fp i (by omega), rnd_nat fp n (by omega)]
  have := rnd_nat fp (i * 100) (by omega)
  push_cast at this
  rw [this, mul_comm (i : ℚ)]

theorem percent_err (fp : FP) {i n : ℕ} (h0 : 1 ≤ i) (hi : i < n) (hn : n ≤ 1073741824) :
    |percentOf fp i n - 100 * i / n| ≤ (100 * i / n) / 4503599627370496 := by
  rw [percent_eq fp hi.le hn]
  have hn0 : (0:ℚ) < n := by exact_mod_cast (by omega : 0 < n)
  have hi1 : (1:ℚ) ≤ i := by exact_mod_cast h0
  have hn1 : (n:ℚ) ≤ 1073741824 := by exact_mod_cast hn
  have hp : (0:ℚ) < 100 * i / n := by positivity
  have := fp.relErr (100 * i / n) (by
    rw [abs_of_pos hp, le_div_iff₀ hn0]
    linarith)
  rwa [abs_of_pos hp] at this

/-- The elapsed and the remaining time are printed, and the latter is the extrapolated one. -/
theorem times_ok (fp : FP) {i n : ℕ} (h0 : 1 ≤ i) (hi : i < n) (hn : n ≤ 1073741824) {now : ℚ} (t0 : 0 ≤ now)
    (t1 : now * n ≤ 1073741824) :
    ∃ x, times fp (percentOf fp i n) now = .ok x ∧ Clock x.1 now ∧ ∃ r, Clock x.2 r ∧ |r - now / i * (n - i)| ≤ 1 / 100000 := by
  have hn0 : (0:ℚ) < n := by exact_mod_cast (by omega : 0 < n)
  have hi1 : (1:ℚ) ≤ i := by exact_mod_cast h0
  have hi0 : (0:ℚ) < i := by linarith
  have hin : (i:ℚ) ≤ n := by exact_mod_cast hi.le
  have hn1 : (n:ℚ) ≤ 1073741824 := by exact_mod_cast hn
  have hnn : (1:ℚ) ≤ n := hi1.trans hin
  have htn : now ≤ 1073741824 := le_trans (by nlinarith) t1
  have hpe := percent_err fp h0 hi hn
  set p := percentOf fp i n with hp
  set P : ℚ := 100 * i / n with hP
  have hPn : P * n = 100 * i := by rw [hP]; field_simp
  have hPlo : 100 / n ≤ P := by
    rw [hP]; apply div_le_div_of_nonneg_right _ hn0.le; linarith
  have hn' : (0:ℚ) < 100 / n := by positivity
  have hP0 : 0 < P := by linarith
  have hP100 : P ≤ 100 := by
    rw [hP, div_le_iff₀ hn0]; linarith
  rw [abs_le] at hpe
  have hplo : 99 / 100 * P ≤ p := by linarith
  have hp0 : 0 < p := by linarith
  have hp100 : p ≤ 100 := by
    rw [hp, percent_eq fp hi.le hn]
    have := fp.mono _ _ hP100
    have e := rnd_nat fp 100 (by omega)
    push_cast at e
    rw [e] at this
    exact this
  -- the difference
  have hq := fp.rnd_err (100 - p) 100 (by rw [abs_le]; constructor <;> linarith)
  have hq0 : 0 ≤ fp.rnd (100 - p) := FP.rnd_nonneg fp _ (by linarith)
  have hq1 : fp.rnd (100 - p) ≤ 100 := by
    have := fp.mono (100 - p) 100 (by linarith)
    have e := rnd_nat fp 100 (by omega)
    push_cast at e
    rw [e] at this
    exact this
  set q := fp.rnd (100 - p) with hqd
  rw [abs_le] at hq
  have hm0 : 0 ≤ now * q := mul_nonneg t0 hq0
  have hm1 : now * q ≤ 100 * now := by nlinarith
  have hm := fp.rnd_err (now * q) (100 * now) (by rw [abs_of_nonneg hm0]; exact hm1)
  have hN0 : 0 ≤ fp.rnd (now * q) := FP.rnd_nonneg fp _ hm0
  set N := fp.rnd (now * q) with hN
  rw [abs_le] at hm
  set d : ℚ := 1 / 4503599627370496 with hd
  set e : ℚ := 3 / 1000000000000000000000000000000 with he
  have hd0 : 0 < d := by rw [hd]; norm_num
  have he0 : 0 < e := by rw [he]; norm_num
  have hpe1 : p ≤ P + P * d := by rw [hd]; linarith
  have hpe2 : P - P * d ≤ p := by rw [hd]; linarith
  have hPd : P * d ≤ 100 * d := mul_le_mul_of_nonneg_right hP100 hd0.le
  have hqa : q ≤ 100 - P + (200 * d + e) := by
    have : q ≤ 100 - p + (100 * d + e) := by rw [hd, he]; linarith [hq.2]
    linarith
  have hqb : 100 - P - (200 * d + e) ≤ q := by
    have : 100 - p - (100 * d + e) ≤ q := by rw [hd, he]; linarith [hq.1]
    linarith
  have hNa : N ≤ now * (100 - P) + (now * (300 * d + e) + e) := by
    have h1 : N ≤ now * q + (100 * now * d + e) := by rw [hd, he]; linarith [hm.2]
    have h2 := mul_le_mul_of_nonneg_left hqa t0
    linarith
  have hNb : now * (100 - P) - (now * (300 * d + e) + e) ≤ N := by
    have h1 : now * q - (100 * now * d + e) ≤ N := by rw [hd, he]; linarith [hm.1]
    have h2 := mul_le_mul_of_nonneg_left hqb t0
    linarith
  -- the quotient
  have hR : now / i * (n - i) = now * (100 - P) / P := by
    rw [hP]; field_simp
  have hpn : 99 ≤ p * n := by
    have h1 : 99 / 100 * P * n ≤ p * n := mul_le_mul_of_nonneg_right hplo hn0.le
    have h2 : 99 / 100 * P * n = 99 * i := by
      rw [mul_assoc, hPn]; ring
    linarith
  have hE : (now * (400 * d + e) + e) / p ≤ 1 / 1000000 := by
    rw [div_le_iff₀ hp0]
    -- everything over n
    have h1 : (now * (400 * d + e) + e) * n ≤ 1 / 1000000 * 99 := by
      have : (now * (400 * d + e) + e) * n = (now * n) * (400 * d + e) + e * n := by ring
      rw [this]
      have a1 : (now * n) * (400 * d + e) ≤ 1073741824 * (400 * d + e) :=
        mul_le_mul_of_nonneg_right t1 (by positivity)
      have a2 : e * n ≤ e * 1073741824 := mul_le_mul_of_nonneg_left hn1 he0.le
      have a3 : 1073741824 * (400 * d + e) + e * 1073741824 ≤ 1 / 1000000 * 99 := by
        rw [hd, he]; norm_num
      linarith
    have h2 : 1 / 1000000 * 99 ≤ 1 / 1000000 * (p * n) := mul_le_mul_of_nonneg_left hpn (by norm_num)
    have h3 : (now * (400 * d + e) + e) * n ≤ (1 / 1000000 * p) * n := by linarith
    exact le_of_mul_le_mul_right h3 hn0
  have hNp : |N / p - now * (100 - P) / P| ≤ 1 / 1000000 := by
    have key : N / p - now * (100 - P) / P = ((N - now * (100 - P)) + now * (100 - P) * (P - p) / P) / p := by
      field_simp
      ring
    rw [key, abs_div, abs_of_pos hp0]
    refine le_trans (div_le_div_of_nonneg_right ?_ hp0.le) hE
    have hc0 : 0 ≤ now * (100 - P) := mul_nonneg t0 (by linarith)
    have hc1 : now * (100 - P) ≤ now * 100 := mul_le_mul_of_nonneg_left (by linarith) t0
    have h1 : |now * (100 - P) * (P - p) / P| ≤ now * 100 * d := by
      rw [abs_div, abs_mul, abs_of_nonneg hc0, abs_of_pos hP0, div_le_iff₀ hP0]
      have h2 : |P - p| ≤ P * d := by
        rw [abs_le]; constructor <;> linarith
      calc now * (100 - P) * |P - p| ≤ now * 100 * (P * d) :=
            mul_le_mul hc1 h2 (abs_nonneg _) (by positivity)
        _ = now * 100 * d * P := by ring
    have h3 : |N - now * (100 - P)| ≤ now * (300 * d + e) + e := by
      rw [abs_le]; constructor <;> linarith
    exact (abs_add_le _ _).trans ((add_le_add h3 h1).trans (le_of_eq (by ring)))
  have hex : now * (100 - P) / P ≤ 1073741824 := by
    rw [← hR, div_mul_eq_mul_div, div_le_iff₀ hi0]
    have h1 : now * (n - i) ≤ now * n := mul_le_mul_of_nonneg_left (by linarith) t0
    linarith
  have hex0 : 0 ≤ now * (100 - P) / P := div_nonneg (mul_nonneg t0 (by linarith)) hP0.le
  have hNp0 : 0 ≤ N / p := div_nonneg hN0 hp0.le
  have hNp1 : N / p ≤ 1073741825 := by
    rw [abs_le] at hNp; linarith
  have hr := fp.rnd_err (N / p) 1073741825 (by rw [abs_of_nonneg hNp0]; exact hNp1)
  have hr0 : 0 ≤ fp.rnd (N / p) := FP.rnd_nonneg fp _ hNp0
  have hr1 : fp.rnd (N / p) < 2147483648 := by
    rw [abs_le] at hr
    have : (1073741825 : ℚ) / 4503599627370496 + 3 / 1000000000000000000000000000000 ≤ 1 := by norm_num
    linarith [hr.2]
  obtain ⟨a, ha, hca⟩ := hms_ok t0 (by linarith : now < 2147483648)
  obtain ⟨b, hb, hcb⟩ := hms_ok hr0 hr1
  refine ⟨(a, b), ?_, hca, _, hcb, ?_⟩
  · unfold times
    rw [if_neg (ne_of_gt hp0), ha]
    simp only [Res.bind]
    rw [← hqd, ← hN, hb]
  · rw [hR]
    have h1 : (1073741825 : ℚ) / 4503599627370496 + 3 / 1000000000000000000000000000000 ≤ 1 / 1000000 := by norm_num
    calc |fp.rnd (N / p) - now * (100 - P) / P|
        = |(fp.rnd (N / p) - N / p) + (N / p - now * (100 - P) / P)| := by ring_nf
      _ ≤ |fp.rnd (N / p) - N / p| + |N / p - now * (100 - P) / P| := abs_add_le _ _
      _ ≤ _ := by linarith

/-! ## How often a line is printed -/

/-- The line is printed every `numSteps / updStepPerc` steps. -/
theorem increment_eq (fp : FP) {n u : ℕ} (hn : n ≤ 1073741824) (hu : 1 ≤ u) : increment fp n u = .ok (n / min 100 u) := by
  unfold increment
  simp only [Nat.max_eq_left (Nat.zero_le u)]
  rw [if_neg (by omega)]
  congr 1
  have hw : u64 (n * 100) = n * 100 := Nat.mod_eq_of_lt (by omega)
  rw [hw]
  set m := min 100 u with hm
  have hm1 : 1 ≤ m := by omega
  set Q := n * 100 / m with hQ
  have hQ1 : Q ≤ 107374182400 := by
    have := Nat.div_le_self (n * 100) m
    omega
  rw [rnd_nat fp Q (by omega)]
  have hce : ((⌈(Q : ℚ)⌉ : Int) : ℚ) = Q := by simp
  rw [hce]
  have hdd : n / m = Q / 100 := by
    rw [hQ, Nat.div_div_eq_div_mul, Nat.mul_div_mul_right _ _ (by norm_num)]
  rw [hdd]
  have hfl : ⌊fp.rnd ((Q : ℚ) / 100)⌋ = (Q / 100 : ℕ) := by
    rw [Int.floor_eq_iff]
    have e1 : (((Q / 100 : ℕ) : Int) : ℚ) = ((Q / 100 : ℕ) : ℚ) := by norm_cast
    rw [e1]
    constructor
    · rw [← rnd_nat fp (Q / 100) (by omega)]
      apply fp.mono
      rw [le_div_iff₀ (by norm_num)]
      exact_mod_cast Nat.div_mul_le_self Q 100
    · have h1 : ((Q : ℚ)) ≤ 100 * ((Q / 100 : ℕ) : ℚ) + 99 := by
        have : Q ≤ 100 * (Q / 100) + 99 := by omega
        exact_mod_cast this
      have hq0 : (0:ℚ) ≤ (Q : ℚ) / 100 := by positivity
      have hq2 : (Q : ℚ) ≤ 107374182400 := by exact_mod_cast hQ1
      have hr := fp.rnd_err ((Q : ℚ) / 100) 1073741824 (by
        rw [abs_of_nonneg hq0]; linarith)
      rw [abs_le] at hr
      have h2 : (1073741824 : ℚ) / 4503599627370496 + 3 / 1000000000000000000000000000000 < 1 / 100 := by norm_num
      linarith [hr.2]
  rw [hfl, Int.toNat_natCast]

/-! ## All calls -/

/-- The state after `k` calls of `progress`. -/
structure Inv (c : Cfg) (T : ℚ) (k : ℕ) (s : St) : Prop where
  tick : s.tick = min k c.numSteps
  next : s.next = min ((k / c.increment + 1) * c.increment) c.numSteps
  final : s.final = if k < max c.numSteps 1 then 0 else if c.finalTime then T else 0

theorem dvd_max_one {a k : ℕ} : max 1 a ∣ k ↔ a = 0 ∨ a ∣ k := by
  rcases Nat.eq_zero_or_pos a with h | h
  · subst h; simp
  · rw [Nat.max_eq_right h]
    constructor
    · exact Or.inr
    · rintro (h' | h')
      · omega
      · exact h'

theorem progress_step (fp : FP) {c : Cfg} {T : ℚ} {k : ℕ} {s : St} (hI : Inv c T k s) (hc : c.increment ≤ c.numSteps)
    (hn : c.numSteps ≤ 1073741824) (hl : c.barLen ≤ 1048576) {now : ℚ} (t0 : 0 ≤ now)
    (t1 : now * (max c.numSteps 1 : ℕ) ≤ 1073741824) (hT : 0 < T) (hT1 : T ≤ 1073741824) (hTn : k + 1 = max c.numSteps 1 → now = T) :
    ∃ s' l, progress fp c s now = .ok (s', l) ∧ Inv c T (k + 1) s' ∧
      Prints c.numSteps c.barLen (max 1 c.increment) c.remTime c.percentage c.actualNum c.finalTime T (k + 1) now l := by
  obtain ⟨h1, h2, h3⟩ := hI
  have htick : min (u64 (s.tick + 1)) c.numSteps = min (k + 1) c.numSteps := by
    rw [h1]
    unfold u64
    rw [Nat.mod_eq_of_lt (by omega)]
    omega
  unfold progress
  simp only [htick]
  -- arithmetic of the next point
  set a := c.increment with ha
  set n := c.numSteps with hnn
  have hmod : k = a * (k / a) + k % a := (Nat.div_add_mod k a).symm
  unfold update
  simp only
  have hadd : (k / a + 1) * a = a * (k / a) + a := by ring
  by_cases hlt : min (k + 1) n < s.next
  · -- nothing is printed
    rw [if_pos hlt]
    have hkn : k + 1 < n := by omega
    have ha0 : 0 < a := by
      rcases Nat.eq_zero_or_pos a with h | h
      · rw [h2, h] at hlt; simp at hlt
      · exact h
    have hkm : k % a + 1 < a := by omega
    have hdiv : (k + 1) / a = k / a := by
      have hrw : k + 1 = (k % a + 1) + a * (k / a) := by omega
      rw [hrw, Nat.add_mul_div_left _ _ ha0, Nat.div_eq_of_lt hkm, Nat.zero_add]
    have hm1 : (k + 1) % a = k % a + 1 := by
      have := Nat.div_add_mod (k + 1) a
      rw [hdiv] at this
      omega
    refine ⟨_, none, rfl, ⟨rfl, ?_, ?_⟩, ?_⟩
    · simp only; rw [hdiv]; exact h2
    · simp only
      rw [h3, if_pos (by omega), if_pos (by omega)]
    · refine ⟨hkn, ?_⟩
      rw [dvd_max_one]
      rintro (h | h)
      · omega
      · have := Nat.mod_eq_zero_of_dvd h
        omega
  · rw [if_neg hlt]
    have hnext : min (u64 (s.next + a)) n = min (((k + 1) / a + 1) * a) n := by
      have hs : s.next ≤ n := by rw [h2]; exact Nat.min_le_right _ _
      unfold u64
      rw [Nat.mod_eq_of_lt (by omega)]
      rcases Nat.eq_zero_or_pos a with h0 | h0
      · rw [h2, h0]; simp
      · have hka := Nat.mod_lt k h0
        by_cases hkn : n ≤ k + 1
        · have h5 := Nat.lt_div_mul_add h0 (a := k + 1)
          have h6 : ((k + 1) / a + 1) * a = (k + 1) / a * a + a := by ring
          have h4 : n ≤ s.next + a := by omega
          omega
        · have hk1 : k + 1 = (k / a + 1) * a := by omega
          have hd : (k + 1) / a = k / a + 1 := by
            rw [hk1]; exact Nat.mul_div_cancel _ h0
          rw [hd, h2]
          have : (k / a + 1 + 1) * a = (k / a + 1) * a + a := by ring
          omega
    rw [hnext]
    by_cases hdone : n ≤ k + 1
    · rw [if_pos (by omega)]
      by_cases hf : c.finalTime = true
      · rw [if_pos hf]
        have hfin : (if s.final = 0 then now else s.final) = T := by
          rw [h3]
          by_cases hk : k < max n 1
          · rw [if_pos hk, if_pos rfl]; exact hTn (by omega)
          · rw [if_neg hk, if_pos hf, if_neg (ne_of_gt hT)]
        obtain ⟨x, hx, hcx⟩ := hms_ok hT.le (by linarith : T < 2147483648)
        by_cases hz : s.final = 0
        · rw [if_pos hz] at hfin
          rw [if_pos hz]
          simp only [hfin, hx, Res.bind]
          refine ⟨_, _, rfl, ⟨rfl, rfl, ?_⟩, hdone, ?_, ?_⟩
          · simp only; rw [if_neg (by omega), if_pos hf]
          · simp [hf]
          · intro y hy; cases hy; exact hcx
        · rw [if_neg hz] at hfin
          rw [if_neg hz]
          simp only [hfin, hx, Res.bind]
          refine ⟨_, _, rfl, ⟨rfl, rfl, ?_⟩, hdone, ?_, ?_⟩
          · simp only; rw [if_neg (by omega), if_pos hf]
          · simp [hf]
          · intro y hy; cases hy; exact hcx
      · rw [if_neg hf]
        refine ⟨_, _, rfl, ⟨rfl, rfl, ?_⟩, hdone, ?_, ?_⟩
        · simp only
          rw [if_neg (by omega), if_neg hf, h3]
          rw [if_neg hf]
          exact ite_self _
        · simp [hf]
        · intro y hy; cases hy
    · rw [if_neg (by omega)]
      have hmin : min (k + 1) n = k + 1 := by omega
      have hkn : k + 1 < n := by omega
      have hdvd : max 1 a ∣ k + 1 := by
        rw [dvd_max_one]
        rcases Nat.eq_zero_or_pos a with h0 | h0
        · exact Or.inl h0
        · right
          have hka := Nat.mod_lt k h0
          have hk1 : k + 1 = (k / a + 1) * a := by omega
          rw [hk1]; exact Nat.dvd_mul_left _ _
      rw [hmin]
      have hmul : (k + 1) * c.barLen < 18446744073709551616 := by
        calc (k + 1) * c.barLen ≤ 1073741824 * 1048576 := Nat.mul_le_mul (by omega) hl
          _ < _ := by norm_num
      have hbar : u64 ((k + 1) * c.barLen) / n = c.barLen * (k + 1) / n := by
        unfold u64
        rw [Nat.mod_eq_of_lt hmul, Nat.mul_comm]
      have hle : c.barLen * (k + 1) / n ≤ c.barLen := by
        apply Nat.div_le_of_le_mul
        rw [Nat.mul_comm n]
        exact Nat.mul_le_mul_left _ hkn.le
      have hmx : max n 1 = n := by omega
      rw [hmx] at t1
      have hpe := percent_err fp (i := k + 1) (n := n) (by omega) hkn hn
      have hpe' : |percentOf fp (k + 1) n - 100 * ((k + 1 : ℕ) : ℚ) / n| ≤ 1 / 1000000 := by
        refine hpe.trans ?_
        have hn0 : (0:ℚ) < n := by exact_mod_cast (by omega : 0 < n)
        have : (100 : ℚ) * ((k + 1 : ℕ) : ℚ) / n ≤ 100 := by
          rw [div_le_iff₀ hn0]
          have : (((k + 1 : ℕ) : ℚ)) ≤ n := by exact_mod_cast hkn.le
          linarith
        rw [div_le_iff₀ (by norm_num)]
        linarith
      have hfinal : s.final = if k + 1 < max n 1 then 0 else if c.finalTime then T else 0 := by
        rw [h3, if_pos (by omega), if_pos (by omega)]
      unfold barLine
      simp only
      rw [← hnn, hbar, if_neg (by omega)]
      cases hrt : c.remTime with
      | false =>
        simp only [Bool.false_eq_true, if_false, Res.bind]
        refine ⟨_, _, rfl, ⟨by simp only; omega, rfl, hfinal⟩, hkn, hdvd, rfl, by omega, rfl, ?_, ?_, rfl, ?_⟩
        · cases c.percentage <;> rfl
        · intro p hp
          cases hpc : c.percentage with
          | false => rw [hpc] at hp; simp at hp
          | true => rw [hpc] at hp; simp at hp; rw [← hp]; exact hpe'
        · intro x hx; cases hx
      | true =>
        obtain ⟨x, hx, hca, r, hcb, hr⟩ := times_ok fp (i := k + 1) (n := n) (by omega) hkn hn t0 t1
        simp only [if_true, hx, Res.bind]
        refine ⟨_, _, rfl, ⟨by simp only; omega, rfl, hfinal⟩, hkn, hdvd, rfl, by omega, rfl, ?_, ?_, rfl, ?_⟩
        · cases c.percentage <;> rfl
        · intro p hp
          cases hpc : c.percentage with
          | false => rw [hpc] at hp; simp at hp
          | true => rw [hpc] at hp; simp at hp; rw [← hp]; exact hpe'
        · intro y hy
          cases hy
          exact ⟨hca, r, hcb, hr⟩

theorem runs_ok (fp : FP) {c : Cfg} {T : ℚ} (hc : c.increment ≤ c.numSteps) (hn : c.numSteps ≤ 1073741824)
    (hl : c.barLen ≤ 1048576) (hT : 0 < T) (hT1 : T ≤ 1073741824) (ts : List ℚ) :
    ∀ (k : ℕ) (s : St), Inv c T k s → (∀ t ∈ ts, 0 ≤ t ∧ t * (max c.numSteps 1 : ℕ) ≤ 1073741824) →
      (∀ j (hj : j < ts.length), k + j + 1 = max c.numSteps 1 → ts[j] = T) →
      ∃ ls, runs fp c s ts = .ok ls ∧ ∃ hlen : ls.length = ts.length, ∀ j (hj : j < ts.length),
        Prints c.numSteps c.barLen (max 1 c.increment) c.remTime c.percentage c.actualNum c.finalTime T (k + j + 1) ts[j]
          (ls[j]'(hlen ▸ hj)) := by
  induction ts with
  | nil => intro k s _ _ _; exact ⟨[], rfl, rfl, fun j hj => absurd hj (by simp)⟩
  | cons t ts ih =>
    intro k s hI ht hend
    obtain ⟨s', l, hp, hI', hl'⟩ := progress_step fp hI hc hn hl (ht t (by simp)).1 (ht t (by simp)).2 hT hT1
      (fun h => hend 0 (by simp) (by simpa using h))
    obtain ⟨ls, hr, hlen, hall⟩ := ih (k + 1) s' hI' (fun x hx => ht x (by simp [hx])) (fun j hj h => by
      have := hend (j + 1) (by simpa using hj) (by omega)
      simpa using this)
    refine ⟨l :: ls, ?_, by simp [hlen], ?_⟩
    · unfold runs
      rw [hp]
      simp only [Res.bind]
      rw [hr]
    · intro j hj
      cases j with
      | zero => simpa using hl'
      | succ j =>
        have := hall j (by simpa using hj)
        rw [show k + 1 + j + 1 = k + (j + 1) + 1 by omega] at this
        simpa using this

/-- C108. A bar of any number of steps, told of each of them by `progress`, never fails. It draws itself every
`numSteps / updStepPerc` steps (at least one) with the proportion done filled in, says it is done at the last step and at every call after
that, and always shows the time the last step was reached. Partial: the interval is not `updStepPerc` percent of the steps
(`c108_interval_fails`). -/
theorem c108_progress_partial (fp : FP) (n len u : ℕ) (remTime percentage actualNum finalTime : Bool) (hn : n ≤ 1073741824)
    (hl : len ≤ 1048576) (hu : 1 ≤ u) (ts : List ℚ) (T : ℚ) (hT : 0 < T) (hT1 : T ≤ 1073741824)
    (ht : ∀ t ∈ ts, 0 ≤ t ∧ t * (max n 1 : ℕ) ≤ 1073741824) (hend : ∀ h : max n 1 - 1 < ts.length, ts[max n 1 - 1] = T) :
    ∃ c s ls, make fp n len u remTime percentage actualNum finalTime = .ok (c, s) ∧ runs fp c s ts = .ok ls ∧
      ∃ hlen : ls.length = ts.length, ∀ i (hi : i < ts.length),
        Prints n len (max 1 (n / min 100 u)) remTime percentage actualNum finalTime T (i + 1) ts[i] (ls[i]'(hlen ▸ hi)) := by
  have hinc := increment_eq fp hn hu
  have hle : n / min 100 u ≤ n := Nat.div_le_self _ _
  let c : Cfg := ⟨n, len, n / min 100 u, remTime, percentage, actualNum, finalTime⟩
  have hI : Inv c T 0 ⟨0, n / min 100 u, 0⟩ := by
    refine ⟨by simp, ?_, ?_⟩
    · show n / min 100 u = min ((0 / (n / min 100 u) + 1) * (n / min 100 u)) n
      rw [Nat.zero_div, Nat.zero_add, Nat.one_mul, Nat.min_eq_left hle]
    · rw [if_pos (show 0 < max c.numSteps 1 by omega)]
  obtain ⟨ls, hr, hlen, hall⟩ := runs_ok fp (c := c) hle hn hl hT hT1 ts 0 _ hI ht (fun j hj h => by
    have hj' : j = max n 1 - 1 := by
      have : 0 + j + 1 = max n 1 := h
      omega
    subst hj'
    exact hend hj)
  refine ⟨c, _, ls, ?_, hr, hlen, fun i hi => ?_⟩
  · unfold make
    rw [hinc]
    rfl
  · have := hall i hi
    rw [show 0 + i + 1 = i + 1 by omega] at this
    exact this

/-- C108. A call of `progress` says that all is done exactly if it is the last step or a later one. -/
theorem c108_done (fp : FP) (n len u : ℕ) (remTime percentage actualNum finalTime : Bool) (hn : n ≤ 1073741824)
    (hl : len ≤ 1048576) (hu : 1 ≤ u) (ts : List ℚ) (T : ℚ) (hT : 0 < T) (hT1 : T ≤ 1073741824)
    (ht : ∀ t ∈ ts, 0 ≤ t ∧ t * (max n 1 : ℕ) ≤ 1073741824) (hend : ∀ h : max n 1 - 1 < ts.length, ts[max n 1 - 1] = T) :
    ∃ c s ls, make fp n len u remTime percentage actualNum finalTime = .ok (c, s) ∧ runs fp c s ts = .ok ls ∧
      ls.length = ts.length ∧ ∀ i, i < ts.length → ((∃ x, ls[i]? = some (some (.done x))) ↔ n ≤ i + 1) := by
  obtain ⟨c, s, ls, h1, h2, hlen, h⟩ := c108_progress_partial fp n len u remTime percentage actualNum finalTime hn hl hu ts T hT hT1 ht hend
  refine ⟨c, s, ls, h1, h2, hlen, fun i hi => ?_⟩
  have hi' : i < ls.length := by omega
  have := h i hi
  rw [List.getElem?_eq_getElem hi']
  cases hx : ls[i] with
  | none => rw [hx] at this; exact ⟨fun ⟨x, h⟩ => by simp at h, fun h => by have := this.1; omega⟩
  | some l =>
    rw [hx] at this
    cases l with
    | done x => exact ⟨fun _ => this.1, fun _ => ⟨x, rfl⟩⟩
    | bar a b c d e => exact ⟨fun ⟨x, h⟩ => by simp at h, fun h => by have := this.1; omega⟩

/-! ## What fails -/

/-- The interval a user asks for: a line for each `updStepPerc` percent of the steps. -/
def EveryPercent (fp : FP) : Prop :=
  ∀ n u, 1 ≤ u → u ≤ 100 → n ≤ 1073741824 → 100 ∣ n * u → increment fp n u = .ok (n * u / 100)

/-- C108 fails for the interval: of 100 steps, a line every 20 percent is one every 5. -/
theorem c108_interval_fails (fp : FP) : ¬ EveryPercent fp := by
  intro h
  have := h 100 20 (by norm_num) (by norm_num) (by norm_num) (by norm_num)
  rw [increment_eq fp (by norm_num) (by norm_num)] at this
  simp at this

/-- C108 fails for an interval of 0 percent: the program is undefined. -/
theorem c108_zero_fails (fp : FP) (n len : ℕ) (a b c d : Bool) : make fp n len 0 a b c d = .ub := by
  simp [make, increment, Res.bind]

/-- C108 fails for `update(0)` of a bar with few steps: the time left is infinite, its conversion to `int` undefined. -/
theorem c108_update_zero_fails (fp : FP) (n len u : ℕ) (b c d : Bool) (now : ℚ) (h0 : 1 ≤ n) (h1 : n < min 100 u) :
    (make fp n len u true b c d).bind (fun r => update fp r.1 r.2 0 now) = .ub := by
  have hinc := increment_eq fp (n := n) (u := u) (by omega) (by omega)
  rw [Nat.div_eq_of_lt h1] at hinc
  unfold make
  rw [hinc]
  simp only [Res.bind, update]
  rw [if_neg (by simp), if_neg (by omega)]
  have hz : fp.rnd 0 = 0 := by simpa using rnd_nat fp 0 (by omega)
  simp [barLine, times, percentOf, u64, hz, Res.bind]

/-! ## Examples -/

/-- Three steps, a line at each of them. -/
example : (make FP.exact 3 20 10 true true true true).bind (fun r => runs FP.exact r.1 r.2 [1, 2, 3, 4]) = .ok
    [some (.bar 6 14 (some (1, 3)) (some (100 / 3)) (some (⟨0, 0, 1⟩, ⟨0, 0, 2⟩))),
     some (.bar 13 7 (some (2, 3)) (some (200 / 3)) (some (⟨0, 0, 2⟩, ⟨0, 0, 1⟩))),
     some (.done (some ⟨0, 0, 3⟩)), some (.done (some ⟨0, 0, 3⟩))] := by
  with_unfolding_all decide +kernel

/-- The hypotheses of C108 are met by it. -/
example := c108_progress_partial FP.exact 3 20 10 true true true true (by norm_num) (by norm_num) (by norm_num) [1, 2, 3, 4] 3
  (by norm_num) (by norm_num) (by norm_num) (fun _ => rfl)

end PBar
end Ikf
