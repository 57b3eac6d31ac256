import Verif.Model.NoiseGen
import Mathlib.Probability.Distributions.Gaussian.Real
import Mathlib.MeasureTheory.Constructions.Pi

/-! # Property C94: seeding makes the numbers reproducible; and the law of `UnivariateNormal` (C93) -/

namespace Ikf
namespace Noise

variable {G : Type} {lib : Lib G}

/-! ## Specification -/

/-- The numbers of a newly started generator that is seeded with `v` at once. -/
def stream (lib : Lib G) (v n : ℕ) : List ℝ := (randns lib n ⟨lib.seeded (v % 4294967296), none⟩).1

/-- How many numbers a history draws. -/
def drawn : List Ev → ℕ
  | [] => 0
  | .draw n :: es => n + drawn es
  | .seed _ :: es => drawn es

/-! ## Proofs -/

theorem kept_randns (n : ℕ) (s : Gen G) : (randns lib n s).2.kept.isSome = (s.kept.isSome != decide (n % 2 = 1)) := by
  induction n generalizing s with
  | zero => simp [randns]
  | succ n ih =>
    simp only [randns]
    rw [ih]
    have : (randn lib s).2.kept.isSome = !s.kept.isSome := by
      unfold randn
      split <;> rename_i h <;> simp [h]
    rw [this]
    rcases Nat.mod_two_eq_zero_or_one n with h | h
    · have : (n + 1) % 2 = 1 := by omega
      simp [h, this]
    · have : (n + 1) % 2 = 0 := by omega
      simp [h, this]

theorem kept_run (es : List Ev) (s : Gen G) : (run lib es s).2.kept.isSome = (s.kept.isSome != decide (drawn es % 2 = 1)) := by
  induction es generalizing s with
  | nil => simp [run, drawn]
  | cons e es ih =>
    simp only [run]
    rw [ih]
    cases e with
    | seed v => rfl
    | draw n =>
      simp only [step, drawn]
      rw [kept_randns]
      rcases Nat.mod_two_eq_zero_or_one n with h | h <;> rcases Nat.mod_two_eq_zero_or_one (drawn es) with h' | h'
      · have : (n + drawn es) % 2 = 0 := by omega
        simp [h, h', this]
      · have : (n + drawn es) % 2 = 1 := by omega
        simp [h, h', this]
      · have : (n + drawn es) % 2 = 1 := by omega
        simp [h, h', this]
      · have : (n + drawn es) % 2 = 0 := by omega
        simp [h, h', this]

/-- C94. After a seed the numbers depend on the seed only if an even number of numbers was drawn in the program before; otherwise the first
is a number left over from before and the others follow the seed. -/
theorem c94_seed_partial (device : G) (es : List Ev) (v n : ℕ) :
    (drawn es % 2 = 0 → (randns lib n (seed lib (run lib es (start device)).2 v)).1 = stream lib v n) ∧
    (drawn es % 2 = 1 → ∃ x, (run lib es (start device)).2.kept = some x ∧
      (randns lib (n + 1) (seed lib (run lib es (start device)).2 v)).1 = x :: stream lib v n) := by
  have hk := kept_run (lib := lib) es (start device)
  constructor
  · intro h
    rw [h] at hk
    have : (run lib es (start device)).2.kept = none := by simpa [start] using hk
    unfold seed stream
    rw [this]
  · intro h
    rw [h] at hk
    obtain ⟨x, hx⟩ : ∃ x, (run lib es (start device)).2.kept = some x := Option.isSome_iff_exists.mp (by rw [hk]; rfl)
    refine ⟨x, hx, ?_⟩
    have : seed lib (run lib es (start device)).2 v = ⟨lib.seeded (v % 4294967296), some x⟩ := by
      unfold seed
      rw [hx]
    rw [this]
    rfl

/-- C94 in full is false: whenever the two numbers of a pair differ somewhere, there are two histories after which the same seed gives
different numbers. -/
theorem c94_seed_fails (device : G) (v : ℕ) (h : (lib.pair device).1.2 ≠ (lib.pair (lib.seeded (v % 4294967296))).1.1) :
    (randns lib 1 (seed lib (run lib [.draw 1] (start device)).2 v)).1 ≠ (randns lib 1 (seed lib (run lib [] (start device)).2 v)).1 := by
  simpa [randns, randn, seed, run, step, start] using h

/-- C94. A program that seeds before it draws anything delivers the same numbers in every run, whatever the random device says. -/
theorem c94_reproducible (d1 d2 : G) (v : ℕ) (es : List Ev) : (run lib (.seed v :: es) (start d1)).1 = (run lib (.seed v :: es) (start d2)).1 := rfl

/-- C94. Seeds that agree modulo 2^32 are the same seed. -/
theorem c94_seed_modulo (s : Gen G) (v : ℕ) : seed lib s (v + 4294967296) = seed lib s v := by simp [seed]

/-! ## Univariate samples -/

theorem length_randns (n : ℕ) (s : Gen G) : (randns lib n s).1.length = n := by
  induction n generalizing s with
  | zero => rfl
  | succ n ih => simp [randns, ih]

open MeasureTheory ProbabilityTheory in
/-- C93. Whenever the numbers the shared generator delivers are independent standard normal numbers, the samples of `UnivariateNormal` are
independent and have the mean and the standard deviation given (whatever its sign). -/
theorem c93_univariate {Ω : Type} [MeasurableSpace Ω] (P : Measure Ω) (s : Ω → Gen G) (mean std : ℝ) (nn : ℕ)
    (hm : AEMeasurable (fun ω (j : Fin nn) => (randns lib nn (s ω)).1.getD j 0) P)
    (hz : P.map (fun ω (j : Fin nn) => (randns lib nn (s ω)).1.getD j 0) = Measure.pi fun _ => gaussianReal 0 1) :
    (∀ ω, (samples lib mean std nn (s ω)).1.length = nn) ∧
    P.map (fun ω (j : Fin nn) => (samples lib mean std nn (s ω)).1.getD j 0) =
      Measure.pi fun _ : Fin nn => gaussianReal mean (Real.toNNReal (std ^ 2)) := by
  refine ⟨fun ω => by simp [samples, length_randns], ?_⟩
  have e : (fun ω (j : Fin nn) => (samples lib mean std nn (s ω)).1.getD j 0) =
      (fun (z : Fin nn → ℝ) j => std * z j + mean) ∘ fun ω (j : Fin nn) => (randns lib nn (s ω)).1.getD j 0 := by
    funext ω j
    have hj : j.1 < (randns lib nn (s ω)).1.length := by rw [length_randns]; exact j.2
    simp [samples, List.getD_eq_getElem?_getD, List.getElem?_eq_getElem hj]
  rw [e, ← AEMeasurable.map_map_of_aemeasurable (Measurable.aemeasurable (by fun_prop)) hm, hz,
    Measure.pi_map_pi (f := fun _ (x : ℝ) => std * x + mean) (fun _ => by fun_prop)]
  congr 1
  funext _
  have h1 := gaussianReal_map_const_mul (μ := 0) (v := 1) std
  have h2 := gaussianReal_map_add_const (μ := std * 0) (v := NNReal.mk (std ^ 2) (sq_nonneg std) * 1) mean
  rw [← h1, Measure.map_map (by fun_prop) (by fun_prop)] at h2
  have e2 : Real.toNNReal (std ^ 2) = NNReal.mk (std ^ 2) (sq_nonneg std) * 1 := by
    rw [mul_one]
    exact Real.toNNReal_of_nonneg (sq_nonneg std)
  rw [e2]
  simpa [Function.comp_def] using h2

/-- The generator of the example: its engine is the list of the pairs to come. -/
def listLib : Lib (List (ℝ × ℝ)) where
  seeded _ := []
  pair
    | [] => ((0, 0), [])
    | p :: r => (p, r)

open MeasureTheory ProbabilityTheory in
/-- The premises of `c93_univariate` can be met: two independent standard normal numbers, as one pair. -/
example : ∃ (Ω : Type) (_ : MeasurableSpace Ω) (P : Measure Ω) (s : Ω → Gen (List (ℝ × ℝ))),
    AEMeasurable (fun ω (j : Fin 2) => (randns listLib 2 (s ω)).1.getD j 0) P ∧
    P.map (fun ω (j : Fin 2) => (randns listLib 2 (s ω)).1.getD j 0) = Measure.pi fun _ => gaussianReal 0 1 := by
  refine ⟨Fin 2 → ℝ, inferInstance, Measure.pi fun _ => gaussianReal 0 1, fun z => ⟨[(z 0, z 1)], none⟩, ?_⟩
  have : (fun (ω : Fin 2 → ℝ) (j : Fin 2) => (randns listLib 2 ⟨[(ω 0, ω 1)], none⟩).1.getD j 0) = id := by
    funext ω j
    fin_cases j <;> rfl
  rw [this]
  exact ⟨aemeasurable_id, Measure.map_id⟩

/-- The premises of C94 are met by an engine that counts. -/
example : ∃ (lib : Lib ℕ) (device v : ℕ), (lib.pair device).1.2 ≠ (lib.pair (lib.seeded (v % 4294967296))).1.1 :=
  ⟨⟨fun v => v, fun g => ((g, g + 1), g + 2)⟩, 5, 9, by norm_num⟩

end Noise
end Ikf
