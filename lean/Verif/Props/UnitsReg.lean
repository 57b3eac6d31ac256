import Verif.Props.Units
import Verif.Props.NearOptimal

/-! # Property C120 with regularisation: in other units the covariances agree up to a factor -/

namespace Ikf
namespace Units
open Matrix SKF Certainty NearOptimal

variable {n k : ℕ}

theorem image_mono {A B : Matrix (Fin n) (Fin n) ℝ} (h : AtMost A B) (T : Matrix (Fin k) (Fin n) ℝ) : AtMost (T * A * Tᵀ) (T * B * Tᵀ) := by
  have := Alg.psd_congr h T
  unfold AtMost
  rwa [Matrix.mul_sub, Matrix.sub_mul] at this

theorem converted_ideal {T : Matrix (Fin k) (Fin n) ℝ} {c c' : KCall} (h : Converted T c c') : Converted T (idealCall c) (idealCall c') := by
  cases h with
  | prop => constructor <;> assumption
  | propEKF => constructor <;> assumption
  | propBel => constructor <;> assumption
  | priv m H R z H' R' z' U t cfg h hz hz' e => exact .priv m H R z H' R' z' U t _ h hz hz' e
  | privEKF m H R z H' R' z' U t cfg h hz hz' e => exact .privEKF m H R z H' R' z' U t _ h hz hz' e
  | correct => constructor <;> assumption

theorem unreg_ideal (c : KCall) : Unregularised (idealCall c) := by cases c <;> first | rfl | trivial

theorem observations_converted {T : Matrix (Fin k) (Fin n) ℝ} {cs cs' : List KCall} (h : List.Forall₂ (Converted T) cs cs') : observations cs' = observations cs := by
  induction h with
  | nil => rfl
  | cons h _ ih => cases h <;> simp only [observations, ih]

/-- C120 with any configuration but for the outlier gate (partial: a factor, and only the covariances). One filter estimates `x`, the other `T x`, and the second is
told about `T x` what the first is told about `x`. Let the `eps` of the configuration be at most the fraction `δ < 1` of the measurement noises and, with
stabilisation, of the covariances reported, in the units of either filter. If both accept all calls, then after `k` observations the covariance the second reports
and that of `T x` following from the first differ at most by the factor `((1 + δ)² / (1 - δ)) ^ k`, at every time. -/
theorem c120_regularised_partial (T : Matrix (Fin k) (Fin n) ℝ) (h h' : Buf Belief) (ho : Ok n h) (ho' : Ok k h') (hs : SameAs T (estimates n h) (estimates k h'))
    (cs cs' : List KCall) (hc : List.Forall₂ (Converted T) cs cs') (hf : ∀ c ∈ cs, c.Fits n) (hf' : ∀ c ∈ cs', c.Fits k) (hg : ∀ c ∈ cs, GateOff c)
    (δ : ℝ) (hδ : 0 ≤ δ) (hδ1 : δ < 1) (hS : Small n δ h cs) (hS' : Small k δ h' cs') (h1 h1' : Buf Belief) (as as' : List Bool)
    (hr : calls h cs = .ok (h1, as)) (hr' : calls h' cs' = .ok (h1', as')) (hall : ∀ a ∈ as, a = true) (hall' : ∀ a ∈ as', a = true) (t : Int) :
    (∀ g, estimates n h1 t = some g → ∃ g', estimates k h1' t = some g' ∧ AtMost g'.cov (((1 + δ) ^ 2 / (1 - δ)) ^ observations cs • (T * g.cov * Tᵀ)) ∧
      AtMost (T * g.cov * Tᵀ) (((1 + δ) ^ 2 / (1 - δ)) ^ observations cs • g'.cov)) ∧
    (∀ g', estimates k h1' t = some g' → ∃ g, estimates n h1 t = some g) := by
  obtain ⟨k0, e0⟩ := c127_accepted h ho cs hf hg δ hδ hS h1 as hr hall
  have fi : ∀ c ∈ cs.map idealCall, c.Fits n ∧ Unregularised c := by
    intro c hx
    obtain ⟨c, hm, rfl⟩ := List.mem_map.mp hx
    refine ⟨?_, unreg_ideal c⟩
    obtain ⟨b, a, rfl⟩ := List.append_of_mem hm
    rw [show b ++ c :: a = (b ++ [c]) ++ a by simp] at hr
    obtain ⟨k', as', hk⟩ := calls_prefix _ _ hr
    exact fits_ideal hδ (hf c hm) (hS b c a k' as' rfl hk)
  have ci : List.Forall₂ (Converted T) (cs.map idealCall) (cs'.map idealCall) := by
    rw [List.forall₂_map_left_iff, List.forall₂_map_right_iff]
    exact hc.imp fun _ _ h => converted_ideal h
  obtain ⟨k0', e0', hsame⟩ := c120_units_partial T h h' ho ho' hs _ _ ci fi k0 as e0
  obtain ⟨u1, d1⟩ := c127_covariance h ho cs hf δ hδ hδ1 hS h1 k0 as as hr e0 hall hall
  obtain ⟨u2, d2⟩ := c127_covariance h' ho' cs' hf' δ hδ hδ1 hS' h1' k0' as' as hr' e0' hall' hall
  rw [observations_converted hc] at u2 d2
  set q := (1 + δ) / (1 - δ) with hq
  have q0 : 0 ≤ q := div_nonneg (by linarith) (by linarith)
  have eq1 : (q ^ observations cs) * (1 + δ) ^ observations cs = ((1 + δ) ^ 2 / (1 - δ)) ^ observations cs := by
    rw [← mul_pow, hq]
    congr 1
    rw [sq, div_mul_eq_mul_div]
  constructor
  · intro g hgt
    obtain ⟨g0, hg0, l0⟩ := d1 t g hgt
    have hs0 := hsame t
    rw [hg0, Option.map_some] at hs0
    obtain ⟨g', hg', l'⟩ := u2 t _ hs0
    obtain ⟨x, hx, l1⟩ := u1 t g0 hg0
    rw [hgt] at hx; cases hx
    obtain ⟨y, hy, l2⟩ := d2 t g' hg'
    rw [hs0] at hy; cases hy
    simp only [image] at l' l2
    refine ⟨g', hg', ?_, ?_⟩
    · have := Simultaneous.le_sc (image_mono l0 T) (pow_nonneg q0 (observations cs))
      rw [Matrix.mul_smul, Matrix.smul_mul, smul_smul, eq1] at this
      exact Simultaneous.le_tr l' this
    · have a := image_mono l1 T
      rw [Matrix.mul_smul, Matrix.smul_mul] at a
      have b := Simultaneous.le_sc l2 (pow_nonneg q0 (observations cs))
      rw [smul_smul, eq1] at b
      exact Simultaneous.le_tr a b
  · intro g' hg'
    obtain ⟨g0', hg0', -⟩ := d2 t g' hg'
    have hs0 := hsame t
    rw [hg0'] at hs0
    obtain ⟨g0, hg0, -⟩ := Option.map_eq_some_iff.mp hs0.symm
    obtain ⟨g, hgt, -⟩ := u1 t g0 hg0
    exact ⟨g, hgt⟩

open MathExample Simultaneous in
/-- The hypotheses of `c120_regularised_partial` are met: a scalar with variance 1 is observed with noise variance 1, and the same with all units halved; default
configuration but for the gate, `δ = 1e-15`. -/
example : ∃ h1 h1' : Buf Belief, Ok 1 (scalar 1) ∧ Ok 1 (scalar 4) ∧ SameAs twice (estimates 1 (scalar 1)) (estimates 1 (scalar 4)) ∧
    List.Forall₂ (Converted twice) [observe 1] [observe 4] ∧ (observe 1).Fits 1 ∧ (observe 4).Fits 1 ∧ GateOff (observe 1) ∧
    NearOptimal.Small 1 (1 / 10 ^ 15) (scalar 1) [observe 1] ∧ NearOptimal.Small 1 (1 / 10 ^ 15) (scalar 4) [observe 4] ∧
    calls (scalar 1) [observe 1] = .ok (h1, [true]) ∧ calls (scalar 4) [observe 4] = .ok (h1', [true]) := by
  have hest : ∀ p, estimates 1 (scalar p) 0 = some ⟨(sc 0).toM 1 1, p • 1⟩ := fun p => by rw [scalar_est, if_pos rfl]
  have sm : ∀ p : ℝ, 1 ≤ p → 1 / 10 ≤ after p p → ∃ h1, calls (scalar p) [observe p] = .ok (h1, [true]) ∧ NearOptimal.Small 1 (1 / 10 ^ 15) (scalar p) [observe p] := by
    intro p hp hp4
    obtain ⟨h1, hc, _, g, hg, hv⟩ := observe_any (p := p) (r := p) (scalar_ok (by linarith)) (hest p) (by linarith) (by linarith) rfl
    refine ⟨h1, by simp only [calls, hc, Res.bind_ok], ?_⟩
    intro before c after' k as e hk
    rcases before with _ | ⟨b, before⟩
    · simp only [List.nil_append, List.cons.injEq] at e
      obtain ⟨rfl, -⟩ := e
      simp only [List.nil_append, calls, hc, Res.bind_ok, Res.ok.injEq, Prod.mk.injEq] at hk
      rw [← hk.1]
      refine ⟨?_, fun _ x hx => ?_⟩
      · have : AtMost ((1 / 10 ^ 16 : ℝ) • (1 : Matrix (Fin 1) (Fin 1) ℝ)) ((1 / 10 ^ 15 : ℝ) • (sc p).toM 1 1) := by
          rw [sc_eq, smul_smul]
          exact sc_le PosSemidef.one (by linarith)
        exact this
      · have hx' : estimates 1 h1 0 = some x := hx
        rw [hg] at hx'
        cases hx'
        have : AtMost ((1 / 10 ^ 16 : ℝ) • (1 : Matrix (Fin 1) (Fin 1) ℝ)) ((1 / 10 ^ 15 : ℝ) • g.cov) := by
          rw [hv, smul_smul]
          exact sc_le PosSemidef.one (by linarith)
        exact this
    · have := congrArg List.length e
      simp at this
  obtain ⟨h1, c1, s1⟩ := sm 1 le_rfl (by unfold after; norm_num)
  obtain ⟨h1', c1', s1'⟩ := sm 4 (by norm_num) (by unfold after; norm_num)
  refine ⟨h1, h1', scalar_ok zero_le_one, scalar_ok (by norm_num), ?_, .cons ?_ .nil, observe_fits zero_le_one, observe_fits (by norm_num), rfl, s1, s1', c1, c1'⟩
  · intro t
    rw [scalar_est, scalar_est]
    split
    · rw [Option.map_some]
      congr 1
      refine Gauss.ext ?_ ?_
      · show _ = twice * (sc 0).toM 1 1
        rw [sc_eq]
        simp
      · show (4 : ℝ) • (1 : Matrix (Fin 1) (Fin 1) ℝ) = twice * ((1 : ℝ) • 1) * twiceᵀ
        unfold twice
        ext i j; fin_cases i; fin_cases j; simp; norm_num
    · rfl
  · refine Converted.priv 1 _ _ _ _ _ _ twice _ _ ⟨?_, ⟨rfl, rfl⟩, ⟨rfl, rfl⟩, ⟨rfl, rfl⟩, ⟨rfl, rfl⟩, ?_, ?_⟩ ⟨rfl, rfl⟩ ⟨rfl, rfl⟩ ?_
    · simp [twice]
    · rw [sc_eq, one_smul, Matrix.one_mul, Matrix.mul_one]
    · rw [sc_eq, sc_eq]
      unfold twice
      ext i j; fin_cases i; fin_cases j; simp; norm_num
    · rw [sc_eq]
      simp

end Units
end Ikf
