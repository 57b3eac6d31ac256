import Verif.Props.Certainty

/-! # Property C117 with regularisation: certainty up to a factor -/

namespace Ikf
namespace Certainty
open Matrix SKF

variable {n m : ℕ}

theorem smul_add_psd {A : Matrix (Fin n) (Fin n) ℝ} (hA : A.PosSemidef) {c : ℝ} (hc : 0 ≤ c) : (c • A).PosSemidef := hA.smul hc

/-- The update of both filters loses at most the factor `1 + δ`. -/
theorem update_mono_reg (g g' : Gauss n) (hg : g.cov.PosSemidef) (hg' : g'.cov.PosSemidef) {κ δ : ℝ} (hκ : 1 ≤ κ) (hδ : 0 ≤ δ)
    (hl : AtMost g.cov (κ • g'.cov)) (H : Matrix (Fin m) (Fin n) ℝ) (R R' : Matrix (Fin m) (Fin m) ℝ) (e : ℝ) (he : 0 ≤ e)
    (hR : (R + e • 1).PosDef) (hRR : AtMost R R') (hR0 : R'.PosSemidef) (hd : AtMost (e • 1) (δ • R')) (r r' : Matrix (Fin m) (Fin 1) ℝ) (j s : Bool) :
    AtMost (g.updateReg H R r e j s).cov ((κ * (1 + δ)) • (g'.updateReg H R' r' e j s).cov) := by
  have hR' : (R' + e • 1).PosDef := by
    have : R' + e • 1 = (R' - R) + (R + e • 1) := by abel
    rw [this]
    exact PosDef.posSemidef_add hRR hR
  unfold AtMost
  rw [updateReg_cov, updateReg_cov]
  set K := Alg.gain g.cov H (R + e • 1) with hK
  set K' := Alg.gain g'.cov H (R' + e • 1) with hK'
  -- the exact updates
  have h1 := Alg.joseph_gain hg' H (Alg.innov_pd hg' H hR')
  rw [← hK'] at h1
  have h2 := Alg.gain_optimal_psd hg H (Alg.innov_pd hg H hR) K'
  rw [← hK] at h2
  have hn : (κ • (R' + e • 1) - (R + e • 1)).PosSemidef := by
    have h5 := (smul_add_psd (hR'.posSemidef) (sub_nonneg.mpr hκ)).add hRR
    convert h5 using 1
    rw [sub_smul, one_smul]
    abel
  have h3 : κ • Alg.joseph g'.cov H (R' + e • 1) K' - Alg.joseph g.cov H (R + e • 1) K' =
      Alg.joseph (κ • g'.cov - g.cov) H (κ • (R' + e • 1) - (R + e • 1)) K' := by
    simp only [Alg.joseph, Matrix.mul_sub, Matrix.sub_mul, Matrix.mul_add, Matrix.add_mul, smul_add, Matrix.mul_smul, Matrix.smul_mul, smul_sub]
    abel
  have h4 := (Alg.joseph_psd hl H hn K').add h2
  rw [← h3, h1] at h4
  -- the defect of the Joseph form of the second filter
  have hδP : (δ • ((1 - K' * H) * g'.cov) - ((1 + δ) * e) • (K' * K'ᵀ)).PosSemidef := by
    have h5 := smul_add_psd (Alg.psd_congr hg' (1 - K' * H)) hδ
    have h6 := Alg.psd_congr hd K'
    have h7 := h5.add h6
    rw [← h1]
    convert h7 using 1
    simp only [Alg.joseph, Matrix.mul_sub, Matrix.sub_mul, Matrix.mul_add, Matrix.add_mul, smul_add, Matrix.mul_smul, Matrix.smul_mul, smul_sub,
      Matrix.mul_one, Matrix.one_mul, add_mul, one_mul, add_smul, mul_smul, Matrix.transpose_sub]
    abel
  have hj : ((κ * δ) • ((1 - K' * H) * g'.cov) - (κ * (1 + δ)) • (if j then e • (K' * K'ᵀ) else 0)).PosSemidef := by
    have h5 := smul_add_psd hδP (zero_le_one.trans hκ)
    cases j with
    | true =>
      convert h5 using 1
      simp only [if_true, smul_sub, smul_smul, mul_assoc]
    | false =>
      have h8 := smul_add_psd (Alg.joseph_psd hg' H hR'.posSemidef K') (mul_nonneg (zero_le_one.trans hκ) hδ)
      rw [h1] at h8
      simpa using h8
  have hj1 : (if j then e • (K * Kᵀ) else 0).PosSemidef := by
    split
    · have := Alg.psd_congr (Alg.smul_one_psd (n := Fin m) he) K
      simpa only [Matrix.mul_smul, Matrix.smul_mul, Matrix.mul_one] using this
    · exact PosSemidef.zero
  have hs : ((κ * (1 + δ) - 1) • (if s then e • (1 : Matrix (Fin n) (Fin n) ℝ) else 0)).PosSemidef := by
    refine smul_add_psd ?_ (by nlinarith)
    split
    · exact Alg.smul_one_psd he
    · exact PosSemidef.zero
  have h9 := ((h4.add hj).add hj1).add hs
  convert h9 using 1
  simp only [smul_add, smul_sub, sub_smul, one_smul, mul_add, mul_one, add_smul]
  abel

theorem NoWorseBy.mono {f : Int → Option (Gauss n)} {h' : Buf Belief} (ho : Ok n h') {κ κ' : ℝ} (hk : κ ≤ κ') (h : NoWorseBy κ f (estimates n h')) :
    NoWorseBy κ' f (estimates n h') := by
  intro t g' hg'
  obtain ⟨g, h1, h2⟩ := h t g' hg'
  refine ⟨g, h1, ?_⟩
  have h3 := PosSemidef.add h2 (smul_add_psd (psd_at ho hg') (sub_nonneg.mpr hk))
  unfold AtMost
  convert h3 using 1
  rw [sub_smul]
  abel

theorem NoWorseBy.update {κ : ℝ} {f f' : Int → Option (Gauss n)} (h : NoWorseBy κ f f') (t : Int) {g g' : Gauss n} (hg : AtMost g.cov (κ • g'.cov)) :
    NoWorseBy κ (Function.update f t (some g)) (Function.update f' t (some g')) := by
  intro u x hx
  by_cases hu : u = t
  · subst hu
    rw [Function.update_self] at hx ⊢
    cases hx
    exact ⟨g, rfl, hg⟩
  · rw [Function.update_of_ne hu] at hx ⊢
    exact h u x hx

/-- The factor one call costs. -/
theorem predict_mono_reg {P P' F Q Q' : Matrix (Fin n) (Fin n) ℝ} {κ : ℝ} (hκ : 1 ≤ κ) (hl : AtMost P (κ • P')) (hQ : AtMost Q Q') (hQ' : Q'.PosSemidef) :
    AtMost (F * P * Fᵀ + Q) (κ • (F * P' * Fᵀ + Q')) := by
  have h1 := ((Alg.psd_congr hl F).add hQ).add (smul_add_psd hQ' (sub_nonneg.mpr hκ))
  unfold AtMost
  convert h1 using 1
  simp only [Matrix.mul_sub, Matrix.sub_mul, Matrix.mul_smul, Matrix.smul_mul, smul_add, sub_smul, one_smul]
  abel

theorem pair_step_reg {h h1 h' h1' : Buf Belief} (ho : Ok n h) (ho' : Ok n h') {c c' : KCall} (hf : c.Fits n) (hf' : c'.Fits n) {κ δ : ℝ} (hκ : 1 ≤ κ)
    (hδ : 0 ≤ δ) (hT : TellsReg n δ c c') (hc : call h c = .ok (h1, true)) (hc' : call h' c' = .ok (h1', true))
    (hw : NoWorseBy κ (estimates n h) (estimates n h')) :
    NoWorseBy (κ * (1 + δ) ^ observations [c]) (estimates n h1) (estimates n h1') := by
  obtain ⟨ht, _⟩ := call_true ho c hf hc
  obtain ⟨ht', _⟩ := call_true ho' c' hf' hc'
  generalize he : estimates n h1 = f1 at ht ⊢
  generalize he' : estimates n h1' = f1' at ht' ⊢
  have hw2 : NoWorseBy (κ * (1 + δ)) (estimates n h) (estimates n h') := hw.mono ho' (by nlinarith)
  cases hT with
  | prop Phi Q Q' ta tb hQ =>
    simp only [observations, pow_zero, mul_one]
    cases ht with
    | prop _ _ _ _ g hg =>
      cases ht' with
      | prop _ _ _ _ g' hg' =>
        obtain ⟨x, hx, hl⟩ := hw ta g' hg'
        rw [hg] at hx
        cases hx
        exact hw.update tb (predict_mono_reg hκ hl hQ hf')
  | propEKF mb mb' Phi Q Q' ta tb hQ =>
    simp only [observations, pow_zero, mul_one]
    cases ht with
    | propEKF _ _ _ _ _ g hg =>
      cases ht' with
      | propEKF _ _ _ _ _ g' hg' =>
        obtain ⟨x, hx, hl⟩ := hw ta g' hg'
        rw [hg] at hx
        cases hx
        exact hw.update tb (predict_mono_reg hκ hl hQ hf')
  | propBel b b' Phi ta tb hb =>
    simp only [observations, pow_zero, mul_one]
    cases ht
    cases ht'
    refine hw.update tb ?_
    have h1 := PosSemidef.add hb (smul_add_psd hf'.2.2 (sub_nonneg.mpr hκ))
    unfold AtMost
    convert h1 using 1
    rw [sub_smul, one_smul]
    abel
  | priv H R R' z z' t cfg hz hR hcf =>
    simp only [observations, zero_add, pow_one]
    cases ht with
    | priv _ _ _ _ _ g hg =>
      cases ht' with
      | priv _ _ _ _ _ g' hg' =>
        obtain ⟨x, hx, hl⟩ := hw t g' hg'
        rw [hg] at hx
        cases hx
        refine hw2.update t ?_
        have hfR := hf.2.2
        have hfR' := hf'.2.1
        generalize hm : z.rows = m at hz hR hfR hcf ⊢
        subst hz
        exact update_mono_reg g g' (psd_at ho hg) (psd_at ho' hg') hκ hδ hl _ _ _ _ hf.1 hfR hR hfR' hcf _ _ _ _
  | privEKF H R R' z z' t cfg hz hR hcf =>
    simp only [observations, zero_add, pow_one]
    cases ht with
    | privEKF _ _ _ _ _ g hg =>
      cases ht' with
      | privEKF _ _ _ _ _ g' hg' =>
        obtain ⟨x, hx, hl⟩ := hw t g' hg'
        rw [hg] at hx
        cases hx
        refine hw2.update t ?_
        have hfR := hf.2.2
        have hfR' := hf'.2.1
        generalize hm : z.rows = m at hz hR hfR hcf ⊢
        subst hz
        exact update_mono_reg g g' (psd_at ho hg) (psd_at ho' hg') hκ hδ hl _ _ _ _ hf.1 hfR hR hfR' hcf _ _ _ _

theorem observations_cons (c : KCall) (cs : List KCall) : observations (c :: cs) = observations [c] + observations cs := by
  cases c <;> simp [observations, add_comm]

/-- C117 (partial: the factor). With any configuration, the default one included: take two filters of which the first is nowhere less certain, and feed
both, the first with smaller or equal noise covariances; all calls are accepted. If the `ε` of the configuration is at most the fraction `δ` of the
measurement noise, the reported covariances of the first filter are at most `(1 + δ) ^ k` times those of the second after `k` observations. (For `ε =
1e-16` and standard deviations of at least 1 cm, a million observations cost less than 2e-6.) -/
theorem c117_regularised_partial (h h' : Buf Belief) (ho : Ok n h) (ho' : Ok n h') (cs cs' : List KCall)
    (hf : ∀ c ∈ cs, c.Fits n) (hf' : ∀ c ∈ cs', c.Fits n) (δ : ℝ) (hδ : 0 ≤ δ) (hT : List.Forall₂ (TellsReg n δ) cs cs')
    (h0 : NoWorse (estimates n h) (estimates n h'))
    (h1 h1' : Buf Belief) (as as' : List Bool) (hr : calls h cs = .ok (h1, as)) (hr' : calls h' cs' = .ok (h1', as'))
    (hall : ∀ a ∈ as, a = true) (hall' : ∀ a ∈ as', a = true) :
    NoWorseBy ((1 + δ) ^ observations cs) (estimates n h1) (estimates n h1') := by
  have key : ∀ κ : ℝ, 1 ≤ κ → NoWorseBy κ (estimates n h) (estimates n h') →
      NoWorseBy (κ * (1 + δ) ^ observations cs) (estimates n h1) (estimates n h1') := by
    clear h0
    induction hT generalizing h h' as as' with
    | nil =>
      intro κ _ hw
      simp only [calls, Res.ok.injEq, Prod.mk.injEq] at hr hr'
      rw [← hr.1, ← hr'.1]
      simpa [observations] using hw
    | @cons c c' cs cs' hT r ih =>
      intro κ hκ hw
      obtain ⟨k, a, bs, hc, hcs, rfl⟩ := calls_cons hr
      obtain ⟨k', a', bs', hc', hcs', rfl⟩ := calls_cons hr'
      obtain rfl : a = true := hall a (by simp)
      obtain rfl : a' = true := hall' a' (by simp)
      have hfc := hf c (by simp)
      have hfc' := hf' c' (by simp)
      have hs := pair_step_reg ho ho' hfc hfc' hκ hδ hT hc hc' hw
      have hp : (1 : ℝ) ≤ (1 + δ) ^ observations [c] := one_le_pow₀ (by linarith)
      have := ih k k' (call_true ho c hfc hc).2 (call_true ho' c' hfc' hc').2 (fun x hx => hf x (by simp [hx])) (fun x hx => hf' x (by simp [hx]))
        bs bs' hcs hcs' (fun x hx => hall x (by simp [hx])) (fun x hx => hall' x (by simp [hx])) _ (by nlinarith) hs
      rw [observations_cons, pow_add, ← mul_assoc]
      exact this
  have := key 1 le_rfl (fun t g' hg' => by
    obtain ⟨g, h2, h3⟩ := h0 t g' hg'
    exact ⟨g, h2, by rw [one_smul]; exact h3⟩)
  rwa [one_mul] at this

/-- The hypotheses are met: two scalar filters, the default configuration but for the outlier gate, noise variances 1 and 2, `δ = 1e-16`. -/
example : List.Forall₂ (TellsReg 1 (1 / 10 ^ 16)) [observe 1, observe 1] [observe 2, observe 2] ∧ observations [observe 1, observe 1] = 2 ∧
    (∀ c ∈ [observe 1, observe 1], c.Fits 1) ∧ (∀ c ∈ [observe 2, observe 2], c.Fits 1) ∧
    NoWorse (estimates 1 (scalar 1)) (estimates 1 (scalar 3)) ∧
    (∃ h1, calls (scalar 1) [observe 1, observe 1] = .ok (h1, [true, true])) ∧ ∃ h1, calls (scalar 3) [observe 2, observe 2] = .ok (h1, [true, true]) := by
  have hrun : ∀ p r : ℝ, 0 ≤ p → 0 ≤ r → ∃ h1, calls (scalar p) [observe r, observe r] = .ok (h1, [true, true]) := by
    intro p r hp hr
    obtain ⟨h1, hc, g, hg, -⟩ := observe_run hp hr
    have ho1 := (call_true (scalar_ok hp) _ (observe_fits hr) hc).2
    obtain ⟨b, hb, -⟩ := Option.map_eq_some_iff.mp hg
    obtain ⟨h2, a, hc2, ha⟩ := ((c100_defined (m := 1) h1 ho1 0 b hb).2.2 (MathExample.sc 1) (MathExample.sc r) (MathExample.sc 0) { outlier := false }
      rfl rfl rfl rfl rfl rfl (Or.inl rfl)).1
    rw [ha rfl] at hc2
    have hc2' : call h1 (observe r) = .ok (h2, true) := hc2
    exact ⟨h2, by simp only [calls, hc, hc2', Res.bind_ok]⟩
  have hT : TellsReg 1 (1 / 10 ^ 16) (observe 1) (observe 2) := by
    refine .priv _ _ _ _ _ _ _ rfl ?_ ?_
    · show ((MathExample.sc 2).toM 1 1 - (MathExample.sc 1).toM 1 1).PosSemidef
      rw [sc_eq, sc_eq, ← sub_smul]
      exact Alg.smul_one_psd (by norm_num)
    · have h2 : ((1 / 10 ^ 16 : ℝ) • (MathExample.sc 2).toM 1 1 - (1 / 10 ^ 16 : ℝ) • (1 : Matrix (Fin 1) (Fin 1) ℝ)).PosSemidef := by
        rw [sc_eq, ← smul_sub, show (2 : ℝ) • (1 : Matrix (Fin 1) (Fin 1) ℝ) - 1 = (1 : ℝ) • 1 by rw [two_smul, one_smul]; abel]
        exact (Alg.smul_one_psd zero_le_one).smul (by norm_num)
      exact h2
  refine ⟨.cons hT (.cons hT .nil), rfl, ?_, ?_, ?_, hrun 1 1 zero_le_one zero_le_one, hrun 3 2 (by norm_num) zero_le_two⟩
  · intro c hc
    simp only [List.mem_cons, List.not_mem_nil, or_false, or_self] at hc
    subst hc; exact observe_fits zero_le_one
  · intro c hc
    simp only [List.mem_cons, List.not_mem_nil, or_false, or_self] at hc
    subst hc; exact observe_fits zero_le_two
  · intro t g' hg'
    rw [scalar_est] at hg' ⊢
    split at hg'
    · rename_i ht
      rw [if_pos ht]
      cases hg'
      refine ⟨_, rfl, ?_⟩
      show ((3 : ℝ) • (1 : Matrix (Fin 1) (Fin 1) ℝ) - (1 : ℝ) • 1).PosSemidef
      rw [← sub_smul]
      exact Alg.smul_one_psd (by norm_num)
    · simp at hg'

end Certainty
end Ikf
