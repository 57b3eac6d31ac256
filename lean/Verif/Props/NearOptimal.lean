import Verif.Spec.NearOptimal
import Verif.Props.Honest
import Verif.Props.SimultaneousReg

/-! # Property C127: what the numerical stabilisation costs -/

namespace Ikf
namespace NearOptimal
open Matrix SKF Certainty Simultaneous

variable {n m : ℕ}

theorem apos_le2 {P P' : Matrix (Fin n) (Fin n) ℝ} (hP : P.PosSemidef) (hP' : P'.PosSemidef) {κ : ℝ} (hl : AtMost P (κ • P')) (H : Matrix (Fin m) (Fin n) ℝ)
    {N N' : Matrix (Fin m) (Fin m) ℝ} (hN : N.PosDef) (hN' : N'.PosDef) (hn : AtMost N (κ • N')) : AtMost (Alg.apos P H N) (κ • Alg.apos P' H N') := by
  unfold AtMost Alg.apos
  set K' := Alg.gain P' H N' with hK'
  have h1 := Alg.joseph_gain hP' H (Alg.innov_pd hP' H hN')
  rw [← hK'] at h1
  have h2 := Alg.gain_optimal_psd hP H (Alg.innov_pd hP H hN) K'
  have h3 : κ • Alg.joseph P' H N' K' - Alg.joseph P H N K' = Alg.joseph (κ • P' - P) H (κ • N' - N) K' := by
    simp only [Alg.joseph, Matrix.mul_sub, Matrix.sub_mul, smul_add, Matrix.mul_smul, Matrix.smul_mul, smul_sub]
    abel
  have h4 := (Alg.joseph_psd hl H hn K').add h2
  rw [← h3, h1] at h4
  convert h4 using 1
  abel

theorem le_rf (A : Matrix (Fin n) (Fin n) ℝ) : AtMost A A := by
  unfold AtMost
  rw [sub_self]
  exact PosSemidef.zero

theorem sc_le {A : Matrix (Fin n) (Fin n) ℝ} (hA : A.PosSemidef) {a b : ℝ} (h : a ≤ b) : AtMost (a • A) (b • A) := by
  unfold AtMost
  rw [← sub_smul]
  exact smul_add_psd hA (sub_nonneg.mpr h)

theorem add_le {A B : Matrix (Fin n) (Fin n) ℝ} {δ : ℝ} (h : AtMost B (δ • A)) : AtMost (A + B) ((1 + δ) • A) := by
  have := Bounded.AtMost.add (le_rf A) h
  rwa [← one_smul ℝ A, smul_smul, mul_one, ← add_smul, one_smul ℝ A] at this

theorem noise_pd {R : Matrix (Fin m) (Fin m) ℝ} {e δ : ℝ} (hδ : 0 ≤ δ) (hR : (R + e • 1).PosDef) (hd : AtMost (e • 1) (δ • R)) : R.PosDef := by
  have h1 : ((1 + δ) • R).PosDef := by
    have : (1 + δ) • R = (δ • R - e • 1) + (R + e • 1) := by rw [add_smul, one_smul]; abel
    rw [this]
    exact PosDef.posSemidef_add hd hR
  have h2 := h1.smul (inv_pos.mpr (by linarith : (0 : ℝ) < 1 + δ))
  rwa [smul_smul, inv_mul_cancel₀ (by linarith), one_smul] at h2

theorem ideal_cov (g : Gauss n) (H : Matrix (Fin m) (Fin n) ℝ) (R : Matrix (Fin m) (Fin m) ℝ) (r : Matrix (Fin m) (Fin 1) ℝ) (j s : Bool) :
    (g.updateReg H R r 0 j s).cov = Alg.apos g.cov H R := by
  rw [updateReg_cov]
  simp [Alg.apos]

theorem reg_up {g g0 : Gauss n} (hg : g.cov.PosSemidef) (hg0 : g0.cov.PosSemidef) {κ δ : ℝ} (hκ : 1 ≤ κ) (hδ : 0 ≤ δ) (hδ1 : δ < 1) (hl : AtMost g.cov (κ • g0.cov))
    (H : Matrix (Fin m) (Fin n) ℝ) (R : Matrix (Fin m) (Fin m) ℝ) {e : ℝ} (he : 0 ≤ e) (hR : (R + e • 1).PosDef) (hd : AtMost (e • 1) (δ • R)) (r r0 : Matrix (Fin m) (Fin 1) ℝ) (j s : Bool)
    (hs : s = true → AtMost (e • 1) (δ • (g.updateReg H R r e j s).cov)) (hp : (g.updateReg H R r e j s).cov.PosSemidef) :
    AtMost (g.updateReg H R r e j s).cov ((κ * ((1 + δ) / (1 - δ))) • (g0.updateReg H R r0 0 j s).cov) := by
  rw [ideal_cov]
  have hRp := noise_pd hδ hR hd
  have h1 := reg_le_apos (g := g) H R he r j s
  set G := (g.updateReg H R r e j s).cov
  have h2 : AtMost (Alg.apos g.cov H (R + e • 1)) ((κ * (1 + δ)) • Alg.apos g0.cov H R) := by
    refine apos_le2 hg hg0 (le_tr hl (sc_le hg0 (by nlinarith))) H hR hRp ?_
    exact le_tr (add_le hd) (sc_le hRp.posSemidef (by nlinarith))
  have h3 : AtMost (if s then e • (1 : Matrix (Fin n) (Fin n) ℝ) else 0) (δ • G) := by
    by_cases h : s = true
    · rw [if_pos h]; exact hs h
    · rw [if_neg h]
      unfold AtMost
      rw [sub_zero]
      exact smul_add_psd hp hδ
  have h4 := le_tr h1 (Bounded.AtMost.add h2 h3)
  have h5 : AtMost ((1 - δ) • G) ((κ * (1 + δ)) • Alg.apos g0.cov H R) := by
    unfold AtMost at h4 ⊢
    convert h4 using 1
    rw [sub_smul, one_smul]
    abel
  have h6 := le_sc h5 (inv_nonneg.mpr (by linarith : (0 : ℝ) ≤ 1 - δ))
  rw [smul_smul, smul_smul, inv_mul_cancel₀ (by linarith), one_smul] at h6
  rwa [show κ * ((1 + δ) / (1 - δ)) = (1 - δ)⁻¹ * (κ * (1 + δ)) by rw [div_eq_mul_inv]; ring]

theorem reg_down {g g0 : Gauss n} (hg : g.cov.PosSemidef) (hg0 : g0.cov.PosSemidef) {κ δ : ℝ} (hκ : 1 ≤ κ) (hδ : 0 ≤ δ) (hl : AtMost g0.cov (κ • g.cov))
    (H : Matrix (Fin m) (Fin n) ℝ) (R : Matrix (Fin m) (Fin m) ℝ) {e : ℝ} (he : 0 ≤ e) (hR : (R + e • 1).PosDef) (hd : AtMost (e • 1) (δ • R)) (r r0 : Matrix (Fin m) (Fin 1) ℝ) (j s : Bool) :
    AtMost (g0.updateReg H R r0 0 j s).cov ((κ * (1 + δ)) • (g.updateReg H R r e j s).cov) := by
  rw [ideal_cov]
  have hRp := noise_pd hδ hR hd
  have h1 := apos_le_reg hg H R he hδ hR hd r j s
  have h2 : AtMost (Alg.apos g0.cov H R) (κ • Alg.apos g.cov H (R + e • 1)) := by
    refine apos_le2 hg0 hg hl H hRp hR ?_
    have h3 : AtMost R (R + e • 1) := by
      unfold AtMost
      rw [add_sub_cancel_left]
      exact Alg.smul_one_psd he
    have h4 := sc_le hR.posSemidef hκ
    rw [one_smul] at h4
    exact le_tr h3 h4
  have h3 := le_sc h1 (zero_le_one.trans hκ)
  rw [smul_smul] at h3
  exact le_tr h2 h3

theorem fits_ideal {δ : ℝ} (hδ : 0 ≤ δ) {f : Int → Option (Gauss n)} {c : KCall} (hf : c.Fits n) (hs : SmallAt n δ f c) : (idealCall c).Fits n := by
  cases c with
  | priv H R z t cfg => exact ⟨le_rfl, hf.2.1, by simpa [ideal] using noise_pd hδ hf.2.2 hs.1⟩
  | privEKF H R z t cfg => exact ⟨le_rfl, hf.2.1, by simpa [ideal] using noise_pd hδ hf.2.2 hs.1⟩
  | _ => exact hf

theorem pred_cmp {P P' F Q : Matrix (Fin n) (Fin n) ℝ} {κ : ℝ} (hκ : 1 ≤ κ) (hl : AtMost P (κ • P')) (hQ' : Q.PosSemidef) :
    AtMost (F * P * Fᵀ + Q) (κ • (F * P' * Fᵀ + Q)) := predict_mono_reg hκ hl (le_rf Q) hQ'

theorem same_cmp {S : Matrix (Fin n) (Fin n) ℝ} (hS : S.PosSemidef) {κ : ℝ} (hκ : 1 ≤ κ) : AtMost S (κ • S) := by
  have := sc_le hS hκ
  rwa [one_smul] at this

theorem step {h k h0 k0 : Buf Belief} (ho : Ok n h) (ho0 : Ok n h0) {c : KCall} (hf : c.Fits n) {κ κ' δ : ℝ} (hκ : 1 ≤ κ) (hκ' : 1 ≤ κ') (hδ : 0 ≤ δ) (hδ1 : δ < 1)
    (hs : SmallAt n δ (estimates n k) c) (hc : call h c = .ok (k, true)) (hc0 : call h0 (idealCall c) = .ok (k0, true))
    (hw : NoWorseBy κ (estimates n h) (estimates n h0)) (hw' : NoWorseBy κ' (estimates n h0) (estimates n h)) :
    NoWorseBy (κ * ((1 + δ) / (1 - δ)) ^ observations [c]) (estimates n k) (estimates n k0) ∧ NoWorseBy (κ' * (1 + δ) ^ observations [c]) (estimates n k0) (estimates n k) := by
  obtain ⟨ht, hok⟩ := call_true ho c hf hc
  obtain ⟨ht0, -⟩ := call_true ho0 _ (fits_ideal hδ hf hs) hc0
  have hpsd : ∀ t g, estimates n k t = some g → g.cov.PosSemidef := fun t g hg => psd_at hok hg
  generalize he : estimates n k = f at ht hs hpsd ⊢
  generalize he0 : estimates n k0 = f0 at ht0 ⊢
  have q1 : 1 ≤ (1 + δ) / (1 - δ) := by rw [le_div_iff₀ (by linarith)]; linarith
  have hw2 := hw.mono ho0 (κ' := κ * ((1 + δ) / (1 - δ))) (by nlinarith)
  have hw2' := hw'.mono ho (κ' := κ' * (1 + δ)) (by nlinarith)
  cases ht with
  | prop Phi Q ta tb g hg =>
    simp only [observations, pow_zero, mul_one]
    cases ht0 with
    | prop _ _ _ _ g' hg' =>
      obtain ⟨x, hx, hl⟩ := hw ta g' hg'
      obtain ⟨y, hy, hl'⟩ := hw' ta g hg
      rw [hg] at hx; cases hx
      rw [hg'] at hy; cases hy
      exact ⟨hw.update tb (pred_cmp hκ hl hf), hw'.update tb (pred_cmp hκ' hl' hf)⟩
  | propEKF mb Phi Q ta tb g hg =>
    simp only [observations, pow_zero, mul_one]
    cases ht0 with
    | propEKF _ _ _ _ _ g' hg' =>
      obtain ⟨x, hx, hl⟩ := hw ta g' hg'
      obtain ⟨y, hy, hl'⟩ := hw' ta g hg
      rw [hg] at hx; cases hx
      rw [hg'] at hy; cases hy
      exact ⟨hw.update tb (pred_cmp hκ hl hf), hw'.update tb (pred_cmp hκ' hl' hf)⟩
  | propBel b Phi ta tb =>
    simp only [observations, pow_zero, mul_one]
    cases ht0
    exact ⟨hw.update tb (same_cmp hf.2.2 hκ), hw'.update tb (same_cmp hf.2.2 hκ')⟩
  | correct dx S t g hg =>
    simp only [observations, pow_zero, mul_one]
    cases ht0
    exact ⟨hw.update t (same_cmp hf.2.2 hκ), hw'.update t (same_cmp hf.2.2 hκ')⟩
  | priv H R z t cfg g hg =>
    simp only [observations, zero_add, pow_one]
    have hp := hpsd t _ (Function.update_self ..)
    cases ht0 with
    | priv _ _ _ _ _ g' hg' =>
      obtain ⟨x, hx, hl⟩ := hw t g' hg'
      obtain ⟨y, hy, hl'⟩ := hw' t g hg
      rw [hg] at hx; cases hx
      rw [hg'] at hy; cases hy
      exact ⟨hw2.update t (reg_up (psd_at ho hg) (psd_at ho0 hg') hκ hδ hδ1 hl _ _ hf.1 hf.2.2 hs.1 _ _ _ _ (fun q => hs.2 q _ (Function.update_self ..)) hp),
        hw2'.update t (reg_down (psd_at ho hg) (psd_at ho0 hg') hκ' hδ hl' _ _ hf.1 hf.2.2 hs.1 _ _ _ _)⟩
  | privEKF H R z t cfg g hg =>
    simp only [observations, zero_add, pow_one]
    have hp := hpsd t _ (Function.update_self ..)
    cases ht0 with
    | privEKF _ _ _ _ _ g' hg' =>
      obtain ⟨x, hx, hl⟩ := hw t g' hg'
      obtain ⟨y, hy, hl'⟩ := hw' t g hg
      rw [hg] at hx; cases hx
      rw [hg'] at hy; cases hy
      exact ⟨hw2.update t (reg_up (psd_at ho hg) (psd_at ho0 hg') hκ hδ hδ1 hl _ _ hf.1 hf.2.2 hs.1 _ _ _ _ (fun q => hs.2 q _ (Function.update_self ..)) hp),
        hw2'.update t (reg_down (psd_at ho hg) (psd_at ho0 hg') hκ' hδ hl' _ _ hf.1 hf.2.2 hs.1 _ _ _ _)⟩

theorem small_head {δ : ℝ} {h k : Buf Belief} {c : KCall} {cs : List KCall} {a : Bool} (hS : Small n δ h (c :: cs)) (hc : call h c = .ok (k, a)) :
    SmallAt n δ (estimates n k) c ∧ Small n δ k cs := by
  constructor
  · exact hS [] c cs k [a] rfl (by simp only [List.nil_append, calls, hc, Res.bind_ok])
  · intro before d after k' as hcs hr
    exact hS (c :: before) d after k' (a :: as) (by rw [hcs]; rfl) (by simp only [List.cons_append, calls, hc, Res.bind_ok, hr])

/-- C127. Any sequence of calls, with any configuration: let the `eps` of every observation be at most the fraction `δ < 1` of the measurement noise and, where the
covariance is stabilised, of the covariance the filter then reports. If the filter and the ideal filter (nothing added for numerical stability) accept all calls,
they have estimates for the same times, and after `k` observations the covariance reported is at most `((1 + δ) / (1 - δ)) ^ k` times the ideal one and the
ideal one at most `(1 + δ) ^ k` times the one reported. -/
theorem c127_covariance (h : Buf Belief) (ho : Ok n h) (cs : List KCall) (hf : ∀ c ∈ cs, c.Fits n) (δ : ℝ) (hδ : 0 ≤ δ) (hδ1 : δ < 1) (hS : Small n δ h cs)
    (k k0 : Buf Belief) (as as0 : List Bool) (hr : calls h cs = .ok (k, as)) (hr0 : calls h (cs.map idealCall) = .ok (k0, as0))
    (hall : ∀ a ∈ as, a = true) (hall0 : ∀ a ∈ as0, a = true) :
    NoWorseBy (((1 + δ) / (1 - δ)) ^ observations cs) (estimates n k) (estimates n k0) ∧ NoWorseBy ((1 + δ) ^ observations cs) (estimates n k0) (estimates n k) := by
  have key : ∀ (h0 : Buf Belief), Ok n h0 → calls h0 (cs.map idealCall) = .ok (k0, as0) → ∀ κ κ' : ℝ, 1 ≤ κ → 1 ≤ κ' →
      NoWorseBy κ (estimates n h) (estimates n h0) → NoWorseBy κ' (estimates n h0) (estimates n h) →
      NoWorseBy (κ * ((1 + δ) / (1 - δ)) ^ observations cs) (estimates n k) (estimates n k0) ∧ NoWorseBy (κ' * (1 + δ) ^ observations cs) (estimates n k0) (estimates n k) := by
    clear hr0
    induction cs generalizing h as as0 with
    | nil =>
      intro h0 _ hr0 κ κ' _ _ hw hw'
      simp only [List.map_nil, calls, Res.ok.injEq, Prod.mk.injEq] at hr hr0
      rw [← hr.1, ← hr0.1]
      simpa [observations] using ⟨hw, hw'⟩
    | cons c cs ih =>
      intro h0 ho0 hr0 κ κ' hκ hκ' hw hw'
      obtain ⟨k1, a, bs, hc, hcs, rfl⟩ := calls_cons hr
      obtain ⟨k1', a', bs', hc', hcs', rfl⟩ := calls_cons hr0
      obtain rfl : a = true := hall a (by simp)
      obtain rfl : a' = true := hall0 a' (by simp)
      have hfc := hf c (by simp)
      obtain ⟨hs, hS'⟩ := small_head hS hc
      obtain ⟨s1, s2⟩ := step ho ho0 hfc hκ hκ' hδ hδ1 hs hc hc' hw hw'
      have q1 : 1 ≤ (1 + δ) / (1 - δ) := by rw [le_div_iff₀ (by linarith)]; linarith
      have hp : (1 : ℝ) ≤ (1 + δ) ^ observations [c] := one_le_pow₀ (by linarith)
      have hp' : (1 : ℝ) ≤ ((1 + δ) / (1 - δ)) ^ observations [c] := one_le_pow₀ q1
      have := ih k1 (call_true ho c hfc hc).2 (fun x hx => hf x (by simp [hx])) hS' bs bs' hcs (fun x hx => hall x (by simp [hx])) (fun x hx => hall0 x (by simp [hx]))
        k1' (call_true ho0 _ (fits_ideal hδ hfc hs) hc').2 hcs' _ _ (by nlinarith) (by nlinarith) s1 s2
      rw [observations_cons, pow_add, ← mul_assoc, pow_add, ← mul_assoc]
      exact this
  have r : NoWorseBy 1 (estimates n h) (estimates n h) := fun t g hg => ⟨g, hg, by rw [one_smul]; exact le_rf _⟩
  have := key h ho hr0 1 1 le_rfl le_rfl r r
  rwa [one_mul, one_mul] at this

/-- Whether a call is accepted does not depend on `eps` if the outlier gate is off. -/
theorem accepts {h h0 k : Buf Belief} (ho : Ok n h) (ho0 : Ok n h0) {c : KCall} (hf : c.Fits n) (hg : GateOff c)
    (hs : ∀ t, (estimates n h t).isSome → (estimates n h0 t).isSome) (hc : call h c = .ok (k, true)) : ∃ k0, call h0 (idealCall c) = .ok (k0, true) := by
  have look : ∀ {t b}, beliefAt h t = some b → ∃ b0, beliefAt h0 t = some b0 := by
    intro t b hb
    have := hs t (by unfold estimates; rw [hb]; rfl)
    obtain ⟨g, hg⟩ := Option.isSome_iff_exists.mp this
    obtain ⟨b0, hb0, -⟩ := Option.map_eq_some_iff.mp hg
    exact ⟨b0, hb0⟩
  cases c with
  | prop Phi Q ta tb =>
    simp only [call, propKF] at hc
    split at hc
    · rename_i b hb
      obtain ⟨hm, hS, hP⟩ := ho.at hb
      split at hc
      · cases hx : Phi.mulC b.mean with
        | throws => rw [hx] at hc; simp at hc
        | ub => rw [hx] at hc; simp at hc
        | ok mb =>
          rw [hx, Res.bind_ok] at hc
          obtain ⟨hF, hQ, hmb, -⟩ := propEKF_true hS mb Phi Q tb hc
          obtain ⟨b0, hb0⟩ := look hb
          exact (c100_defined (m := 0) h0 ho0 ta b0 hb0).1 Phi Q tb hF.1 hF.2 hQ.1 hQ.2
      · simp at hc
    · simp at hc
  | propEKF mb Phi Q ta tb =>
    simp only [call] at hc
    cases hb : beliefAt h ta with
    | none => rw [hb] at hc; simp [deref] at hc
    | some b =>
      obtain ⟨hm, hS, hP⟩ := ho.at hb
      rw [hb] at hc
      simp only [deref, Res.bind_ok] at hc
      obtain ⟨hF, hQ, hmb, -⟩ := propEKF_true hS mb Phi Q tb hc
      obtain ⟨b0, hb0⟩ := look hb
      exact (c100_defined (m := 0) h0 ho0 ta b0 hb0).2.1 mb Phi Q tb hmb.1 hmb.2 hF.1 hF.2 hQ.1 hQ.2
  | propBel bb Phi ta tb =>
    simp only [call, propBel] at hc
    split at hc
    · rename_i hd
      exact ⟨_, by simp only [idealCall, call, propBel]; rw [if_pos hd]⟩
    · simp at hc
  | priv H R z t cfg =>
    simp only [call, privKF] at hc
    split at hc
    · rename_i b hb
      obtain ⟨hm, hS, hP⟩ := ho.at hb
      unfold Mat.mulC at hc
      split at hc
      · rw [Res.bind_ok] at hc
        unfold Mat.subC at hc
        split at hc
        · rename_i h1 h2
          rw [Res.bind_ok] at hc
          obtain ⟨f1, f2, f3⟩ := hf
          obtain ⟨hO, -, -⟩ := privEKF_true ho hb H R (z - H * b.mean) cfg f1 f2 f3 hc
          obtain ⟨b0, hb0⟩ := look hb
          have hz2 : z.cols = 1 := by rw [h2.2]; exact hm.2
          obtain ⟨⟨k0, a, e, ha⟩, -⟩ := (c100_defined (m := z.rows) h0 ho0 t b0 hb0).2.2 H R z (ideal cfg) hO.H.1 hO.H.2 hO.R.1 hO.R.2 rfl hz2 (Or.inl hg)
          rw [ha hg] at e
          exact ⟨k0, e⟩
        · simp at hc
      · simp at hc
    · simp at hc
  | privEKF H R r t cfg =>
    simp only [call] at hc
    cases hb : beliefAt h t with
    | none => rw [hb] at hc; simp [deref] at hc
    | some b =>
      rw [hb] at hc
      simp only [deref, Res.bind_ok] at hc
      obtain ⟨f1, f2, f3⟩ := hf
      obtain ⟨hO, -, -⟩ := privEKF_true ho hb H R r cfg f1 f2 f3 hc
      obtain ⟨b0, hb0⟩ := look hb
      obtain ⟨-, k0, a, e, ha⟩ := (c100_defined (m := r.rows) h0 ho0 t b0 hb0).2.2 H R r (ideal cfg) hO.H.1 hO.H.2 hO.R.1 hO.R.2 rfl hO.r.2 (Or.inl hg)
      rw [ha hg] at e
      exact ⟨k0, e⟩
  | correct dx S t =>
    simp only [call, correctBeliefAt] at hc
    split at hc
    · rename_i b hb
      obtain ⟨b0, hb0⟩ := look hb
      obtain ⟨hm, hS, hP⟩ := ho0.at hb0
      obtain ⟨f1, f2, f3⟩ := hf
      have e : call h0 (.correct dx S t) = .ok (setBelief h0 { b0 with mean := b0.mean + dx, Sigma := S } t, true) := by
        simp only [call, correctBeliefAt, hb0]
        unfold Belief.correct
        rw [hm.addC (show dx.Shape n 1 from f1), Res.bind_ok, Res.bind_ok]
      exact ⟨_, e⟩
    · simp at hc

theorem support_step {f f1 f0 f01 : Int → Option (Gauss n)} {c : KCall} (h : TextStep f c f1) (h0 : TextStep f0 (idealCall c) f01)
    (hs : ∀ t, (f t).isSome → (f0 t).isSome) : ∀ t, (f1 t).isSome → (f01 t).isSome := by
  have up : ∀ (u : Int) (g g0 : Gauss n) t, (Function.update f u (some g) t).isSome → (Function.update f0 u (some g0) t).isSome := by
    intro u g g0 t ht
    by_cases e : t = u
    · subst e; rw [Function.update_self]; rfl
    · rw [Function.update_of_ne e] at ht ⊢
      exact hs t ht
  cases h <;> cases h0 <;> exact up _ _ _

/-- C127. With the outlier gate off, the ideal filter accepts all calls the filter accepts. -/
theorem c127_accepted (h : Buf Belief) (ho : Ok n h) (cs : List KCall) (hf : ∀ c ∈ cs, c.Fits n) (hg : ∀ c ∈ cs, GateOff c) (δ : ℝ) (hδ : 0 ≤ δ) (hS : Small n δ h cs)
    (k : Buf Belief) (as : List Bool) (hr : calls h cs = .ok (k, as)) (hall : ∀ a ∈ as, a = true) : ∃ k0, calls h (cs.map idealCall) = .ok (k0, as) := by
  have key : ∀ (h0 : Buf Belief), Ok n h0 → (∀ t, (estimates n h t).isSome → (estimates n h0 t).isSome) → ∃ k0, calls h0 (cs.map idealCall) = .ok (k0, as) := by
    induction cs generalizing h as with
    | nil =>
      intro h0 _ _
      simp only [calls, Res.ok.injEq, Prod.mk.injEq] at hr
      rw [← hr.2]
      exact ⟨h0, rfl⟩
    | cons c cs ih =>
      intro h0 ho0 hs
      obtain ⟨k1, a, bs, hc, hcs, rfl⟩ := calls_cons hr
      obtain rfl : a = true := hall a (by simp)
      have hfc := hf c (by simp)
      obtain ⟨hs1, hS'⟩ := small_head hS hc
      obtain ⟨k1', hc'⟩ := accepts ho ho0 hfc (hg c (by simp)) hs hc
      obtain ⟨t1, o1⟩ := call_true ho c hfc hc
      obtain ⟨t2, o2⟩ := call_true ho0 _ (fits_ideal hδ hfc hs1) hc'
      obtain ⟨k2, e⟩ := ih k1 o1 (fun x hx => hf x (by simp [hx])) (fun x hx => hg x (by simp [hx])) hS' bs hcs (fun x hx => hall x (by simp [hx])) k1' o2 (support_step t1 t2 hs)
      exact ⟨k2, by simp only [List.map_cons, calls, hc', e, Res.bind_ok]⟩
  exact key h ho fun _ h => h

/-! ## A filter of a random system -/

open MeasureTheory Honest

variable {Ω : Type} [MeasurableSpace Ω] {P : Measure Ω}

/-- The same step for the ideal filter. -/
noncomputable def idealStp : Stp Ω n → Stp Ω n
  | .move F Q tb w => .move F Q tb w
  | .meas m H R cfg v => .meas m H R (ideal cfg) v

omit [MeasurableSpace Ω] in
theorem script_ideal (l : List (Stp Ω n)) (t : Int) (x : Ω → Vec n) (ω : Ω) : script (l.map idealStp) t x ω = (script l t x ω).map idealCall := by
  induction l generalizing t x with
  | nil => rfl
  | cons s r ih => cases s <;> simp only [List.map_cons, script, ih] <;> rfl

omit [MeasurableSpace Ω] in
theorem truth_ideal (l : List (Stp Ω n)) (x : Ω → Vec n) : truth (l.map idealStp) x = truth l x := by
  induction l generalizing x with
  | nil => rfl
  | cons s r ih => cases s <;> simp only [List.map_cons, truth, ih] <;> rfl

omit [MeasurableSpace Ω] in
theorem time_ideal (l : List (Stp Ω n)) (t : Int) : time (l.map idealStp) t = time l t := by
  induction l generalizing t with
  | nil => rfl
  | cons s r ih => cases s <;> simp only [List.map_cons, time, ih] <;> rfl

omit [MeasurableSpace Ω] in
theorem data_ideal (l : List (Stp Ω n)) (x : Ω → Vec n) : data (l.map idealStp) x = data l x := by
  induction l generalizing x with
  | nil => rfl
  | cons s r ih => cases s <;> simp only [List.map_cons, data, ih] <;> rfl

omit [MeasurableSpace Ω] in
theorem noise_ideal (l : List (Stp Ω n)) : (l.map idealStp).map Stp.noise = l.map Stp.noise := by
  rw [List.map_map]
  refine List.map_congr_left fun s _ => ?_
  cases s <;> rfl

omit [MeasurableSpace Ω] in
theorem observations_script (l : List (Stp Ω n)) (t : Int) (x : Ω → Vec n) (ω : Ω) : observations (script l t x ω) = measurements l := by
  induction l generalizing t x with
  | nil => rfl
  | cons s r ih => cases s <;> simp only [script, Stp.call, observations, measurements, ih]

omit [MeasurableSpace Ω] in
theorem script_mem {l : List (Stp Ω n)} {t : Int} {x : Ω → Vec n} {ω : Ω} {s : Stp Ω n} (hs : s ∈ l) : ∃ u y before after, script l t x ω = before ++ s.call u y ω :: after := by
  induction l generalizing t x with
  | nil => simp at hs
  | cons a r ih =>
    rcases List.mem_cons.mp hs with rfl | h
    · exact ⟨t, x, [], _, rfl⟩
    · obtain ⟨u, y, b, c, e⟩ := ih h (t := a.time t) (x := a.truth x)
      exact ⟨u, y, a.call t x ω :: b, c, by rw [script, e]; rfl⟩

theorem calls_prefix {h k : Buf Belief} (before after : List KCall) {as : List Bool} (hr : calls h (before ++ after) = .ok (k, as)) : ∃ k' as', calls h before = .ok (k', as') := by
  induction before generalizing h as with
  | nil => exact ⟨h, [], rfl⟩
  | cons c cs ih =>
    obtain ⟨k1, a, bs, hc, hcs, -⟩ := calls_cons hr
    obtain ⟨k', as', e⟩ := ih hcs
    exact ⟨k', a :: as', by simp only [calls, hc, Res.bind_ok, e]⟩

theorem fits_script {l : List (Stp Ω n)} (hv : ∀ s ∈ l, s.Valid P) (t : Int) (x : Ω → Vec n) (ω : Ω) : ∀ c ∈ script l t x ω, c.Fits n := by
  induction l generalizing t x with
  | nil => simp [script]
  | cons s r ih =>
    intro c hc
    rcases List.mem_cons.mp hc with rfl | h
    · have := hv s (by simp)
      cases s with
      | move F Q tb w => exact Honest.psd_of_sub this.2.2.2 (mom_psd this.2.2.1)
      | meas m H R cfg v => exact ⟨this.2.2.2.1, Honest.psd_of_sub this.2.2.2.2.2.2 (mom_psd this.2.2.2.2.2.1), this.2.2.2.2.1⟩
    · exact ih (fun s' hs' => hv s' (by simp [hs'])) _ _ c h

variable (P) in
/-- C127. A filter of a random linear system whose noises are exactly what it is told, with any configuration but for the outlier gate: let the `eps` be at most the
fraction `δ < 1` of the measurement noises and, with stabilisation, of the covariances the filter reports. Then the filter accepts every call, and for every weighting
`u` of the states its estimate of `u·x` has a mean squared error of at most what it reports, which is at most `((1 + δ) / (1 - δ)) ^ k` times the mean squared error of
*any* linear function of the `k` measurements. -/
theorem c127_nearly_optimal [IsProbabilityMeasure P] (l : List (Stp Ω n)) (hv : ∀ s ∈ l, s.Valid P) (hE : ∀ s ∈ l, ToldExactly P s) (x : Ω → Vec n) (t : Int)
    (h : Buf Belief) (ho : Ok n h) (m : Vec n) (S : Matrix (Fin n) (Fin n) ℝ) (he : estimates n h t = some ⟨m, S⟩)
    (hL : L2 P fun ω => x ω - m) (hS : S = mom P (fun ω => x ω - m) fun ω => x ω - m) (h0 : ∀ i, ∫ ω, (x ω - m) i 0 ∂P = 0)
    (hu : Uncorrelated P (fun ω => x ω - m) l) (δ : ℝ) (hδ : 0 ≤ δ) (hδ1 : δ < 1) (hsm : ∀ ω, Small n δ h (script l t x ω)) :
    ∃ (h' : Ω → Buf Belief) (m' : Ω → Vec n) (S' : Matrix (Fin n) (Fin n) ℝ),
      (∀ ω, calls h (script l t x ω) = .ok (h' ω, List.replicate l.length true) ∧ estimates n (h' ω) (time l t) = some ⟨m' ω, S'⟩) ∧
      ∀ u : Fin n → ℝ, ∫ ω, (∑ i, u i * truth l x ω i 0 - ∑ i, u i * m' ω i 0) ^ 2 ∂P ≤ u ⬝ᵥ S' *ᵥ u ∧
        ∀ s ∈ Submodule.span ℝ (data l x), u ⬝ᵥ S' *ᵥ u ≤ ((1 + δ) / (1 - δ)) ^ measurements l * ∫ ω, (∑ i, u i * truth l x ω i 0 - s ω) ^ 2 ∂P := by
  have hS0 : (S - mom P (fun ω => x ω - m) fun ω => x ω - m).PosSemidef := by rw [hS, sub_self]; exact PosSemidef.zero
  obtain ⟨h', m', S', hr, hL', hc, -⟩ := c115_consistent P l hv x t (fun _ => h) (fun _ => ho) (fun _ => m) S (fun _ => he) hL hS0 hu
  obtain ⟨ω⟩ : Nonempty Ω := nonempty_of_isProbabilityMeasure P
  -- the noises are definite
  have hvi : ∀ s ∈ l.map idealStp, s.Valid P := by
    intro s hs
    obtain ⟨s, hsl, rfl⟩ := List.mem_map.mp hs
    have v := hv s hsl
    cases s with
    | move F Q tb w => exact v
    | meas m1 H R cfg v' =>
      obtain ⟨v1, v2, v3, v4, v5, v6, v7⟩ := v
      obtain ⟨w, y, b, a, e⟩ := script_mem (t := t) (x := x) (ω := ω) hsl
      have hp := (hr ω).1
      rw [e, show b ++ Stp.call (.meas m1 H R cfg v') w y ω :: a = (b ++ [Stp.call (.meas m1 H R cfg v') w y ω]) ++ a by simp] at hp
      obtain ⟨k', as', hk⟩ := calls_prefix _ _ hp
      have := (hsm ω b _ a k' as' e hk).1
      refine ⟨v1, v2, v3, le_rfl, ?_, v6, v7⟩
      simpa [ideal] using noise_pd hδ v5 this
  have hEi : ∀ s ∈ l.map idealStp, s.Exact P := by
    intro s hs
    obtain ⟨s, hsl, rfl⟩ := List.mem_map.mp hs
    have := hE s hsl
    cases s with
    | move F Q tb w => exact this
    | meas m1 H R cfg v' => exact ⟨rfl, this⟩
  have hui : Uncorrelated P (fun ω => x ω - m) (l.map idealStp) := by
    unfold Uncorrelated at hu ⊢
    rwa [noise_ideal]
  obtain ⟨k', n', T', hr0, hopt⟩ := c115_optimal P (l.map idealStp) hvi hEi x t h ho m S he hL hS h0 hui
  simp only [truth_ideal, data_ideal, time_ideal, script_ideal, List.length_map] at hr0 hopt
  have hcov := (c127_covariance h ho (script l t x ω) (fits_script hv t x ω) δ hδ hδ1 (hsm ω) _ _ _ _ (hr ω).1 (hr0 ω).1 (fun a ha => (List.mem_replicate.mp ha).2)
    (fun a ha => (List.mem_replicate.mp ha).2)).1
  rw [observations_script] at hcov
  obtain ⟨g, hg, hle⟩ := hcov _ _ (hr0 ω).2
  rw [(hr ω).2] at hg
  cases hg
  simp only at hle
  have qf : ∀ {A B : Matrix (Fin n) (Fin n) ℝ}, (B - A).PosSemidef → ∀ u : Fin n → ℝ, u ⬝ᵥ A *ᵥ u ≤ u ⬝ᵥ B *ᵥ u := by
    intro A B hAB u
    have := hAB.dotProduct_mulVec_nonneg u
    rw [Matrix.sub_mulVec, dotProduct_sub] at this
    simpa using this
  refine ⟨h', m', S', hr, fun u => ⟨?_, fun s hs => ?_⟩⟩
  · refine le_trans (le_of_eq ?_) (qf hc u)
    rw [quad hL' u]
    refine integral_congr_ae (Filter.Eventually.of_forall fun ω => ?_)
    simp only
    rw [← Finset.sum_sub_distrib]
    congr 1
    exact Finset.sum_congr rfl fun i _ => by simp only [Matrix.sub_apply]; ring
  · refine (qf hle u).trans ?_
    rw [Matrix.smul_mulVec, dotProduct_smul, smul_eq_mul]
    obtain ⟨o1, -, o3⟩ := hopt u
    rw [o1]
    exact mul_le_mul_of_nonneg_left (o3 s hs) (pow_nonneg (div_nonneg (by linarith) (by linarith)) _)

/-! ## Example: the system of C115, with the default configuration but for the outlier gate -/

/-- The state doubles and is disturbed by the second number, then it is measured with the third number as error. -/
noncomputable def demoD : List (Stp (Fin 3 → ℝ) 1) :=
  [.move (Mat.ofM (Matrix.of fun _ _ => 2 : Matrix (Fin 1) (Fin 1) ℝ)) (Mat.ofM (1 : Matrix (Fin 1) (Fin 1) ℝ)) 10 (draw 1),
   .meas 1 (Mat.ofM (1 : Matrix (Fin 1) (Fin 1) ℝ)) (Mat.ofM (1 : Matrix (Fin 1) (Fin 1) ℝ)) { outlier := false } (draw 2)]

theorem demoD_valid : (∀ s ∈ demoD, s.Valid gauss3) ∧ ∀ s ∈ demoD, ToldExactly gauss3 s := by
  constructor
  · intro s hs
    simp only [demoD, List.mem_cons, List.not_mem_nil, or_false] at hs
    rcases hs with rfl | rfl
    · refine ⟨⟨rfl, rfl⟩, ⟨rfl, rfl⟩, (gauss3_facts 1).1, ?_⟩
      rw [Mat.toM_ofM, (gauss3_facts 1).2.2.1, sub_self]
      exact Matrix.PosSemidef.zero
    · refine ⟨⟨rfl, rfl⟩, ⟨rfl, rfl⟩, rfl, by norm_num, ?_, (gauss3_facts 2).1, ?_⟩
      · rw [Mat.toM_ofM]
        exact Matrix.PosDef.one.add_posSemidef (Alg.smul_one_psd (by norm_num))
      · rw [Mat.toM_ofM, (gauss3_facts 2).2.2.1, sub_self]
        exact Matrix.PosSemidef.zero
  · intro s hs
    simp only [demoD, List.mem_cons, List.not_mem_nil, or_false] at hs
    rcases hs with rfl | rfl
    · exact ⟨by rw [Mat.toM_ofM, (gauss3_facts 1).2.2.1], (gauss3_facts 1).2.1⟩
    · exact ⟨by rw [Mat.toM_ofM, (gauss3_facts 2).2.2.1], (gauss3_facts 2).2.1⟩

theorem gain_scalar {p r : ℝ} (h : 0 < p + r) : Alg.gain (p • (1 : Matrix (Fin 1) (Fin 1) ℝ)) (1 : Matrix (Fin 1) (Fin 1) ℝ) (r • 1) = (p * (p + r)⁻¹) • 1 := by
  unfold Alg.gain
  have hi : ((1 : Matrix (Fin 1) (Fin 1) ℝ) * (p • 1) * 1ᵀ + r • 1)⁻¹ = (p + r)⁻¹ • 1 := by
    refine Matrix.inv_eq_right_inv ?_
    simp only [Matrix.transpose_one, Matrix.mul_one, ← add_smul, Matrix.mul_smul, smul_smul]
    rw [inv_mul_cancel₀ h.ne', one_smul]
  rw [hi]
  simp only [Matrix.transpose_one, Matrix.mul_one, Matrix.mul_smul, smul_smul]
  rw [mul_comm]

theorem start_facts : Ok 1 startH ∧ estimates 1 startH 0 = some ⟨seven, 1⟩ := by
  have hO0 : Ok 1 ([] : Buf Belief) := ⟨List.Pairwise.nil, by simp⟩
  refine ⟨hO0.set 0 ⟨rfl, rfl⟩ ⟨rfl, rfl⟩ (by rw [Mat.toM_ofM]; exact Matrix.PosSemidef.one), ?_⟩
  rw [startH, estimates_set hO0, Function.update_self]
  simp only [Mat.toM_ofM]

/-- The covariance the filter reports. -/
theorem demoD_cov : ∃ c : ℝ, 1 / 2 ≤ c ∧ (final demoD start (fun _ => seven, 1)).2 = c • (1 : Matrix (Fin 1) (Fin 1) ℝ) := by
  have key : ∀ e : ℝ, 0 ≤ e → e ≤ 1 / 10 → ∃ c : ℝ, 1 / 2 ≤ c ∧
      (1 - Alg.gain ((5 : ℝ) • (1 : Matrix (Fin 1) (Fin 1) ℝ)) (1 : Matrix (Fin 1) (Fin 1) ℝ) (1 + e • 1) * 1) * ((5 : ℝ) • 1) -
        e • (Alg.gain ((5 : ℝ) • (1 : Matrix (Fin 1) (Fin 1) ℝ)) (1 : Matrix (Fin 1) (Fin 1) ℝ) (1 + e • 1) * (Alg.gain ((5 : ℝ) • (1 : Matrix (Fin 1) (Fin 1) ℝ)) (1 : Matrix (Fin 1) (Fin 1) ℝ) (1 + e • 1))ᵀ) + e • 1 = c • (1 : Matrix (Fin 1) (Fin 1) ℝ) := by
    intro e h0 h1
    have hk : Alg.gain ((5 : ℝ) • (1 : Matrix (Fin 1) (Fin 1) ℝ)) (1 : Matrix (Fin 1) (Fin 1) ℝ) (1 + e • 1) = (5 * (5 + (1 + e))⁻¹) • 1 := by
      have := gain_scalar (p := 5) (r := 1 + e) (by linarith)
      rwa [add_smul, one_smul] at this
    rw [hk]
    set q := 5 * (5 + (1 + e))⁻¹ with hq
    refine ⟨(1 - q) * 5 - e * (q * q) + e, ?_, ?_⟩
    · have q1 : q ≤ 5 / 6 := by
        rw [hq, ← div_eq_mul_inv, div_le_div_iff₀ (by linarith) (by norm_num)]
        linarith
      have q0 : 0 ≤ q := by positivity
      have q2 : q * q ≤ 1 := by nlinarith
      have q3 : e * (q * q) ≤ e * 1 := mul_le_mul_of_nonneg_left q2 h0
      linarith
    · ext i j
      fin_cases i; fin_cases j
      simp
      ring
  have hp : (Matrix.of fun _ _ => 2 : Matrix (Fin 1) (Fin 1) ℝ) * 1 * (Matrix.of fun _ _ => 2 : Matrix (Fin 1) (Fin 1) ℝ)ᵀ + 1 = (5 : ℝ) • 1 := by
    ext i j
    fin_cases i; fin_cases j
    simp [Matrix.mul_apply]
    norm_num
  obtain ⟨c, h1, h2⟩ := key (1 / 10 ^ 16) (by positivity) (by norm_num)
  refine ⟨c, h1, ?_⟩
  rw [← h2]
  simp only [demoD, final, post, Mat.toM_ofM, hp, if_true]

/-- The hypotheses of `c127_nearly_optimal` are met with `δ = 1e-15`: no linear estimate of the state at time 10 beats what the filter reports by more than the factor. -/
example : ∃ (h' : (Fin 3 → ℝ) → Buf Belief) (m' : (Fin 3 → ℝ) → Vec 1) (S' : Matrix (Fin 1) (Fin 1) ℝ),
    (∀ ω, calls startH (script demoD 0 start ω) = .ok (h' ω, [true, true]) ∧ estimates 1 (h' ω) 10 = some ⟨m' ω, S'⟩) ∧
    ∀ s ∈ Submodule.span ℝ (data demoD start), S' 0 0 ≤ (1 + 1 / 10 ^ 15) / (1 - 1 / 10 ^ 15) * ∫ ω, (2 * (ω 0 + 7) + ω 1 - s ω) ^ 2 ∂gauss3 := by
  have hx : (fun ω => start ω - seven) = draw 0 := by
    funext ω
    simp only [start, add_sub_cancel_right]
  have hx0 : ∀ i, ∫ ω, (start ω - seven) i 0 ∂gauss3 = 0 := by
    simp only [start, add_sub_cancel_right]
    exact (gauss3_facts 0).2.1
  have hsm : ∀ ω, Small 1 (1 / 10 ^ 15) startH (script demoD 0 start ω) := by
    intro ω before c after k as e hk
    have sm : ∀ {a b : ℝ}, a ≤ b → AtMost (a • (1 : Matrix (Fin 1) (Fin 1) ℝ)) (b • 1) := fun h => sc_le PosSemidef.one h
    rcases before with _ | ⟨b, _ | ⟨b', before⟩⟩
    · simp only [demoD, script, List.nil_append, List.cons.injEq] at e
      rw [← e.1]
      trivial
    · simp only [demoD, script, List.cons_append, List.nil_append, List.cons.injEq] at e
      obtain ⟨e1, e2, -⟩ := e
      obtain ⟨h', hr, -, he⟩ := Honest.run demoD demoD_valid.1 start 0 ω startH start_facts.1 (fun _ => seven, 1) start_facts.2
      have : k = h' := by
        have q : calls startH (script demoD 0 start ω) = .ok (k, as) := by
          rw [← hk]
          simp only [demoD, script, List.cons_append, List.nil_append, ← e1, ← e2]
        rw [hr] at q
        exact (Prod.mk.inj (Res.ok.inj q)).1.symm
      subst this
      obtain ⟨c0, hc0, hc1⟩ := demoD_cov
      rw [hc1] at he
      rw [← e2]
      refine ⟨?_, fun _ g hg => ?_⟩
      · have : AtMost ((1 / 10 ^ 16 : ℝ) • (1 : Matrix (Fin 1) (Fin 1) ℝ)) ((1 / 10 ^ 15 : ℝ) • (Mat.ofM (1 : Matrix (Fin 1) (Fin 1) ℝ)).toM 1 1) := by
          rw [Mat.toM_ofM]
          exact sm (by norm_num)
        exact this
      · have he' : estimates 1 k 10 = _ := he
        have hg' : estimates 1 k 10 = some g := hg
        rw [he'] at hg'
        cases hg'
        have : AtMost ((1 / 10 ^ 16 : ℝ) • (1 : Matrix (Fin 1) (Fin 1) ℝ)) ((1 / 10 ^ 15 : ℝ) • (c0 • (1 : Matrix (Fin 1) (Fin 1) ℝ))) := by
          rw [smul_smul]
          exact sm (by linarith)
        exact this
    · exfalso
      have := congrArg List.length e
      simp [demoD, script] at this
  obtain ⟨h', m', S', h1, h2⟩ := c127_nearly_optimal gauss3 demoD demoD_valid.1 demoD_valid.2 start 0 startH start_facts.1 seven 1 start_facts.2
    (by rw [hx]; exact (gauss3_facts 0).1) (by rw [hx]; exact (gauss3_facts 0).2.2.1.symm) hx0 (by rw [hx]; exact demo_uncorrelated) (1 / 10 ^ 15) (by positivity) (by norm_num) hsm
  refine ⟨h', m', S', h1, fun s hs => ?_⟩
  have h5 := (h2 fun _ => 1).2 s hs
  have hm : measurements demoD = 1 := rfl
  rw [hm, pow_one] at h5
  simpa [dotProduct, mulVec, truth, demoD, Stp.truth, Mat.toM_ofM, Matrix.mul_apply, draw, start, seven] using h5

end NearOptimal
end Ikf
