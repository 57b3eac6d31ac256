import Verif.Spec.Bounded
import Verif.Props.Certainty
import Mathlib.Data.Matrix.Invertible

/-! # Property C118: the reported covariance of an observed state stays bounded for ever -/

namespace Ikf
namespace Bounded
open Matrix SKF Certainty

variable {n m : ℕ}

theorem AtMost.trans {A B C : Matrix (Fin n) (Fin n) ℝ} (h1 : AtMost A B) (h2 : AtMost B C) : AtMost A C := by
  have := h1.add h2
  unfold AtMost
  rwa [add_comm, sub_add_sub_cancel] at this

theorem AtMost.add {A B C D : Matrix (Fin n) (Fin n) ℝ} (h1 : AtMost A B) (h2 : AtMost C D) : AtMost (A + C) (B + D) := by
  have := PosSemidef.add h1 h2
  unfold AtMost
  rwa [sub_add_sub_comm] at this

theorem AtMost.congr {A B : Matrix (Fin n) (Fin n) ℝ} (h1 : AtMost A B) (M : Matrix (Fin m) (Fin n) ℝ) : AtMost (M * A * Mᵀ) (M * B * Mᵀ) := by
  have := Alg.psd_congr h1 M
  unfold AtMost
  rwa [Matrix.mul_sub, Matrix.sub_mul] at this

/-- The covariance after an update is at most that of any other correction, up to what is added for stability. -/
theorem update_le (g : Gauss n) (hg : g.cov.PosSemidef) (H : Matrix (Fin m) (Fin n) ℝ) (R : Matrix (Fin m) (Fin m) ℝ)
    (e : ℝ) (he : 0 ≤ e) (hR : (R + e • 1).PosDef) (r : Matrix (Fin m) (Fin 1) ℝ) (j s : Bool) (L : Matrix (Fin n) (Fin m) ℝ) :
    AtMost (g.updateReg H R r e j s).cov ((1 - L * H) * g.cov * (1 - L * H)ᵀ + L * (R + e • 1) * Lᵀ + e • 1) := by
  have h2 := Alg.gain_optimal_psd hg H (Alg.innov_pd hg H hR) L
  unfold AtMost
  rw [updateReg_cov]
  set K := Alg.gain g.cov H (R + e • 1) with hK
  have hKK : (if j then e • (K * Kᵀ) else 0).PosSemidef := by
    split
    · have := Alg.psd_congr (Alg.smul_one_psd (n := Fin m) he) K
      simpa only [Matrix.mul_smul, Matrix.smul_mul, Matrix.mul_one] using this
    · exact PosSemidef.zero
  have hs : (e • 1 - (if s then e • (1 : Matrix (Fin n) (Fin n) ℝ) else 0)).PosSemidef := by
    split
    · rw [sub_self]; exact PosSemidef.zero
    · rw [sub_zero]; exact Alg.smul_one_psd he
  have := (h2.add hKK).add hs
  convert this using 1
  unfold Alg.joseph
  abel

/-- One cycle. -/
theorem cycle_run (c : Cycle) (hv : c.Valid n) (t : Int) (h : Buf Belief) (ho : Ok n h) (g : Gauss n) (hg : estimates n h t = some g) :
    ∃ h1 h2, call h (.prop c.F c.Q t c.tb) = .ok (h1, true) ∧ call h1 (.priv c.H c.R c.z c.tb c.cfg) = .ok (h2, true) ∧ Ok n h2 ∧
      ∃ g2, estimates n h2 c.tb = some g2 ∧ ∀ L : Matrix (Fin n) (Fin c.m) ℝ,
        AtMost g2.cov ((1 - L * c.H.toM c.m n) * (c.F.toM n n * g.cov * (c.F.toM n n)ᵀ + c.Q.toM n n) * (1 - L * c.H.toM c.m n)ᵀ +
          L * (c.R.toM c.m c.m + c.cfg.eps • 1) * Lᵀ + c.cfg.eps • 1) := by
  obtain ⟨hF, hQ, hH, hR, hz, hQp, hRp, he, hRe, hgate⟩ := hv
  obtain ⟨b, hb, _⟩ := Option.map_eq_some_iff.mp hg
  obtain ⟨h1, hc1⟩ := (c100_defined (m := 0) h ho t b hb).1 c.F c.Q c.tb hF.1 hF.2 hQ.1 hQ.2
  obtain ⟨ht1, ho1⟩ := call_true ho (.prop c.F c.Q t c.tb) hQp hc1
  have hg1 : estimates n h1 c.tb = some (g.predict (c.F.toM n n) (c.Q.toM n n)) := by
    generalize he1 : estimates n h1 = f1 at ht1 ⊢
    cases ht1 with
    | prop _ _ _ _ g' hg' =>
      rw [hg] at hg'
      cases hg'
      rw [Function.update_self]
  obtain ⟨b1, hb1, _⟩ := Option.map_eq_some_iff.mp hg1
  obtain ⟨h2, a, hc2, ha⟩ := ((c100_defined (m := c.m) h1 ho1 c.tb b1 hb1).2.2 c.H c.R c.z c.cfg hH.1 hH.2 hR.1 hR.2 hz.1 hz.2 (Or.inl hgate)).1
  rw [ha hgate] at hc2
  have hfit : (KCall.priv c.H c.R c.z c.tb c.cfg).Fits n := by
    refine ⟨he, ?_, ?_⟩
    · rw [hz.1]; exact hRp
    · rw [hz.1]; exact hRe
  obtain ⟨ht2, ho2⟩ := call_true ho1 _ hfit hc2
  refine ⟨h1, h2, hc1, hc2, ho2, ?_⟩
  have hp1 := psd_at ho1 hg1
  generalize he2 : estimates n h2 = f2 at ht2 ⊢
  cases ht2 with
  | priv _ _ _ _ _ g' hg' =>
    rw [hg1] at hg'
    cases hg'
    rw [Function.update_self]
    refine ⟨_, rfl, fun L => ?_⟩
    obtain ⟨F, Q, tb, m, H, R, z, cfg⟩ := c
    obtain ⟨hz1, hz2⟩ := hz
    simp only at hz1
    subst hz1
    exact update_le _ hp1 _ _ _ he hRe _ _ _ L

theorem cycles_run (X : Matrix (Fin n) (Fin n) ℝ) (γ w : ℝ) (hX : X.PosDef) (cs : List Cycle) (hv : ∀ c ∈ cs, c.Valid n)
    (hobs : ∀ c ∈ cs, ∃ L, c.Observer X γ w L) (t : Int) (h : Buf Belief) (ho : Ok n h) (g : Gauss n) (hg : estimates n h t = some g) (p : ℝ)
    (hp : AtMost g.cov (p • X)) :
    ∃ h' g', calls h (script t cs) = .ok (h', List.replicate (2 * cs.length) true) ∧ Ok n h' ∧ estimates n h' (time t cs) = some g' ∧
      AtMost g'.cov ((γ ^ cs.length * p + w * ∑ i ∈ Finset.range cs.length, γ ^ i) • X) := by
  induction cs generalizing t h g p with
  | nil => exact ⟨h, g, rfl, ho, hg, by simpa using hp⟩
  | cons c r ih =>
    obtain ⟨h1, h2, hc1, hc2, ho2, g2, hg2, hb⟩ := cycle_run c (hv c (by simp)) t h ho g hg
    obtain ⟨L, hL1, hL2⟩ := hobs c (by simp)
    have hstep : AtMost g2.cov ((γ * p + w) • X) := by
      refine AtMost.trans (hb L) ?_
      have hnn : 0 ≤ p ∨ n = 0 := by
        rcases Nat.eq_zero_or_pos n with h0 | h0
        · exact Or.inr h0
        · left
          have h1 := psd_of_sub hp (psd_at ho hg)
          have h2 := h1.diag_nonneg (i := ⟨0, h0⟩)
          have h3 := hX.diag_pos (i := ⟨0, h0⟩)
          simp only [Matrix.smul_apply, smul_eq_mul] at h2
          exact nonneg_of_mul_nonneg_left h2 h3
      have e1 : (1 - L * c.H.toM c.m n) * (c.F.toM n n * g.cov * (c.F.toM n n)ᵀ + c.Q.toM n n) * (1 - L * c.H.toM c.m n)ᵀ +
          L * (c.R.toM c.m c.m + c.cfg.eps • 1) * Lᵀ + c.cfg.eps • 1 =
          ((1 - L * c.H.toM c.m n) * c.F.toM n n) * g.cov * ((1 - L * c.H.toM c.m n) * c.F.toM n n)ᵀ +
          ((1 - L * c.H.toM c.m n) * c.Q.toM n n * (1 - L * c.H.toM c.m n)ᵀ + L * (c.R.toM c.m c.m + c.cfg.eps • 1) * Lᵀ + c.cfg.eps • 1) := by
        rw [Matrix.transpose_mul]
        simp only [Matrix.mul_add, Matrix.add_mul, Matrix.mul_assoc]
        abel
      rw [e1, add_smul]
      refine AtMost.add ?_ hL2
      refine AtMost.trans (AtMost.congr hp _) ?_
      rw [Matrix.mul_smul, Matrix.smul_mul, mul_comm γ p, mul_smul]
      rcases hnn with h0 | h0
      · have := hL1.smul h0
        unfold AtMost
        rwa [smul_sub] at this
      · subst h0
        unfold AtMost
        have : ∀ M : Matrix (Fin 0) (Fin 0) ℝ, M.PosSemidef := fun M => by
          have : M = 0 := by ext i; exact i.elim0
          rw [this]; exact PosSemidef.zero
        exact this _
    obtain ⟨h', g', hr, ho', hg', hb'⟩ := ih (fun c hc => hv c (by simp [hc])) (fun c hc => hobs c (by simp [hc])) c.tb h2 ho2 g2 hg2 (γ * p + w) hstep
    refine ⟨h', g', ?_, ho', hg', ?_⟩
    · simp only [script, calls, hc1, hc2, hr, Res.bind_ok, List.length_cons, Nat.mul_add, Nat.mul_one, List.replicate_succ]
    · convert hb' using 2
      rw [List.length_cons, Finset.sum_range_succ, pow_succ]
      ring

/-- C118. If the state can be observed, the reported covariance stays bounded however long the filter runs, whatever it measures, and the bound forgets how
uncertain the filter was at first. -/
theorem c118_bounded (X : Matrix (Fin n) (Fin n) ℝ) (γ w : ℝ) (hX : X.PosDef) (hγ0 : 0 ≤ γ) (hγ1 : γ < 1) (hw : 0 ≤ w) (cs : List Cycle)
    (hv : ∀ c ∈ cs, c.Valid n) (hobs : ∀ c ∈ cs, ∃ L, c.Observer X γ w L) (t : Int) (h : Buf Belief) (ho : Ok n h) (g : Gauss n)
    (hg : estimates n h t = some g) (p : ℝ) (hp : AtMost g.cov (p • X)) :
    ∃ h' g', calls h (script t cs) = .ok (h', List.replicate (2 * cs.length) true) ∧ Ok n h' ∧ estimates n h' (time t cs) = some g' ∧
      AtMost g'.cov ((γ ^ cs.length * p + w / (1 - γ)) • X) := by
  obtain ⟨h', g', hr, ho', hg', hb⟩ := cycles_run X γ w hX cs hv hobs t h ho g hg p hp
  refine ⟨h', g', hr, ho', hg', AtMost.trans hb ?_⟩
  unfold AtMost
  rw [← sub_smul]
  refine hX.posSemidef.smul ?_
  have h1 : ∑ i ∈ Finset.range cs.length, γ ^ i ≤ 1 / (1 - γ) := by
    rw [geom_sum_eq hγ1.ne, le_div_iff₀ (by linarith)]
    have h2 : (γ ^ cs.length - 1) / (γ - 1) * (1 - γ) = 1 - γ ^ cs.length := by
      have : γ - 1 ≠ 0 := by linarith [hγ1] |> ne_of_lt
      field_simp
      ring
    rw [h2]
    have := pow_nonneg hγ0 cs.length
    linarith
  have h3 := mul_le_mul_of_nonneg_left h1 hw
  rw [mul_one_div] at h3
  linarith

/-- C118. If every observation determines the state (`L H = 1`), the reported covariance after it is at most that of the state computed from this observation
alone, whatever happened before. -/
theorem c118_full (c : Cycle) (hv : c.Valid n) (L : Matrix (Fin n) (Fin c.m) ℝ) (hL : L * c.H.toM c.m n = 1) (t : Int) (h : Buf Belief) (ho : Ok n h) (g : Gauss n)
    (hg : estimates n h t = some g) :
    ∃ h' g', calls h (script t [c]) = .ok (h', [true, true]) ∧ estimates n h' c.tb = some g' ∧
      AtMost g'.cov (L * (c.R.toM c.m c.m + c.cfg.eps • 1) * Lᵀ + c.cfg.eps • 1) := by
  obtain ⟨h1, h2, hc1, hc2, _, g2, hg2, hb⟩ := cycle_run c hv t h ho g hg
  refine ⟨h2, g2, by simp only [script, calls, hc1, hc2, Res.bind_ok], hg2, ?_⟩
  have := hb L
  rw [hL, sub_self, Matrix.zero_mul, Matrix.zero_mul, zero_add] at this
  exact this

/-- Only predictions: the state of a random walk, never observed. -/
noncomputable def drift : ℕ → Int → List KCall
  | 0, _ => []
  | N + 1, t => .prop (MathExample.sc 1) (MathExample.sc 1) t (t + 1) :: drift N (t + 1)

/-- C118, why the state must be observed: the reported variance of a random walk that is never observed exceeds every bound. -/
theorem c118_unobserved (c : ℝ) : ∃ (N : ℕ) (h' : Buf Belief) (g' : Gauss 1), calls (scalar 1) (drift N 0) = .ok (h', List.replicate N true) ∧
    estimates 1 h' N = some g' ∧ ¬ AtMost g'.cov (c • 1) := by
  have hrun : ∀ (N : ℕ) (t : Int) (h : Buf Belief) (p : ℝ) (mn : Matrix (Fin 1) (Fin 1) ℝ), Ok 1 h → estimates 1 h t = some ⟨mn, p • 1⟩ →
      ∃ h' mn', calls h (drift N t) = .ok (h', List.replicate N true) ∧ estimates 1 h' (t + N) = some ⟨mn', (p + N) • 1⟩ := by
    intro N
    induction N with
    | zero => intro t h p mn _ he; exact ⟨h, mn, rfl, by simpa using he⟩
    | succ N ih =>
      intro t h p mn ho he
      obtain ⟨b, hb, _⟩ := Option.map_eq_some_iff.mp he
      obtain ⟨h1, hc1⟩ := (c100_defined (m := 0) h ho t b hb).1 (MathExample.sc 1) (MathExample.sc 1) (t + 1) rfl rfl rfl rfl
      obtain ⟨ht1, ho1⟩ := call_true ho (.prop (MathExample.sc 1) (MathExample.sc 1) t (t + 1)) (MathExample.sc_psd zero_le_one) hc1
      have hg1 : estimates 1 h1 (t + 1) = some ⟨mn, (p + 1) • 1⟩ := by
        generalize he1 : estimates 1 h1 = f1 at ht1 ⊢
        cases ht1 with
        | prop _ _ _ _ g' hg' =>
          rw [he] at hg'
          cases hg'
          rw [Function.update_self]
          congr 1
          unfold Gauss.predict
          rw [sc_eq, one_smul, Matrix.transpose_one]
          simp only [Matrix.one_mul, Matrix.mul_one]
          rw [add_smul, one_smul]
      obtain ⟨h', mn', hr, he'⟩ := ih (t + 1) h1 (p + 1) mn ho1 hg1
      refine ⟨h', mn', ?_, ?_⟩
      · simp only [drift, calls, hc1, hr, Res.bind_ok, List.replicate_succ]
      · rw [show t + ((N + 1 : ℕ) : Int) = t + 1 + N by push_cast; ring, he']
        congr 3
        push_cast
        ring
  obtain ⟨N, hN⟩ := exists_nat_gt c
  obtain ⟨h', mn', hr, he⟩ := hrun N 0 (scalar 1) 1 _ (scalar_ok zero_le_one) (by rw [scalar_est, if_pos rfl])
  rw [zero_add] at he
  exact ⟨N, h', _, hr, he, not_atMost (by linarith)⟩

/-! ## Example: position and velocity, of which the position is measured -/

/-- One second at a time. -/
noncomputable def body (t : Int) (z : ℝ) : Cycle where
  F := Mat.ofM !![1, 1; 0, 1]
  Q := Mat.ofM (1 : Matrix (Fin 2) (Fin 2) ℝ)
  tb := t + 1
  m := 1
  H := Mat.ofM !![1, 0]
  R := Mat.ofM (1 : Matrix (Fin 1) (Fin 1) ℝ)
  z := MathExample.sc z
  cfg := { outlier := false, eps := 0 }

theorem body_valid (t : Int) (z : ℝ) : (body t z).Valid 2 := by
  refine ⟨⟨rfl, rfl⟩, ⟨rfl, rfl⟩, ⟨rfl, rfl⟩, ⟨rfl, rfl⟩, ⟨rfl, rfl⟩, ?_, ?_, le_rfl, ?_, rfl⟩
  · show ((Mat.ofM (1 : Matrix (Fin 2) (Fin 2) ℝ)).toM 2 2).PosSemidef
    rw [Mat.toM_ofM]; exact PosSemidef.one
  · show ((Mat.ofM (1 : Matrix (Fin 1) (Fin 1) ℝ)).toM 1 1).PosSemidef
    rw [Mat.toM_ofM]; exact PosSemidef.one
  · show ((Mat.ofM (1 : Matrix (Fin 1) (Fin 1) ℝ)).toM 1 1 + (0 : ℝ) • 1).PosDef
    rw [Mat.toM_ofM, zero_smul, add_zero]; exact PosDef.one

/-- The weights of the error. -/
def X2 : Matrix (Fin 2) (Fin 2) ℝ := !![1, 0; 0, 2]

theorem X2_diag : X2 = Matrix.diagonal ![1, 2] := by
  ext i j
  fin_cases i <;> fin_cases j <;> simp [X2]

theorem psd2 (a b d : ℝ) (ha : 0 < a) (hd : b ^ 2 ≤ a * d) : (!![a, b; b, d] : Matrix (Fin 2) (Fin 2) ℝ).PosSemidef := by
  refine PosSemidef.of_dotProduct_mulVec_nonneg ?_ fun u => ?_
  · ext i j
    fin_cases i <;> fin_cases j <;> rfl
  · simp [dotProduct, mulVec, Fin.sum_univ_two]
    have h1 : 0 ≤ a * (u 0 * (a * u 0 + b * u 1) + u 1 * (b * u 0 + d * u 1)) := by
      nlinarith [sq_nonneg (a * u 0 + b * u 1), mul_nonneg (sub_nonneg.mpr hd) (sq_nonneg (u 1))]
    exact nonneg_of_mul_nonneg_right h1 ha

theorem body_observer (t : Int) (z : ℝ) : (body t z).Observer X2 (1 / 2) 3 !![1; 1] := by
  have hH : (body t z).H.toM (body t z).m 2 = !![1, 0] := Mat.toM_ofM _
  have hF : (body t z).F.toM 2 2 = !![1, 1; 0, 1] := Mat.toM_ofM _
  have hQ : (body t z).Q.toM 2 2 = 1 := Mat.toM_ofM _
  have hR : (body t z).R.toM (body t z).m (body t z).m = 1 := Mat.toM_ofM _
  have he : (body t z).cfg.eps = 0 := rfl
  have hM : (1 : Matrix (Fin 2) (Fin 2) ℝ) - (!![1; 1] : Matrix (Fin 2) (Fin 1) ℝ) * (!![1, 0] : Matrix (Fin 1) (Fin 2) ℝ) = !![0, 0; -1, 1] := by
    ext i j
    fin_cases i <;> fin_cases j <;> simp [Matrix.mul_apply]
  unfold Cycle.Observer
  rw [hH, hF, hQ, hR, he]
  constructor
  · have : (!![0, 0; -1, 1] * !![1, 1; 0, 1] : Matrix (Fin 2) (Fin 2) ℝ) = !![0, 0; -1, 0] := by
      ext i j
      fin_cases i <;> fin_cases j <;> simp [Matrix.mul_apply, Fin.sum_univ_two]
    unfold AtMost
    erw [hM]
    rw [this]
    have e : (1 / 2 : ℝ) • X2 - !![0, 0; -1, 0] * X2 * (!![0, 0; -1, 0])ᵀ = !![1 / 2, 0; 0, 0] := by
      ext i j
      fin_cases i <;> fin_cases j <;> simp [X2, Matrix.mul_apply, Fin.sum_univ_two, Matrix.vecMul, dotProduct]
    rw [e]
    exact psd2 _ _ _ (by norm_num) (by norm_num)
  · unfold AtMost
    erw [hM]
    have e : (3 : ℝ) • X2 - (!![0, 0; -1, 1] * 1 * (!![0, 0; -1, 1])ᵀ + (!![1; 1] : Matrix (Fin 2) (Fin 1) ℝ) * ((1 : Matrix (Fin 1) (Fin 1) ℝ) + (0 : ℝ) • 1) * (!![1; 1] : Matrix (Fin 2) (Fin 1) ℝ)ᵀ + (0 : ℝ) • 1) =
        !![2, -1; -1, 3] := by
      ext i j
      fin_cases i <;> fin_cases j <;> simp [X2, Matrix.mul_apply, Fin.sum_univ_two, Matrix.vecMul, dotProduct] <;> norm_num
    erw [e]
    exact psd2 _ _ _ (by norm_num) (by norm_num)

/-- The hypotheses of `c118_bounded` are met by any number of cycles of the moving body, with any measured values. -/
example (zs : List ℝ) : (∀ c ∈ zs.mapIdx (fun i z => body i z), c.Valid 2) ∧ (∀ c ∈ zs.mapIdx (fun i z => body i z), ∃ L, c.Observer X2 (1 / 2) 3 L) ∧
    X2.PosDef ∧ AtMost (1 : Matrix (Fin 2) (Fin 2) ℝ) ((1 : ℝ) • X2) ∧
    ∃ h mn, Ok 2 h ∧ estimates 2 h 0 = some ⟨mn, 1⟩ := by
  refine ⟨?_, ?_, ?_, ?_, [(0, { mean := Mat.ofM (0 : Matrix (Fin 2) (Fin 1) ℝ), Sigma := Mat.ofM (1 : Matrix (Fin 2) (Fin 2) ℝ), stamp := 0 })],
    (Mat.ofM (0 : Matrix (Fin 2) (Fin 1) ℝ)).toM 2 1, ⟨List.pairwise_singleton _ _, ?_⟩, ?_⟩
  · intro c hc
    obtain ⟨i, hi, rfl⟩ := List.mem_mapIdx.mp hc
    exact body_valid _ _
  · intro c hc
    obtain ⟨i, hi, rfl⟩ := List.mem_mapIdx.mp hc
    exact ⟨_, body_observer _ _⟩
  · rw [X2_diag]
    refine Matrix.PosDef.diagonal fun i => ?_
    fin_cases i <;> simp
  · have e : (1 : ℝ) • X2 - 1 = Matrix.diagonal ![0, 1] := by
      ext i j
      fin_cases i <;> fin_cases j <;> simp [X2] <;> norm_num
    unfold AtMost
    rw [e]
    refine Matrix.PosSemidef.diagonal fun i => ?_
    fin_cases i <;> simp
  · intro e he
    simp only [List.mem_singleton] at he
    subst he
    refine ⟨⟨rfl, rfl⟩, ⟨rfl, rfl⟩, ?_⟩
    show ((Mat.ofM (1 : Matrix (Fin 2) (Fin 2) ℝ)).toM 2 2).PosSemidef
    rw [Mat.toM_ofM]; exact PosSemidef.one
  · show some (Gauss.mk ((Mat.ofM (0 : Matrix (Fin 2) (Fin 1) ℝ)).toM 2 1) ((Mat.ofM (1 : Matrix (Fin 2) (Fin 2) ℝ)).toM 2 2)) = _
    rw [Mat.toM_ofM (1 : Matrix (Fin 2) (Fin 2) ℝ)]

end Bounded
end Ikf
