import Verif.Props.Simultaneous
import Verif.Props.CertaintyReg
import Verif.Props.Bounded

/-! # Property C119 with regularisation: the covariances of two orders agree up to a factor -/

namespace Ikf
namespace Simultaneous
open Matrix SKF Certainty

variable {n m : ℕ}

theorem le_tr {A B C : Matrix (Fin n) (Fin n) ℝ} (h1 : AtMost A B) (h2 : AtMost B C) : AtMost A C := Bounded.AtMost.trans h1 h2

theorem le_sc {A B : Matrix (Fin n) (Fin n) ℝ} (h : AtMost A B) {c : ℝ} (hc : 0 ≤ c) : AtMost (c • A) (c • B) := by
  have := smul_add_psd h hc
  unfold AtMost
  rwa [← smul_sub]

theorem apos_mono {P P' : Matrix (Fin n) (Fin n) ℝ} (hP : P.PosSemidef) (hP' : P'.PosSemidef) {κ : ℝ} (hκ : 1 ≤ κ) (hl : AtMost P (κ • P'))
    (H : Matrix (Fin m) (Fin n) ℝ) {N : Matrix (Fin m) (Fin m) ℝ} (hN : N.PosDef) : AtMost (Alg.apos P H N) (κ • Alg.apos P' H N) := by
  have z : AtMost ((0 : ℝ) • (1 : Matrix (Fin m) (Fin m) ℝ)) ((0 : ℝ) • N) := by
    unfold AtMost
    rw [zero_smul, zero_smul, sub_zero]
    exact PosSemidef.zero
  have r : AtMost N N := by
    unfold AtMost
    rw [sub_self]
    exact PosSemidef.zero
  have := update_mono_reg ⟨0, P⟩ ⟨0, P'⟩ hP hP' hκ le_rfl hl H N N 0 le_rfl (by rw [zero_smul, add_zero]; exact hN) r hN.posSemidef z 0 0 false false
  rw [updateReg_cov, updateReg_cov] at this
  simpa [Alg.apos] using this

/-- The regularised update is at least the textbook one but for the factor. -/
theorem apos_le_reg {g : Gauss n} (hg : g.cov.PosSemidef) (H : Matrix (Fin m) (Fin n) ℝ) (R : Matrix (Fin m) (Fin m) ℝ) {e δ : ℝ} (he : 0 ≤ e) (hδ : 0 ≤ δ)
    (hR : (R + e • 1).PosDef) (hd : AtMost (e • 1) (δ • R)) (r : Matrix (Fin m) (Fin 1) ℝ) (j s : Bool) :
    AtMost (Alg.apos g.cov H (R + e • 1)) ((1 + δ) • (g.updateReg H R r e j s).cov) := by
  unfold AtMost
  rw [updateReg_cov]
  unfold Alg.apos
  set K := Alg.gain g.cov H (R + e • 1) with hK
  have h1 := Alg.joseph_gain hg H (Alg.innov_pd hg H hR)
  rw [← hK] at h1
  have hj : (δ • ((1 - K * H) * g.cov) - (1 + δ) • (if j then e • (K * Kᵀ) else 0)).PosSemidef := by
    have h5 := smul_add_psd (Alg.psd_congr hg (1 - K * H)) hδ
    have h6 := Alg.psd_congr hd K
    cases j with
    | true =>
      have h7 := h5.add h6
      rw [← h1]
      convert h7 using 1
      simp only [Alg.joseph, Matrix.mul_sub, Matrix.sub_mul, Matrix.mul_add, Matrix.add_mul, smul_add, Matrix.mul_smul, Matrix.smul_mul, smul_sub,
        Matrix.mul_one, one_mul, add_smul, Matrix.transpose_sub, if_true, one_smul]
      abel
    | false =>
      have h8 := smul_add_psd (Alg.joseph_psd hg H hR.posSemidef K) hδ
      rw [h1] at h8
      simpa using h8
  have hs : ((1 + δ) • (if s then e • (1 : Matrix (Fin n) (Fin n) ℝ) else 0)).PosSemidef := by
    refine smul_add_psd ?_ (by linarith)
    split
    · exact Alg.smul_one_psd he
    · exact PosSemidef.zero
  convert hj.add hs using 1
  simp only [smul_add, smul_sub, add_smul, one_smul]
  abel

/-- The regularised update is at most the textbook one and what is added for stability. -/
theorem reg_le_apos {g : Gauss n} (H : Matrix (Fin m) (Fin n) ℝ) (R : Matrix (Fin m) (Fin m) ℝ) {e : ℝ} (he : 0 ≤ e) (r : Matrix (Fin m) (Fin 1) ℝ) (j s : Bool) :
    AtMost (g.updateReg H R r e j s).cov (Alg.apos g.cov H (R + e • 1) + if s then e • 1 else 0) := by
  unfold AtMost
  rw [updateReg_cov]
  unfold Alg.apos
  set K := Alg.gain g.cov H (R + e • 1) with hK
  have hj1 : (if j then e • (K * Kᵀ) else 0).PosSemidef := by
    split
    · have := Alg.psd_congr (Alg.smul_one_psd (n := Fin m) he) K
      simpa only [Matrix.mul_smul, Matrix.smul_mul, Matrix.mul_one] using this
    · exact PosSemidef.zero
  convert hj1 using 1
  abel

theorem apos_le {P : Matrix (Fin n) (Fin n) ℝ} (hP : P.PosSemidef) (H : Matrix (Fin m) (Fin n) ℝ) {N : Matrix (Fin m) (Fin m) ℝ} (hN : N.PosDef) :
    AtMost (Alg.apos P H N) P := by
  have := update_drop ⟨0, P⟩ hP H N 0 le_rfl (by rw [zero_smul, add_zero]; exact hN) 0 false false (Or.inl rfl)
  rw [updateReg_cov] at this
  simpa [Alg.apos] using this

/-- What the code computes. -/
noncomputable def updR (g : Gauss n) (o : Obs) : Gauss n :=
  g.updateReg (o.H.toM o.m n) (o.R.toM o.m o.m) (o.z.toM o.m 1 - o.H.toM o.m n * g.mean) o.cfg.eps o.cfg.joseph o.cfg.stab

theorem obs_runR {h : Buf Belief} (ho : Ok n h) {t : Int} {g : Gauss n} (hg : estimates n h t = some g) {o : Obs} (hv : o.Valid n) :
    ∃ h', call h (o.call t) = .ok (h', true) ∧ Ok n h' ∧ estimates n h' = Function.update (estimates n h) t (some (updR g o)) := by
  obtain ⟨m, H, R, z, cfg⟩ := o
  obtain ⟨hH, hR, hz, hRp, he, hRe, hgate⟩ := hv
  obtain ⟨hz1, hz2⟩ := hz
  simp only at hH hR hz1 hz2 hRp he hRe hgate
  subst hz1
  obtain ⟨b, hb, _⟩ := Option.map_eq_some_iff.mp hg
  obtain ⟨h', a, hc, ha⟩ := ((c100_defined (m := z.rows) h ho t b hb).2.2 H R z cfg hH.1 hH.2 hR.1 hR.2 rfl hz2 (Or.inl hgate)).1
  rw [ha hgate] at hc
  obtain ⟨ht, ho'⟩ := call_true ho (.priv H R z t cfg) ⟨he, hRp, hRe⟩ hc
  refine ⟨h', hc, ho', ?_⟩
  generalize he1 : estimates n h' = f1 at ht ⊢
  cases ht with
  | priv _ _ _ _ _ g' hg' =>
    rw [hg] at hg'
    cases hg'
    rfl

theorem list_runR {h : Buf Belief} (ho : Ok n h) {t : Int} {g : Gauss n} (hg : estimates n h t = some g) (os : List Obs) (hv : ∀ o ∈ os, o.Valid n) :
    ∃ h', calls h (os.map (Obs.call t)) = .ok (h', List.replicate os.length true) ∧ Ok n h' ∧
      estimates n h' = Function.update (estimates n h) t (some (os.foldl updR g)) := by
  induction os generalizing h g with
  | nil =>
    refine ⟨h, rfl, ho, ?_⟩
    rw [List.foldl_nil, ← hg, Function.update_eq_self]
  | cons o r ih =>
    obtain ⟨h1, hc, ho1, he1⟩ := obs_runR ho hg (hv o (by simp))
    obtain ⟨h2, hc2, ho2, he2⟩ := ih ho1 (g := updR g o) (by rw [he1, Function.update_self]) (fun x hx => hv x (by simp [hx]))
    refine ⟨h2, ?_, ho2, ?_⟩
    · simp only [List.map_cons, calls, hc, hc2, Res.bind_ok, List.length_cons, List.replicate_succ]
    · rw [he2, he1, Function.update_idem]
      rfl

theorem fold_le {g : Gauss n} (hg : g.cov.PosSemidef) (os : List Obs) (hv : ∀ o ∈ os, o.Valid n) : AtMost (os.foldl upd g).cov g.cov := by
  induction os generalizing g with
  | nil =>
    unfold AtMost
    rw [List.foldl_nil, sub_self]
    exact PosSemidef.zero
  | cons o r ih =>
    exact le_tr (ih (upd_psd hg (hv o (by simp))) fun x hx => hv x (by simp [hx])) (apos_le hg _ (hv o (by simp)).2.2.2.2.2.1)

theorem updR_psd {h : Buf Belief} {t : Int} (ho : Ok n h) {g : Gauss n} (hg : estimates n h t = some g) {o : Obs} (hv : o.Valid n) : (updR g o).cov.PosSemidef := by
  obtain ⟨h', -, ho', he⟩ := obs_runR ho hg hv
  exact psd_at ho' (t := t) (by rw [he, Function.update_self])

/-- Both bounds along the observations. -/
theorem fold_reg {h : Buf Belief} {t : Int} (ho : Ok n h) {g g0 : Gauss n} (hg : estimates n h t = some g) (hg0 : g0.cov.PosSemidef) {κ δ : ℝ} (hκ : 1 ≤ κ) (hδ : 0 ≤ δ) (os : List Obs)
    (hv : ∀ o ∈ os, o.Valid n) (hR : ∀ o ∈ os, AtMost (o.cfg.eps • 1) (δ • o.R.toM o.m o.m))
    (hS : ∀ o ∈ os, o.cfg.stab = true → AtMost (o.cfg.eps • 1) (δ • (os.foldl upd g0).cov)) (l : AtMost g.cov (κ • g0.cov)) (u : AtMost g0.cov (κ • g.cov)) :
    AtMost (os.foldl updR g).cov ((κ * (1 + δ) ^ os.length) • (os.foldl upd g0).cov) ∧ AtMost (os.foldl upd g0).cov ((κ * (1 + δ) ^ os.length) • (os.foldl updR g).cov) := by
  induction os generalizing h g g0 κ with
  | nil => simpa using ⟨l, u⟩
  | cons o r ih =>
    have vo := hv o (by simp)
    obtain ⟨-, -, -, -, he, hN, -⟩ := vo
    have vo := hv o (by simp)
    have hgp := psd_at ho hg
    obtain ⟨h1, -, ho1, he1⟩ := obs_runR ho hg vo
    have hu0 := upd_psd hg0 vo
    have key := ih ho1 (g := updR g o) (g0 := upd g0 o) (by rw [he1, Function.update_self]) hu0 (κ := κ * (1 + δ)) (by nlinarith) (fun x hx => hv x (by simp [hx])) (fun x hx => hR x (by simp [hx]))
      (fun x hx => hS x (by simp [hx])) ?_ ?_
    · rw [List.length_cons, pow_succ', ← mul_assoc]
      exact key
    · have h2 := (reg_le_apos (g := g) (o.H.toM o.m n) (o.R.toM o.m o.m) he (o.z.toM o.m 1 - o.H.toM o.m n * g.mean) o.cfg.joseph o.cfg.stab)
      have h3 := apos_mono hgp hg0 hκ l (o.H.toM o.m n) hN
      have h4 : AtMost (if o.cfg.stab then o.cfg.eps • (1 : Matrix (Fin n) (Fin n) ℝ) else 0) ((κ * δ) • (upd g0 o).cov) := by
        by_cases hs : o.cfg.stab = true
        · rw [if_pos hs]
          have h5 := hS o (by simp) hs
          have h6 := le_sc (fold_le hu0 r fun x hx => hv x (by simp [hx])) hδ
          have h7 : AtMost (δ • (upd g0 o).cov) ((κ * δ) • (upd g0 o).cov) := by
            unfold AtMost
            rw [← sub_smul]
            exact smul_add_psd hu0 (by nlinarith)
          exact le_tr (le_tr h5 h6) h7
        · rw [if_neg hs]
          unfold AtMost
          rw [sub_zero]
          exact smul_add_psd hu0 (by positivity)
      have h8 := le_tr h2 (Bounded.AtMost.add h3 h4)
      rw [mul_add, mul_one, add_smul]
      exact h8
    · have h3 := apos_mono hg0 hgp hκ u (o.H.toM o.m n) hN
      have h4 := le_sc (apos_le_reg hgp (o.H.toM o.m n) (o.R.toM o.m o.m) he hδ hN (hR o (by simp)) (o.z.toM o.m 1 - o.H.toM o.m n * g.mean) o.cfg.joseph o.cfg.stab) (zero_le_one.trans hκ)
      rw [smul_smul] at h4
      exact le_tr h3 h4

theorem plain_valid {o : Obs} (h : o.Valid n) : o.plain.Valid n ∧ Plain o.plain.cfg := ⟨h, Or.inr ⟨rfl, rfl⟩⟩

theorem fold_plain (g : Gauss n) (os : List Obs) : (os.map Obs.plain).foldl upd g = os.foldl upd g := by
  rw [List.foldl_map]
  rfl

/-- C119 with any configuration, the default one included (partial: a factor, and only the covariances). Let the `eps` of the configuration be at most the fraction `δ` of the noise of
every measurement and, where stabilisation is asked for, of the covariance the same `k` measurements would lead to without regularisation. Then all are accepted in
every order, and the covariances two orders lead to differ at most by the factor `(1 + δ) ^ (2 k)`. (For `eps = 1e-16` and standard deviations of at least 1 cm, and
ten measurements: by the fraction 2e-11.) -/
theorem c119_regularised_partial (h : Buf Belief) (ho : Ok n h) (t : Int) (os os' : List Obs) (hp : os.Perm os') (hv : ∀ o ∈ os, o.Valid n) (δ : ℝ) (hδ : 0 ≤ δ)
    (hR : ∀ o ∈ os, AtMost (o.cfg.eps • 1) (δ • o.R.toM o.m o.m))
    (h0 : Buf Belief) (as : List Bool) (g0 : Gauss n) (hr0 : calls h (os.map fun o => o.plain.call t) = .ok (h0, as)) (hg0 : estimates n h0 t = some g0)
    (hS : ∀ o ∈ os, o.cfg.stab = true → AtMost (o.cfg.eps • 1) (δ • g0.cov)) (hsome : (estimates n h t).isSome) :
    ∃ h1 h1' g1 g1', calls h (os.map (Obs.call t)) = .ok (h1, List.replicate os.length true) ∧
      calls h (os'.map (Obs.call t)) = .ok (h1', List.replicate os.length true) ∧ estimates n h1 t = some g1 ∧ estimates n h1' t = some g1' ∧
      (∀ u, u ≠ t → estimates n h1 u = estimates n h u ∧ estimates n h1' u = estimates n h u) ∧
      AtMost g1.cov ((1 + δ) ^ (2 * os.length) • g1'.cov) ∧ AtMost g1'.cov ((1 + δ) ^ (2 * os.length) • g1.cov) := by
  obtain ⟨g, hg⟩ := Option.isSome_iff_exists.mp hsome
  have hgp := psd_at ho hg
  have hv' : ∀ o ∈ os', o.Valid n := fun o hx => hv o (hp.symm.subset hx)
  obtain ⟨h1, hc, -, he⟩ := list_runR ho hg os hv
  obtain ⟨h1', hc', -, he'⟩ := list_runR ho hg os' hv'
  obtain ⟨k, hk, -, hke⟩ := list_run ho hg (os.map Obs.plain) (by
    intro o hx
    obtain ⟨x, hx', rfl⟩ := List.mem_map.mp hx
    exact plain_valid (hv x hx'))
  rw [List.map_map] at hk
  have : h0 = k := by
    have := hr0.symm.trans hk
    exact (Prod.mk.inj (Res.ok.inj this)).1
  subst this
  rw [hke, Function.update_self, fold_plain] at hg0
  obtain rfl := Option.some.inj hg0
  have hfold := fold_perm hgp hp hv
  have r : AtMost g.cov ((1 : ℝ) • g.cov) := by
    unfold AtMost
    rw [one_smul, sub_self]
    exact PosSemidef.zero
  obtain ⟨a1, a2⟩ := fold_reg ho hg hgp le_rfl hδ os hv hR hS r r
  obtain ⟨b1, b2⟩ := fold_reg ho hg hgp le_rfl hδ os' hv' (fun o hx => hR o (hp.symm.subset hx)) (fun o hx => by rw [← hfold]; exact hS o (hp.symm.subset hx)) r r
  rw [← hfold, ← hp.length_eq] at b1 b2
  rw [one_mul] at a1 a2 b1 b2
  have hpos : (0 : ℝ) ≤ (1 + δ) ^ os.length := by positivity
  have hpow : (1 + δ) ^ (2 * os.length) = (1 + δ) ^ os.length * (1 + δ) ^ os.length := by rw [two_mul, pow_add]
  refine ⟨h1, h1', os.foldl updR g, os'.foldl updR g, hc, by rw [hc', hp.length_eq], by rw [he, Function.update_self], by rw [he', Function.update_self], fun u hu => ?_, ?_, ?_⟩
  · rw [he, he', Function.update_of_ne hu, Function.update_of_ne hu]
    exact ⟨rfl, rfl⟩
  · have := le_tr a1 (le_sc b2 hpos)
    rwa [smul_smul, ← hpow] at this
  · have := le_tr b1 (le_sc a2 hpos)
    rwa [smul_smul, ← hpow] at this

/-! ## Example -/

open MathExample in
/-- The state itself is observed to be `z`, with noise variance `r` and the default configuration but for the outlier gate. -/
noncomputable def def1 (r z : ℝ) : Obs := ⟨1, sc 1, sc r, sc z, { outlier := false }⟩

theorem def1_valid {r : ℝ} (hr : 0 ≤ r) (z : ℝ) : (def1 r z).Valid 1 :=
  ⟨⟨rfl, rfl⟩, ⟨rfl, rfl⟩, ⟨rfl, rfl⟩, MathExample.sc_psd hr, by norm_num [def1], PosDef.posSemidef_add (MathExample.sc_psd hr) (Alg.smul_one_pd (by norm_num [def1])), rfl⟩

theorem upd_scalar {g : Gauss 1} {p r z : ℝ} (hp : 0 ≤ p) (hr : 0 ≤ r) (hg : g.cov = p • 1) :
    (upd g (def1 r z)).cov = (p - p * p * (p + (r + 1 / 10 ^ 16))⁻¹) • (1 : Matrix (Fin 1) (Fin 1) ℝ) := by
  have key : ∀ e : ℝ, 0 < e → Alg.apos g.cov ((MathExample.sc 1).toM 1 1) ((MathExample.sc r).toM 1 1 + e • 1) = (p - p * p * (p + (r + e))⁻¹) • (1 : Matrix (Fin 1) (Fin 1) ℝ) := by
    intro e he
    rw [sc_eq, one_smul, sc_eq]
    have hK : Alg.gain g.cov (1 : Matrix (Fin 1) (Fin 1) ℝ) (r • 1 + e • 1) = (p * (p + (r + e))⁻¹) • 1 := by
      unfold Alg.gain
      have hi : ((1 : Matrix (Fin 1) (Fin 1) ℝ) * g.cov * 1ᵀ + (r • 1 + e • 1))⁻¹ = (p + (r + e))⁻¹ • 1 := by
        refine Matrix.inv_eq_right_inv ?_
        rw [hg]
        simp only [Matrix.transpose_one, Matrix.one_mul, Matrix.mul_one, ← add_smul, Matrix.smul_mul, Matrix.mul_smul, smul_smul]
        rw [inv_mul_cancel₀ (by positivity), one_smul]
      rw [hi, hg]
      simp only [Matrix.transpose_one, Matrix.mul_one, Matrix.smul_mul, Matrix.mul_smul, smul_smul]
      rw [mul_comm]
    unfold Alg.apos
    rw [hK, hg]
    ext i j
    fin_cases i; fin_cases j
    simp
    ring
  exact key _ (by norm_num [def1])

/-- The hypotheses of `c119_regularised_partial` are met: a scalar with variance 1 is observed with noise variances 1 and 2, default configuration, `δ = 1e-15`. -/
example : ∃ (os : List Obs) (h0 : Buf Belief) (g0 : Gauss 1), os = [def1 1 5, def1 2 6] ∧ Ok 1 (scalar 1) ∧ (∀ o ∈ os, o.Valid 1) ∧ (∀ o ∈ os, o.cfg.stab = true) ∧
    (∀ o ∈ os, AtMost (o.cfg.eps • 1) ((1 / 10 ^ 15 : ℝ) • o.R.toM o.m o.m)) ∧ calls (scalar 1) (os.map fun o => o.plain.call 0) = .ok (h0, [true, true]) ∧
    estimates 1 h0 0 = some g0 ∧ (∀ o ∈ os, o.cfg.stab = true → AtMost (o.cfg.eps • 1) ((1 / 10 ^ 15 : ℝ) • g0.cov)) ∧ (estimates 1 (scalar 1) 0).isSome := by
  have hv : ∀ o ∈ [def1 1 5, def1 2 6], o.Valid 1 := by
    intro o ho
    simp only [List.mem_cons, List.not_mem_nil, or_false] at ho
    rcases ho with rfl | rfl
    · exact def1_valid zero_le_one _
    · exact def1_valid zero_le_two _
  have hg : estimates 1 (scalar 1) 0 = some ⟨(MathExample.sc 0).toM 1 1, (1 : ℝ) • 1⟩ := by rw [scalar_est, if_pos rfl]
  obtain ⟨h0, hc, -, he⟩ := list_run (scalar_ok zero_le_one) hg ([def1 1 5, def1 2 6].map Obs.plain) (by
    intro o hx
    obtain ⟨x, hx', rfl⟩ := List.mem_map.mp hx
    exact plain_valid (hv x hx'))
  rw [fold_plain] at he
  have sm : ∀ {a b : ℝ}, a ≤ b → AtMost (a • (1 : Matrix (Fin 1) (Fin 1) ℝ)) (b • 1) := by
    intro a b hab
    unfold AtMost
    rw [← sub_smul]
    exact Alg.smul_one_psd (by linarith)
  refine ⟨_, h0, _, rfl, scalar_ok zero_le_one, hv, ?_, ?_, by rw [List.map_map] at hc; exact hc, by rw [he, Function.update_self], ?_, by rw [hg]; rfl⟩
  · intro o ho
    simp only [List.mem_cons, List.not_mem_nil, or_false] at ho
    rcases ho with rfl | rfl <;> rfl
  · intro o ho
    simp only [List.mem_cons, List.not_mem_nil, or_false] at ho
    have key : ∀ r : ℝ, 1 ≤ r → ∀ e : ℝ, e ≤ 1 / 10 ^ 16 → AtMost (e • (1 : Matrix (Fin 1) (Fin 1) ℝ)) ((1 / 10 ^ 15 : ℝ) • (MathExample.sc r).toM 1 1) := by
      intro r hr e he
      rw [sc_eq, smul_smul]
      exact sm (by nlinarith)
    rcases ho with rfl | rfl
    · exact key 1 le_rfl _ (by norm_num [def1])
    · exact key 2 one_le_two _ (by norm_num [def1])
  · intro o ho _
    have hcov := upd_scalar (z := 6) (g := upd ⟨(MathExample.sc 0).toM 1 1, (1 : ℝ) • 1⟩ (def1 1 5)) (r := 2) (by norm_num) zero_le_two (upd_scalar zero_le_one zero_le_one rfl)
    have e : ∀ x ∈ [def1 1 5, def1 2 6], x.cfg.eps = 1 / 10 ^ 16 := by
      intro x hx
      simp only [List.mem_cons, List.not_mem_nil, or_false] at hx
      rcases hx with rfl | rfl <;> norm_num [def1]
    rw [e o ho, List.foldl_cons, List.foldl_cons, List.foldl_nil, hcov, smul_smul]
    exact sm (by norm_num)

end Simultaneous
end Ikf
