import Verif.Spec.Forget
import Verif.Props.Bounded
import Verif.Props.NearOptimal

/-! # Property C129: a filter forgets its initial belief -/

namespace Ikf
namespace Forget
open Matrix SKF Certainty Bounded

variable {n m : ℕ}

/-- The difference as a matrix inequality. -/
theorem within_iff (c : ℝ) (μ μ' : Matrix (Fin n) (Fin 1) ℝ) (P : Matrix (Fin n) (Fin n) ℝ) (hP : Pᵀ = P) :
    Within c μ μ' P ↔ AtMost ((μ - μ') * (μ - μ')ᵀ) (c • P) := by
  have q : ∀ y : Fin n → ℝ, y ⬝ᵥ ((c • P - (μ - μ') * (μ - μ')ᵀ) *ᵥ y) = c * ∑ i, ∑ j, y i * P i j * y j - (∑ i, y i * (μ i 0 - μ' i 0)) ^ 2 := by
    intro y
    rw [Matrix.sub_mulVec, dotProduct_sub, Matrix.smul_mulVec, dotProduct_smul, smul_eq_mul]
    congr 1
    · congr 1
      simp only [dotProduct, mulVec, Finset.mul_sum, mul_assoc]
    · rw [← Matrix.mulVec_mulVec, Matrix.dotProduct_mulVec, sq]
      simp only [dotProduct, vecMul, mulVec, transpose_apply, Fin.sum_univ_one, Matrix.sub_apply]
      congr 1
      exact Finset.sum_congr rfl fun i _ => mul_comm _ _
  constructor
  · intro h
    refine PosSemidef.of_dotProduct_mulVec_nonneg ?_ fun y => ?_
    · rw [Matrix.IsHermitian, conjTranspose_eq_transpose_of_trivial, transpose_sub, transpose_smul, transpose_mul, transpose_transpose, hP]
    · rw [star_trivial, q]
      linarith [h y]
  · intro h y
    have := h.dotProduct_mulVec_nonneg y
    rw [star_trivial, q] at this
    linarith

/-- One cycle, exactly. -/
theorem cycle_exact (c : Cycle) (hv : c.Valid n) (t : Int) (h : Buf Belief) (ho : Ok n h) (g : Gauss n) (hg : estimates n h t = some g) :
    ∃ h2, calls h (script t [c]) = .ok (h2, [true, true]) ∧ Ok n h2 ∧ (g.predict (c.F.toM n n) (c.Q.toM n n)).cov.PosSemidef ∧
      estimates n h2 c.tb = some ((g.predict (c.F.toM n n) (c.Q.toM n n)).updateReg (c.H.toM c.m n) (c.R.toM c.m c.m)
        (c.z.toM c.m 1 - c.H.toM c.m n * (c.F.toM n n * g.mean)) c.cfg.eps c.cfg.joseph c.cfg.stab) := by
  obtain ⟨hF, hQ, hH, hR, hz, hQp, hRp, he, hRe, hgate⟩ := hv
  obtain ⟨b, hb, _⟩ := Option.map_eq_some_iff.mp hg
  obtain ⟨h1, hc1⟩ := (c100_defined (m := 0) h ho t b hb).1 c.F c.Q c.tb hF.1 hF.2 hQ.1 hQ.2
  obtain ⟨ht1, ho1⟩ := call_true ho (.prop c.F c.Q t c.tb) hQp hc1
  have hg1 : estimates n h1 c.tb = some (g.predict (c.F.toM n n) (c.Q.toM n n)) := by
    generalize he1 : estimates n h1 = f1 at ht1 ⊢
    cases ht1 with
    | prop _ _ _ _ g' hg' =>
      rw [hg] at hg'
      cases hg'
      rw [Function.update_self]
  obtain ⟨b1, hb1, _⟩ := Option.map_eq_some_iff.mp hg1
  obtain ⟨h2, a, hc2, ha⟩ := ((c100_defined (m := c.m) h1 ho1 c.tb b1 hb1).2.2 c.H c.R c.z c.cfg hH.1 hH.2 hR.1 hR.2 hz.1 hz.2 (Or.inl hgate)).1
  rw [ha hgate] at hc2
  have hfit : (KCall.priv c.H c.R c.z c.tb c.cfg).Fits n := by
    refine ⟨he, ?_, ?_⟩
    · rw [hz.1]; exact hRp
    · rw [hz.1]; exact hRe
  obtain ⟨ht2, ho2⟩ := call_true ho1 _ hfit hc2
  refine ⟨h2, by simp only [script, calls, hc1, hc2, Res.bind_ok], ho2, psd_at ho1 hg1, ?_⟩
  generalize he2 : estimates n h2 = f2 at ht2 ⊢
  cases ht2 with
  | priv _ _ _ _ _ g' hg' =>
    rw [hg1] at hg'
    cases hg'
    rw [Function.update_self, hz.1]
    rfl

/-- A covariance moved on and stirred. -/
theorem stirred {F P Q : Matrix (Fin n) (Fin n) ℝ} {α : ℝ} (h : AtMost (α • (F * P * Fᵀ)) Q) : AtMost ((1 + α) • (F * P * Fᵀ)) (F * P * Fᵀ + Q) := by
  have := Bounded.AtMost.add (NearOptimal.le_rf (F * P * Fᵀ)) h
  rwa [add_smul, one_smul]

theorem at_smul {A B : Matrix (Fin n) (Fin n) ℝ} (h : AtMost A B) {c : ℝ} (hc : 0 ≤ c) : AtMost (c • A) (c • B) := by
  have := h.smul hc
  unfold AtMost
  rwa [smul_sub] at this

/-- The update in Joseph form, whatever is added. -/
theorem updateReg_ge (g : Gauss n) (hg : g.cov.PosSemidef) (H : Matrix (Fin m) (Fin n) ℝ) (R : Matrix (Fin m) (Fin m) ℝ) (hRp : R.PosSemidef) (r : Matrix (Fin m) (Fin 1) ℝ)
    (e : ℝ) (he : 0 ≤ e) (hR : (R + e • 1).PosDef) (j s : Bool) :
    AtMost ((1 - Alg.gain g.cov H (R + e • 1) * H) * g.cov * (1 - Alg.gain g.cov H (R + e • 1) * H)ᵀ) (g.updateReg H R r e j s).cov := by
  have hJ := Alg.joseph_gain hg H (Alg.innov_pd hg H hR)
  set K := Alg.gain g.cov H (R + e • 1) with hK
  have hJ' : (1 - K * H) * g.cov = (1 - K * H) * g.cov * (1 - K * H)ᵀ + (K * R * Kᵀ + e • (K * Kᵀ)) := by
    refine hJ.symm.trans ?_
    unfold Alg.joseph
    rw [Matrix.mul_add, Matrix.add_mul, Matrix.mul_smul, Matrix.smul_mul, Matrix.mul_one]
  unfold AtMost
  rw [updateReg_cov, ← hK]
  generalize (1 - K * H) * g.cov * (1 - K * H)ᵀ = A at hJ' ⊢
  rw [hJ']
  have h1 : (K * R * Kᵀ).PosSemidef := Alg.psd_congr hRp K
  have h2 : (e • (K * Kᵀ) - (if j then e • (K * Kᵀ) else 0)).PosSemidef := by
    split
    · rw [sub_self]; exact PosSemidef.zero
    · rw [sub_zero]
      have := Alg.psd_congr (Alg.smul_one_psd (n := Fin m) he) K
      simpa only [Matrix.mul_smul, Matrix.smul_mul, Matrix.mul_one] using this
  have h3 : (if s then e • (1 : Matrix (Fin n) (Fin n) ℝ) else 0).PosSemidef := by
    split
    · exact Alg.smul_one_psd he
    · exact PosSemidef.zero
  have := (h1.add h2).add h3
  convert this using 1
  abel

/-- One cycle of two filters that differ in the mean. -/
theorem mean_cycle (c : Cycle) (hv : c.Valid n) (t : Int) (h h' : Buf Belief) (ho : Ok n h) (ho' : Ok n h') (g g' : Gauss n) (hg : estimates n h t = some g)
    (hg' : estimates n h' t = some g') (hc : g.cov = g'.cov) {b α : ℝ} (hb : 0 ≤ b) (hα : 0 ≤ α) (hd : AtMost ((g.mean - g'.mean) * (g.mean - g'.mean)ᵀ) (b • g.cov))
    (hs : Cycle.Stirs α g.cov c) :
    ∃ k k' u u', calls h (script t [c]) = .ok (k, [true, true]) ∧ calls h' (script t [c]) = .ok (k', [true, true]) ∧ Ok n k ∧ Ok n k' ∧
      estimates n k c.tb = some u ∧ estimates n k' c.tb = some u' ∧ u.cov = u'.cov ∧
      AtMost ((u.mean - u'.mean) * (u.mean - u'.mean)ᵀ) ((b / (1 + α)) • u.cov) := by
  obtain ⟨k, hk, hok, hp, hu⟩ := cycle_exact c hv t h ho g hg
  obtain ⟨k', hk', hok', hp', hu'⟩ := cycle_exact c hv t h' ho' g' hg'
  refine ⟨k, k', _, _, hk, hk', hok, hok', hu, hu', ?_, ?_⟩
  · rw [updateReg_cov, updateReg_cov]
    simp only [Gauss.predict, hc]
  · obtain ⟨hF, hQ, hH, hR, hz, hQp, hRp, he, hRe, hgate⟩ := hv
    have h1a : (0 : ℝ) < 1 + α := by linarith
    set F := c.F.toM n n
    set Q := c.Q.toM n n
    set H := c.H.toM c.m n
    set R := c.R.toM c.m c.m
    set P := (g.predict F Q).cov with hP
    have hP' : (g'.predict F Q).cov = P := by rw [hP]; simp only [Gauss.predict, hc]
    set K := Alg.gain P H (R + c.cfg.eps • 1) with hK
    have hdiff : ((g.predict F Q).updateReg H R (c.z.toM c.m 1 - H * (F * g.mean)) c.cfg.eps c.cfg.joseph c.cfg.stab).mean -
        ((g'.predict F Q).updateReg H R (c.z.toM c.m 1 - H * (F * g'.mean)) c.cfg.eps c.cfg.joseph c.cfg.stab).mean = (1 - K * H) * (F * (g.mean - g'.mean)) := by
      show (F * g.mean + Alg.gain (g.predict F Q).cov H (R + c.cfg.eps • 1) * (c.z.toM c.m 1 - H * (F * g.mean))) -
        (F * g'.mean + Alg.gain (g'.predict F Q).cov H (R + c.cfg.eps • 1) * (c.z.toM c.m 1 - H * (F * g'.mean))) = _
      rw [hP', ← hP, ← hK, Matrix.sub_mul, Matrix.one_mul, Matrix.mul_assoc K H]
      simp only [Matrix.mul_sub]
      abel
    rw [hdiff]
    refine Bounded.AtMost.trans ?_ (at_smul (updateReg_ge _ hp H R hRp _ _ he hRe _ _) (div_nonneg hb h1a.le))
    rw [← hP, ← hK]
    have h2 : AtMost ((F * (g.mean - g'.mean)) * (F * (g.mean - g'.mean))ᵀ) ((b / (1 + α)) • P) := by
      have e1 : (F * (g.mean - g'.mean)) * (F * (g.mean - g'.mean))ᵀ = F * ((g.mean - g'.mean) * (g.mean - g'.mean)ᵀ) * Fᵀ := by
        rw [transpose_mul]; simp only [Matrix.mul_assoc]
      rw [e1]
      refine Bounded.AtMost.trans (Bounded.AtMost.congr hd F) ?_
      have h3 := at_smul (stirred hs) (div_nonneg hb h1a.le)
      rw [smul_smul, div_mul_cancel₀ _ h1a.ne'] at h3
      rw [Matrix.mul_smul, Matrix.smul_mul]
      exact h3
    have h4 := Bounded.AtMost.congr h2 (1 - K * H)
    rw [Matrix.mul_smul, Matrix.smul_mul] at h4
    convert h4 using 1
    rw [transpose_mul (1 - K * H)]
    simp only [Matrix.mul_assoc]

theorem calls_append {h k k2 : Buf Belief} {as bs : List Bool} (l1 l2 : List KCall) (h1 : calls h l1 = .ok (k, as)) (h2 : calls k l2 = .ok (k2, bs)) :
    calls h (l1 ++ l2) = .ok (k2, as ++ bs) := by
  induction l1 generalizing h as with
  | nil =>
    simp only [calls] at h1
    cases h1
    exact h2
  | cons c r ih =>
    obtain ⟨x, a, as', hc, hr, rfl⟩ := calls_cons h1
    simp only [List.cons_append, calls, hc, ih hr, Res.bind_ok]

theorem script_cons (t : Int) (c : Cycle) (r : List Cycle) : script t (c :: r) = script t [c] ++ script c.tb r := rfl

theorem StirsAlong.head {α : ℝ} {t : Int} {h : Buf Belief} {c : Cycle} {r : List Cycle} (hs : StirsAlong n α t h (c :: r)) {g : Gauss n}
    (hg : estimates n h t = some g) : Cycle.Stirs α g.cov c := hs [] c r rfl h [] g rfl hg

theorem StirsAlong.tail {α : ℝ} {t : Int} {h k : Buf Belief} {c : Cycle} {r : List Cycle} (hs : StirsAlong n α t h (c :: r)) {as : List Bool}
    (hk : calls h (script t [c]) = .ok (k, as)) : StirsAlong n α c.tb k r := by
  intro before c' after e k' as' g hr hg
  exact hs (c :: before) c' after (by rw [e]; rfl) k' (as ++ as') g (by rw [script_cons]; exact calls_append _ _ hk hr) hg

theorem mean_run (α : ℝ) (hα : 0 ≤ α) (cs : List Cycle) (hv : ∀ c ∈ cs, c.Valid n) (t : Int) (h h' : Buf Belief) (ho : Ok n h) (ho' : Ok n h') (g g' : Gauss n)
    (hg : estimates n h t = some g) (hg' : estimates n h' t = some g') (hc : g.cov = g'.cov) (b : ℝ) (hb : 0 ≤ b)
    (hd : AtMost ((g.mean - g'.mean) * (g.mean - g'.mean)ᵀ) (b • g.cov)) (hs : StirsAlong n α t h cs) :
    ∃ k k' u u', calls h (script t cs) = .ok (k, List.replicate (2 * cs.length) true) ∧ calls h' (script t cs) = .ok (k', List.replicate (2 * cs.length) true) ∧
      Ok n k ∧ Ok n k' ∧ estimates n k (time t cs) = some u ∧ estimates n k' (time t cs) = some u' ∧ u.cov = u'.cov ∧
      AtMost ((u.mean - u'.mean) * (u.mean - u'.mean)ᵀ) ((b / (1 + α) ^ cs.length) • u.cov) := by
  induction cs generalizing t h h' g g' b with
  | nil => exact ⟨h, h', g, g', rfl, rfl, ho, ho', hg, hg', hc, by simpa using hd⟩
  | cons c r ih =>
    obtain ⟨k, k', u, u', hk, hk', hok, hok', hu, hu', he, hd'⟩ := mean_cycle c (hv c (by simp)) t h h' ho ho' g g' hg hg' hc hb hα hd (hs.head hg)
    have h1a : (0 : ℝ) < 1 + α := by linarith
    obtain ⟨q, q', v, v', hq, hq', hoq, hoq', hw, hw', hee, hdd⟩ := ih (fun c hc => hv c (by simp [hc])) c.tb k k' hok hok' u u' hu hu' he _ (div_nonneg hb h1a.le) hd' (hs.tail hk)
    have e2 : List.replicate (2 * (c :: r).length) true = [true, true] ++ List.replicate (2 * r.length) true := by
      rw [List.length_cons, Nat.mul_add, Nat.mul_one, List.replicate_succ, List.replicate_succ]; rfl
    refine ⟨q, q', v, v', ?_, ?_, hoq, hoq', hw, hw', hee, ?_⟩
    · rw [script_cons, e2]; exact calls_append _ _ hk hq
    · rw [script_cons, e2]; exact calls_append _ _ hk' hq'
    · rw [div_div, mul_comm (1 + α), ← pow_succ] at hdd
      exact hdd

/-- C129. Two filters with the same covariance and different means, given the same measurements: both answer all calls, they report the same covariance, and measured in
reported standard deviations the difference of their means shrinks by `√(1+α)` in every cycle. -/
theorem c129_mean (α : ℝ) (hα : 0 ≤ α) (cs : List Cycle) (hv : ∀ c ∈ cs, c.Valid n) (t : Int) (h h' : Buf Belief) (ho : Ok n h) (ho' : Ok n h') (g g' : Gauss n)
    (hg : estimates n h t = some g) (hg' : estimates n h' t = some g') (hc : g.cov = g'.cov) (b : ℝ) (hb : 0 ≤ b) (hd : Within b g.mean g'.mean g.cov)
    (hs : StirsAlong n α t h cs) :
    ∃ k k' u u', calls h (script t cs) = .ok (k, List.replicate (2 * cs.length) true) ∧ calls h' (script t cs) = .ok (k', List.replicate (2 * cs.length) true) ∧
      estimates n k (time t cs) = some u ∧ estimates n k' (time t cs) = some u' ∧ u.cov = u'.cov ∧ Within (b / (1 + α) ^ cs.length) u.mean u'.mean u.cov := by
  obtain ⟨k, k', u, u', h1, h2, h3, h4, h5, h6, h7, h8⟩ := mean_run α hα cs hv t h h' ho ho' g g' hg hg' hc b hb
    ((within_iff _ _ _ _ (Alg.psd_symm (psd_at ho hg))).mp hd) hs
  exact ⟨k, k', u, u', h1, h2, h5, h6, h7, (within_iff _ _ _ _ (Alg.psd_symm (psd_at h3 h5))).mpr h8⟩

/-! ## With the bound of C118 -/

/-- The process noise is large enough for every covariance within the bound of C118. -/
theorem stirs_bounded (X : Matrix (Fin n) (Fin n) ℝ) (γ w : ℝ) (hX : X.PosDef) (hγ0 : 0 ≤ γ) (hγ1 : γ < 1) (hw : 0 ≤ w) {α : ℝ} (hα : 0 ≤ α) (cs : List Cycle)
    (hv : ∀ c ∈ cs, c.Valid n) (hobs : ∀ c ∈ cs, ∃ L, c.Observer X γ w L) (t : Int) (h : Buf Belief) (ho : Ok n h) (g : Gauss n)
    (hg : estimates n h t = some g) (p : ℝ) (hp0 : 0 ≤ p) (hp : AtMost g.cov (p • X)) (hs : ∀ c ∈ cs, Cycle.Stirs α ((p + w / (1 - γ)) • X) c) : StirsAlong n α t h cs := by
  intro before c after e k as u hk hu
  have hin : ∀ d ∈ before, d ∈ cs := fun d hd => by rw [e]; simp [hd]
  obtain ⟨k', u', hk', _, hu', hb⟩ := c118_bounded X γ w hX hγ0 hγ1 hw before (fun d hd => hv d (hin d hd)) (fun d hd => hobs d (hin d hd)) t h ho g hg p hp
  rw [hk] at hk'
  cases hk'
  rw [hu] at hu'
  cases hu'
  refine Bounded.AtMost.trans ?_ (hs c (by rw [e]; simp))
  refine at_smul (Bounded.AtMost.congr (Bounded.AtMost.trans hb ?_) _) hα
  refine NearOptimal.sc_le hX.posSemidef ?_
  have := mul_le_of_le_one_left hp0 (pow_le_one₀ hγ0 hγ1.le (n := before.length))
  linarith

/-- C129. If the state can be observed and is stirred by process noise, then a wrong initial mean is forgotten: the estimates approach those of the filter with any other initial mean geometrically. -/
theorem c129_geometric (X : Matrix (Fin n) (Fin n) ℝ) (γ w : ℝ) (hX : X.PosDef) (hγ0 : 0 ≤ γ) (hγ1 : γ < 1) (hw : 0 ≤ w) (α : ℝ) (hα : 0 ≤ α) (cs : List Cycle)
    (hv : ∀ c ∈ cs, c.Valid n) (hobs : ∀ c ∈ cs, ∃ L, c.Observer X γ w L) (t : Int) (h h' : Buf Belief) (ho : Ok n h) (ho' : Ok n h') (g g' : Gauss n)
    (hg : estimates n h t = some g) (hg' : estimates n h' t = some g') (hc : g.cov = g'.cov) (p : ℝ) (hp0 : 0 ≤ p) (hp : AtMost g.cov (p • X))
    (b : ℝ) (hb : 0 ≤ b) (hd : Within b g.mean g'.mean g.cov) (hs : ∀ c ∈ cs, Cycle.Stirs α ((p + w / (1 - γ)) • X) c) :
    ∃ k k' u u', calls h (script t cs) = .ok (k, List.replicate (2 * cs.length) true) ∧ calls h' (script t cs) = .ok (k', List.replicate (2 * cs.length) true) ∧
      estimates n k (time t cs) = some u ∧ estimates n k' (time t cs) = some u' ∧ u.cov = u'.cov ∧
      ∀ i, (u.mean i 0 - u'.mean i 0) ^ 2 ≤ b / (1 + α) ^ cs.length * ((p + w / (1 - γ)) * X i i) := by
  obtain ⟨k, k', u, u', h1, h2, h3, h4, h5, h6⟩ := c129_mean α hα cs hv t h h' ho ho' g g' hg hg' hc b hb hd
    (stirs_bounded X γ w hX hγ0 hγ1 hw hα cs hv hobs t h ho g hg p hp0 hp hs)
  refine ⟨k, k', u, u', h1, h2, h3, h4, h5, fun i => ?_⟩
  obtain ⟨k1, u1, hk1, _, hu1, hb1⟩ := c118_bounded X γ w hX hγ0 hγ1 hw cs hv hobs t h ho g hg p hp
  rw [h1] at hk1
  cases hk1
  rw [h3] at hu1
  cases hu1
  have hi := h6 (Pi.single i 1)
  have e1 : ∑ j, (Pi.single i 1 : Fin n → ℝ) j * (u.mean j 0 - u'.mean j 0) = u.mean i 0 - u'.mean i 0 := by
    rw [Finset.sum_eq_single i (fun j _ hj => by rw [Pi.single_eq_of_ne hj, zero_mul]) (fun hh => absurd (Finset.mem_univ i) hh), Pi.single_eq_same, one_mul]
  have e2 : ∑ j, ∑ l, (Pi.single i 1 : Fin n → ℝ) j * u.cov j l * (Pi.single i 1 : Fin n → ℝ) l = u.cov i i := by
    rw [Finset.sum_eq_single i (fun j _ hj => by simp [Pi.single_eq_of_ne hj]) (fun hh => absurd (Finset.mem_univ i) hh),
      Finset.sum_eq_single i (fun j _ hj => by simp [Pi.single_eq_of_ne hj]) (fun hh => absurd (Finset.mem_univ i) hh)]
    simp
  rw [e1, e2] at hi
  refine hi.trans (mul_le_mul_of_nonneg_left ?_ (div_nonneg hb (pow_nonneg (by linarith) _)))
  have hdg := hb1.diag_nonneg (i := i)
  simp only [Matrix.sub_apply, Matrix.smul_apply, smul_eq_mul] at hdg
  have hxx := hX.posSemidef.diag_nonneg (i := i)
  have := mul_le_of_le_one_left hp0 (pow_le_one₀ hγ0 hγ1.le (n := cs.length))
  nlinarith

/-- C129. In the limit: however far apart the means are at first, after sufficiently many cycles, whatever is measured in them, they differ by less than any given number. -/
theorem c129_limit (X : Matrix (Fin n) (Fin n) ℝ) (γ w : ℝ) (hX : X.PosDef) (hγ0 : 0 ≤ γ) (hγ1 : γ < 1) (hw : 0 ≤ w) (α : ℝ) (hα : 0 < α) (p : ℝ) (hp0 : 0 ≤ p) (b : ℝ) (hb : 0 ≤ b)
    (ε : ℝ) (hε : 0 < ε) :
    ∃ N : ℕ, ∀ cs : List Cycle, N ≤ cs.length → (∀ c ∈ cs, c.Valid n) → (∀ c ∈ cs, ∃ L, c.Observer X γ w L) → (∀ c ∈ cs, Cycle.Stirs α ((p + w / (1 - γ)) • X) c) →
      ∀ (t : Int) (h h' : Buf Belief) (g g' : Gauss n), Ok n h → Ok n h' → estimates n h t = some g → estimates n h' t = some g' → g.cov = g'.cov →
      AtMost g.cov (p • X) → Within b g.mean g'.mean g.cov →
      ∃ k k' u u', calls h (script t cs) = .ok (k, List.replicate (2 * cs.length) true) ∧ calls h' (script t cs) = .ok (k', List.replicate (2 * cs.length) true) ∧
        estimates n k (time t cs) = some u ∧ estimates n k' (time t cs) = some u' ∧ ∀ i, |u.mean i 0 - u'.mean i 0| < ε := by
  set T := ∑ i, X i i
  have hB : 0 ≤ p + w / (1 - γ) := add_nonneg hp0 (div_nonneg hw (by linarith))
  have hT : 0 ≤ T := Finset.sum_nonneg fun i _ => hX.posSemidef.diag_nonneg
  obtain ⟨N, hN⟩ := pow_unbounded_of_one_lt (b * ((p + w / (1 - γ)) * T) / ε ^ 2) (show (1 : ℝ) < 1 + α by linarith)
  refine ⟨N, fun cs hl hv hobs hs t h h' g g' ho ho' hg hg' hc hp hd => ?_⟩
  obtain ⟨k, k', u, u', h1, h2, h3, h4, _, h6⟩ := c129_geometric X γ w hX hγ0 hγ1 hw α hα.le cs hv hobs t h h' ho ho' g g' hg hg' hc p hp0 hp b hb hd hs
  refine ⟨k, k', u, u', h1, h2, h3, h4, fun i => abs_lt_of_sq_lt_sq ((h6 i).trans_lt ?_) hε.le⟩
  have hpow : (0 : ℝ) < (1 + α) ^ cs.length := pow_pos (by linarith) _
  have hmono : (1 + α) ^ N ≤ (1 + α) ^ cs.length := pow_le_pow_right₀ (by linarith) hl
  have hXi : X i i ≤ T := Finset.single_le_sum (fun j _ => hX.posSemidef.diag_nonneg (i := j)) (Finset.mem_univ i)
  rw [div_mul_eq_mul_div, div_lt_iff₀ hpow]
  rw [div_lt_iff₀ (by positivity)] at hN
  calc b * ((p + w / (1 - γ)) * X i i) ≤ b * ((p + w / (1 - γ)) * T) := by gcongr
    _ < (1 + α) ^ N * ε ^ 2 := hN
    _ ≤ ε ^ 2 * (1 + α) ^ cs.length := by rw [mul_comm]; gcongr

/-! ## The covariance -/

theorem pred_shrink {F P P' Q : Matrix (Fin n) (Fin n) ℝ} {κ α : ℝ} (hκ : 1 ≤ κ) (hα : 0 ≤ α) (hl : AtMost P (κ • P')) (hs : AtMost (α • (F * P' * Fᵀ)) Q) :
    AtMost (F * P * Fᵀ + Q) ((1 + (κ - 1) / (1 + α)) • (F * P' * Fᵀ + Q)) := by
  have h1a : (0 : ℝ) < 1 + α := by linarith
  have h1 := Bounded.AtMost.congr hl F
  rw [Matrix.mul_smul, Matrix.smul_mul] at h1
  refine Bounded.AtMost.trans (Bounded.AtMost.add h1 (NearOptimal.le_rf Q)) ?_
  have h2 := at_smul hs (div_nonneg (sub_nonneg.mpr hκ) h1a.le)
  unfold AtMost at h2 ⊢
  convert h2 using 1
  generalize F * P' * Fᵀ = Y
  have e : (1 + (κ - 1) / (1 + α)) = κ - (κ - 1) / (1 + α) * α := by field_simp; ring
  rw [smul_add, smul_smul]
  conv_lhs => rw [e, sub_smul, ← e, add_smul, one_smul]
  abel

theorem upd_keeps {g g' : Gauss n} (hg : g.cov.PosSemidef) (hg' : g'.cov.PosSemidef) {κ δ : ℝ} (hκ : 1 ≤ κ) (hδ : 0 ≤ δ) (hl : AtMost g.cov (κ • g'.cov))
    (H : Matrix (Fin m) (Fin n) ℝ) (R : Matrix (Fin m) (Fin m) ℝ) (hRp : R.PosSemidef) {e : ℝ} (he : 0 ≤ e) (hR : (R + e • 1).PosDef) (r r' : Matrix (Fin m) (Fin 1) ℝ) (j s : Bool)
    (hq : j = false ∨ AtMost (e • 1) (δ • R)) :
    AtMost (g.updateReg H R r e j s).cov (((1 + δ) * κ) • (g'.updateReg H R r' e j s).cov) := by
  have hA := NearOptimal.apos_le2 hg hg' hl H hR hR (by
    have := NearOptimal.sc_le hR.posSemidef hκ
    rwa [one_smul] at this)
  have hJ := Alg.joseph_gain hg' H (Alg.innov_pd hg' H hR)
  set K := Alg.gain g.cov H (R + e • 1) with hK
  set K' := Alg.gain g'.cov H (R + e • 1) with hK'
  rw [updateReg_cov, updateReg_cov, ← hK, ← hK']
  have hA1 : Alg.apos g.cov H (R + e • 1) = (1 - K * H) * g.cov := rfl
  have hA2 : Alg.apos g'.cov H (R + e • 1) = (1 - K' * H) * g'.cov := rfl
  have hAp : ((1 - K' * H) * g'.cov).PosSemidef := by rw [← hJ]; exact Alg.joseph_psd hg' H hR.posSemidef K'
  rw [hA1, hA2] at hA
  have hkk : ∀ M : Matrix (Fin n) (Fin m) ℝ, (e • (M * Mᵀ)).PosSemidef := fun M => by
    have := Alg.psd_congr (Alg.smul_one_psd (n := Fin m) he) M
    simpa only [Matrix.mul_smul, Matrix.smul_mul, Matrix.mul_one] using this
  -- above
  have h1 : AtMost ((1 - K * H) * g.cov - (if j then e • (K * Kᵀ) else 0)) (κ • ((1 - K' * H) * g'.cov)) := by
    refine Bounded.AtMost.trans ?_ hA
    unfold AtMost
    rw [sub_sub_cancel]
    split
    · exact hkk K
    · exact PosSemidef.zero
  -- below
  have h2 : AtMost ((1 - K' * H) * g'.cov) ((1 + δ) • ((1 - K' * H) * g'.cov - (if j then e • (K' * K'ᵀ) else 0))) := by
    cases j with
    | false =>
      simp only [Bool.false_eq_true, if_false, sub_zero]
      have := NearOptimal.sc_le hAp (show (1 : ℝ) ≤ 1 + δ by linarith)
      rwa [one_smul] at this
    | true =>
      simp only [if_true]
      have hq := hq.resolve_left (by simp)
      have hR2 : AtMost (e • (K' * K'ᵀ)) (δ • (K' * R * K'ᵀ)) := by
        have := Bounded.AtMost.congr hq K'
        simpa only [Matrix.mul_smul, Matrix.smul_mul, Matrix.mul_one] using this
      have hJ' : (1 - K' * H) * g'.cov = Alg.joseph g'.cov H R K' + e • (K' * K'ᵀ) := by
        rw [← hJ]
        unfold Alg.joseph
        rw [Matrix.mul_add, Matrix.add_mul, Matrix.mul_smul, Matrix.smul_mul, Matrix.mul_one, add_assoc]
      rw [hJ', add_sub_cancel_right]
      refine NearOptimal.add_le (Bounded.AtMost.trans hR2 (at_smul ?_ hδ))
      unfold AtMost Alg.joseph
      rw [add_sub_cancel_right]
      exact Alg.psd_congr hg' _
  have h3 := at_smul h2 (show (0 : ℝ) ≤ κ by linarith)
  rw [smul_smul, mul_comm κ] at h3
  have h4 : AtMost (if s then e • (1 : Matrix (Fin n) (Fin n) ℝ) else 0) (((1 + δ) * κ) • (if s then e • (1 : Matrix (Fin n) (Fin n) ℝ) else 0)) := by
    have hp : (if s then e • (1 : Matrix (Fin n) (Fin n) ℝ) else 0).PosSemidef := by
      split
      · exact Alg.smul_one_psd he
      · exact PosSemidef.zero
    have := NearOptimal.sc_le hp (show (1 : ℝ) ≤ (1 + δ) * κ by nlinarith)
    rwa [one_smul] at this
  have := Bounded.AtMost.add (Bounded.AtMost.trans h1 h3) h4
  rwa [← smul_add] at this

theorem cov_run (α δ : ℝ) (hα : 0 ≤ α) (hδ : 0 ≤ δ) (cs : List Cycle) (hv : ∀ c ∈ cs, c.Valid n) (hq : ∀ c ∈ cs, Cycle.Quiet δ c) (t : Int) (h h' : Buf Belief) (ho : Ok n h)
    (ho' : Ok n h') (g g' : Gauss n) (hg : estimates n h t = some g) (hg' : estimates n h' t = some g') (κ : ℝ) (hκ : 1 ≤ κ) (hl : SameUpTo κ g.cov g'.cov)
    (hs : StirsAlong n α t h cs) (hs' : StirsAlong n α t h' cs) :
    ∃ k k' u u', calls h (script t cs) = .ok (k, List.replicate (2 * cs.length) true) ∧ calls h' (script t cs) = .ok (k', List.replicate (2 * cs.length) true) ∧
      Ok n k ∧ Ok n k' ∧ estimates n k (time t cs) = some u ∧ estimates n k' (time t cs) = some u' ∧
      SameUpTo (1 + ((1 + δ) / (1 + α)) ^ cs.length * (κ - 1) + δ * ∑ i ∈ Finset.range cs.length, ((1 + δ) / (1 + α)) ^ i) u.cov u'.cov := by
  induction cs generalizing t h h' g g' κ with
  | nil => exact ⟨h, h', g, g', rfl, rfl, ho, ho', hg, hg', by simpa using hl⟩
  | cons c r ih =>
    have hvc := hv c (by simp)
    obtain ⟨k, hk, hok, hp, hu⟩ := cycle_exact c hvc t h ho g hg
    obtain ⟨k', hk', hok', hp', hu'⟩ := cycle_exact c hvc t h' ho' g' hg'
    obtain ⟨hF, hQ, hH, hR, hz, hQp, hRp, he, hRe, hgate⟩ := hvc
    have h1a : (0 : ℝ) < 1 + α := by linarith
    have hκ1 : 1 ≤ 1 + (κ - 1) / (1 + α) := by
      have := div_nonneg (sub_nonneg.mpr hκ) h1a.le
      linarith
    have hκ2 : 1 ≤ (1 + δ) * (1 + (κ - 1) / (1 + α)) := by nlinarith
    have a1 := upd_keeps hp hp' hκ1 hδ (pred_shrink hκ hα hl.1 (hs'.head hg')) (c.H.toM c.m n) (c.R.toM c.m c.m) hRp he hRe
      (c.z.toM c.m 1 - c.H.toM c.m n * (c.F.toM n n * g.mean)) (c.z.toM c.m 1 - c.H.toM c.m n * (c.F.toM n n * g'.mean)) c.cfg.joseph c.cfg.stab (hq c (by simp))
    have a2 := upd_keeps hp' hp hκ1 hδ (pred_shrink hκ hα hl.2 (hs.head hg)) (c.H.toM c.m n) (c.R.toM c.m c.m) hRp he hRe
      (c.z.toM c.m 1 - c.H.toM c.m n * (c.F.toM n n * g'.mean)) (c.z.toM c.m 1 - c.H.toM c.m n * (c.F.toM n n * g.mean)) c.cfg.joseph c.cfg.stab (hq c (by simp))
    obtain ⟨q, q', v, v', hqq, hqq', hoq, hoq', hw, hw', hb⟩ := ih (fun c hc => hv c (by simp [hc])) (fun c hc => hq c (by simp [hc])) c.tb k k' hok hok' _ _ hu hu' _ hκ2 ⟨a1, a2⟩ (hs.tail hk) (hs'.tail hk')
    have e2 : List.replicate (2 * (c :: r).length) true = [true, true] ++ List.replicate (2 * r.length) true := by
      rw [List.length_cons, Nat.mul_add, Nat.mul_one, List.replicate_succ, List.replicate_succ]; rfl
    refine ⟨q, q', v, v', ?_, ?_, hoq, hoq', hw, hw', ?_⟩
    · rw [script_cons, e2]; exact calls_append _ _ hk hqq
    · rw [script_cons, e2]; exact calls_append _ _ hk' hqq'
    · convert hb using 1
      rw [List.length_cons, Finset.sum_range_succ, pow_succ]
      field_simp
      ring

/-- C129. Two filters with different covariances (and means), given the same measurements: the factor by which their reported covariances differ approaches 1 geometrically, up to what is
added for stability. -/
theorem c129_covariance (α δ : ℝ) (hδ : 0 ≤ δ) (hδα : δ < α) (cs : List Cycle) (hv : ∀ c ∈ cs, c.Valid n) (hq : ∀ c ∈ cs, Cycle.Quiet δ c) (t : Int) (h h' : Buf Belief) (ho : Ok n h)
    (ho' : Ok n h') (g g' : Gauss n) (hg : estimates n h t = some g) (hg' : estimates n h' t = some g') (κ : ℝ) (hκ : 1 ≤ κ) (hl : SameUpTo κ g.cov g'.cov)
    (hs : StirsAlong n α t h cs) (hs' : StirsAlong n α t h' cs) :
    ∃ k k' u u', calls h (script t cs) = .ok (k, List.replicate (2 * cs.length) true) ∧ calls h' (script t cs) = .ok (k', List.replicate (2 * cs.length) true) ∧
      estimates n k (time t cs) = some u ∧ estimates n k' (time t cs) = some u' ∧
      SameUpTo (1 + ((1 + δ) / (1 + α)) ^ cs.length * (κ - 1) + δ * (1 + α) / (α - δ)) u.cov u'.cov := by
  have hα : 0 ≤ α := by linarith
  obtain ⟨k, k', u, u', h1, h2, h3, h4, h5, h6, h7, h8⟩ := cov_run α δ hα hδ cs hv hq t h h' ho ho' g g' hg hg' κ hκ hl hs hs'
  set ρ := (1 + δ) / (1 + α) with hρ
  have h1a : (0 : ℝ) < 1 + α := by linarith
  have hρ0 : 0 ≤ ρ := div_nonneg (by linarith) h1a.le
  have hρ1 : ρ < 1 := by rw [hρ, div_lt_one h1a]; linarith
  have hsum : ∑ i ∈ Finset.range cs.length, ρ ^ i ≤ (1 + α) / (α - δ) := by
    have e1 : (1 + α) / (α - δ) = 1 / (1 - ρ) := by
      rw [hρ, one_sub_div h1a.ne', one_div_div]
      congr 1
      ring
    rw [e1, geom_sum_eq hρ1.ne, le_div_iff₀ (by linarith)]
    have h2 : (ρ ^ cs.length - 1) / (ρ - 1) * (1 - ρ) = 1 - ρ ^ cs.length := by
      have : ρ - 1 ≠ 0 := by linarith [hρ1] |> ne_of_lt
      field_simp
      ring
    rw [h2]
    linarith [pow_nonneg hρ0 cs.length]
  have hle : 1 + ρ ^ cs.length * (κ - 1) + δ * ∑ i ∈ Finset.range cs.length, ρ ^ i ≤ 1 + ρ ^ cs.length * (κ - 1) + δ * (1 + α) / (α - δ) := by
    have := mul_le_mul_of_nonneg_left hsum hδ
    rw [mul_div_assoc]
    linarith
  exact ⟨k, k', u, u', h1, h2, h5, h6, Bounded.AtMost.trans h7 (NearOptimal.sc_le (psd_at h4 h6) hle), Bounded.AtMost.trans h8 (NearOptimal.sc_le (psd_at h3 h5) hle)⟩

/-! ## Mean and covariance -/

theorem ResidualsAlong.head {s : ℝ} {t : Int} {h : Buf Belief} {c : Cycle} {r : List Cycle} (hs : ResidualsAlong n s t h (c :: r)) {g : Gauss n}
    (hg : estimates n h t = some g) : Within s (c.z.toM c.m 1) (c.H.toM c.m n * (c.F.toM n n * g.mean))
      (c.H.toM c.m n * (c.F.toM n n * g.cov * (c.F.toM n n)ᵀ + c.Q.toM n n) * (c.H.toM c.m n)ᵀ + (c.R.toM c.m c.m + c.cfg.eps • 1)) := hs [] c r rfl h [] g rfl hg

theorem ResidualsAlong.tail {s : ℝ} {t : Int} {h k : Buf Belief} {c : Cycle} {r : List Cycle} (hs : ResidualsAlong n s t h (c :: r)) {as : List Bool}
    (hk : calls h (script t [c]) = .ok (k, as)) : ResidualsAlong n s c.tb k r := by
  intro before c' after e k' as' g hr hg
  exact hs (c :: before) c' after (by rw [e]; rfl) k' (as ++ as') g (by rw [script_cons]; exact calls_append _ _ hk hr) hg

/-- The square of a sum. -/
theorem sum_sq {a b : Matrix (Fin n) (Fin 1) ℝ} {θ : ℝ} (hθ : 0 < θ) : AtMost ((a + b) * (a + b)ᵀ) ((1 + θ) • (a * aᵀ) + (1 + 1 / θ) • (b * bᵀ)) := by
  have h := (Alg.psd_congr (PosSemidef.one (n := Fin 1) (R := ℝ)) (θ • a - b)).smul (show (0 : ℝ) ≤ 1 / θ by positivity)
  unfold AtMost
  convert h using 1
  rw [Matrix.mul_one]
  simp only [transpose_add, transpose_sub, transpose_smul, Matrix.add_mul, Matrix.mul_add, Matrix.sub_mul, Matrix.mul_sub, Matrix.smul_mul, Matrix.mul_smul, smul_smul, smul_sub, add_smul, one_smul]
  rw [show 1 / θ * (θ * θ) = θ by field_simp, show 1 / θ * θ = 1 by field_simp]
  simp only [one_smul]
  abel

/-- How far the gains for two priors are apart. -/
theorem gains_apart {P P' : Matrix (Fin n) (Fin n) ℝ} (hP : P.PosSemidef) (hP' : P'.PosSemidef) {κ : ℝ} (hκ : 1 ≤ κ) (hl : SameUpTo κ P P') (H : Matrix (Fin m) (Fin n) ℝ)
    {N : Matrix (Fin m) (Fin m) ℝ} (hN : N.PosDef) :
    AtMost ((Alg.gain P H N - Alg.gain P' H N) * (H * P' * Hᵀ + N) * (Alg.gain P H N - Alg.gain P' H N)ᵀ) ((κ * (κ + 1) * (κ - 1)) • Alg.apos P H N) := by
  have hNκ : AtMost N (κ • N) := by
    have := NearOptimal.sc_le hN.posSemidef hκ
    rwa [one_smul] at this
  have hi := Alg.innov_pd hP H hN
  have h1 := Alg.gain_optimal hP H hi (Alg.gain P' H N)
  have hJ := Alg.joseph_gain hP H hi
  have hJ' := Alg.joseph_gain hP' H (Alg.innov_pd hP' H hN)
  have h2 : AtMost (Alg.joseph P H N (Alg.gain P' H N)) (κ • Alg.apos P' H N) := by
    unfold AtMost Alg.apos
    rw [← hJ']
    have h3 := Alg.joseph_psd hl.1 H hNκ (Alg.gain P' H N)
    convert h3 using 1
    simp only [Alg.joseph, Matrix.mul_sub, Matrix.sub_mul, smul_add, Matrix.mul_smul, Matrix.smul_mul, smul_sub]
    abel
  have h3 := at_smul (NearOptimal.apos_le2 hP' hP hl.2 H hN hN hNκ) (show (0 : ℝ) ≤ κ by linarith)
  have h4 := Bounded.AtMost.trans h2 h3
  rw [smul_smul] at h4
  have h5 : AtMost ((Alg.gain P' H N - Alg.gain P H N) * (H * P * Hᵀ + N) * (Alg.gain P' H N - Alg.gain P H N)ᵀ) ((κ * κ - 1) • Alg.apos P H N) := by
    rw [← h1]
    unfold AtMost at h4 ⊢
    convert h4 using 1
    rw [sub_smul, one_smul]
    unfold Alg.apos
    abel
  have h6 : AtMost (H * P' * Hᵀ + N) (κ • (H * P * Hᵀ + N)) := by
    have := Bounded.AtMost.add (Bounded.AtMost.congr hl.2 H) hNκ
    rwa [Matrix.mul_smul, Matrix.smul_mul, ← smul_add] at this
  have h7 := Bounded.AtMost.congr h6 (Alg.gain P' H N - Alg.gain P H N)
  rw [Matrix.mul_smul, Matrix.smul_mul] at h7
  have h8 := Bounded.AtMost.trans h7 (at_smul h5 (show (0 : ℝ) ≤ κ by linarith))
  rw [smul_smul, show κ * (κ * κ - 1) = κ * (κ + 1) * (κ - 1) by ring] at h8
  convert h8 using 1
  rw [← neg_sub (Alg.gain P' H N), transpose_neg, Matrix.neg_mul, Matrix.neg_mul, Matrix.mul_neg, neg_neg]

/-- Without Joseph form, or with nothing added, the update is at least the optimal one. -/
theorem quiet_ge (g : Gauss n) (H : Matrix (Fin m) (Fin n) ℝ) (R : Matrix (Fin m) (Fin m) ℝ) (r : Matrix (Fin m) (Fin 1) ℝ)
    (e : ℝ) (he : 0 ≤ e) (j s : Bool) (hq : j = false ∨ AtMost (e • 1) ((0 : ℝ) • R)) :
    AtMost (Alg.apos g.cov H (R + e • 1)) (g.updateReg H R r e j s).cov := by
  unfold AtMost
  rw [updateReg_cov]
  have h3 : (if s then e • (1 : Matrix (Fin n) (Fin n) ℝ) else 0).PosSemidef := by
    split
    · exact Alg.smul_one_psd he
    · exact PosSemidef.zero
  set K := Alg.gain g.cov H (R + e • 1) with hK
  have h4 : (if j then e • (K * Kᵀ) else 0) = 0 := by
    cases j with
    | false => rfl
    | true =>
      have hq := hq.resolve_left (by simp)
      rw [if_pos rfl]
      unfold AtMost at hq
      rw [zero_smul, zero_sub] at hq
      rcases Nat.eq_zero_or_pos m with h0 | h0
      · subst h0
        have : K * Kᵀ = 0 := by ext i j; simp [Matrix.mul_apply]
        rw [this, smul_zero]
      · have := hq.diag_nonneg (i := ⟨0, h0⟩)
        simp at this
        rw [le_antisymm this he, zero_smul]
  rw [h4, sub_zero]
  convert h3 using 1
  unfold Alg.apos
  abel

/-- One cycle of two filters that differ in mean and covariance. -/
theorem belief_cycle (c : Cycle) (hv : c.Valid n) (hq : Cycle.Quiet 0 c) (t : Int) (h h' : Buf Belief) (ho : Ok n h) (ho' : Ok n h') (g g' : Gauss n)
    (hg : estimates n h t = some g) (hg' : estimates n h' t = some g') {κ α θ s b : ℝ} (hκ : 1 ≤ κ) (hα : 0 ≤ α) (hθ : 0 < θ) (hs0 : 0 ≤ s) (hb : 0 ≤ b)
    (hl : SameUpTo κ g.cov g'.cov) (hd : AtMost ((g.mean - g'.mean) * (g.mean - g'.mean)ᵀ) (b • g.cov))
    (hs : Cycle.Stirs α g.cov c) (hs' : Cycle.Stirs α g'.cov c)
    (hr : Within s (c.z.toM c.m 1) (c.H.toM c.m n * (c.F.toM n n * g'.mean))
      (c.H.toM c.m n * (c.F.toM n n * g'.cov * (c.F.toM n n)ᵀ + c.Q.toM n n) * (c.H.toM c.m n)ᵀ + (c.R.toM c.m c.m + c.cfg.eps • 1))) :
    ∃ k k' u u', calls h (script t [c]) = .ok (k, [true, true]) ∧ calls h' (script t [c]) = .ok (k', [true, true]) ∧ Ok n k ∧ Ok n k' ∧
      estimates n k c.tb = some u ∧ estimates n k' c.tb = some u' ∧ SameUpTo (1 + (κ - 1) / (1 + α)) u.cov u'.cov ∧
      AtMost ((u.mean - u'.mean) * (u.mean - u'.mean)ᵀ) (((1 + θ) * (b / (1 + α)) + (1 + 1 / θ) * (s * (κ * (κ + 1) * ((κ - 1) / (1 + α))))) • u.cov) := by
  obtain ⟨k, hk, hok, hp, hu⟩ := cycle_exact c hv t h ho g hg
  obtain ⟨k', hk', hok', hp', hu'⟩ := cycle_exact c hv t h' ho' g' hg'
  obtain ⟨hF, hQ, hH, hR, hz, hQp, hRp, he, hRe, hgate⟩ := hv
  have h1a : (0 : ℝ) < 1 + α := by linarith
  have hdk : 0 ≤ (κ - 1) / (1 + α) := div_nonneg (sub_nonneg.mpr hκ) h1a.le
  have hκ1 : 1 ≤ 1 + (κ - 1) / (1 + α) := by linarith
  have hκ2 : 1 + (κ - 1) / (1 + α) ≤ κ := by
    have := div_le_self (sub_nonneg.mpr hκ) (show 1 ≤ 1 + α by linarith)
    linarith
  have l1 := pred_shrink hκ hα hl.1 hs'
  have l2 := pred_shrink hκ hα hl.2 hs
  have a1 := upd_keeps hp hp' hκ1 le_rfl l1 (c.H.toM c.m n) (c.R.toM c.m c.m) hRp he hRe
      (c.z.toM c.m 1 - c.H.toM c.m n * (c.F.toM n n * g.mean)) (c.z.toM c.m 1 - c.H.toM c.m n * (c.F.toM n n * g'.mean)) c.cfg.joseph c.cfg.stab hq
  have a2 := upd_keeps hp' hp hκ1 le_rfl l2 (c.H.toM c.m n) (c.R.toM c.m c.m) hRp he hRe
      (c.z.toM c.m 1 - c.H.toM c.m n * (c.F.toM n n * g'.mean)) (c.z.toM c.m 1 - c.H.toM c.m n * (c.F.toM n n * g.mean)) c.cfg.joseph c.cfg.stab hq
  rw [add_zero, one_mul] at a1 a2
  refine ⟨k, k', _, _, hk, hk', hok, hok', hu, hu', ⟨a1, a2⟩, ?_⟩
  clear a1 a2
  have hsym := Alg.pd_symm (Alg.innov_pd hp' (c.H.toM c.m n) hRe)
  replace hr := (within_iff _ _ _ _ hsym).mp hr
  set F := c.F.toM n n
  set Q := c.Q.toM n n
  set H := c.H.toM c.m n
  set R := c.R.toM c.m c.m
  set z := c.z.toM c.m 1
  set P := (g.predict F Q).cov with hP
  set P' := (g'.predict F Q).cov with hP'
  set K := Alg.gain P H (R + c.cfg.eps • 1) with hK
  set K' := Alg.gain P' H (R + c.cfg.eps • 1) with hK'
  set U := ((g.predict F Q).updateReg H R (z - H * (F * g.mean)) c.cfg.eps c.cfg.joseph c.cfg.stab).cov with hU
  have hdiff : ((g.predict F Q).updateReg H R (z - H * (F * g.mean)) c.cfg.eps c.cfg.joseph c.cfg.stab).mean -
      ((g'.predict F Q).updateReg H R (z - H * (F * g'.mean)) c.cfg.eps c.cfg.joseph c.cfg.stab).mean =
      (1 - K * H) * (F * (g.mean - g'.mean)) + (K - K') * (z - H * (F * g'.mean)) := by
    show (F * g.mean + K * (z - H * (F * g.mean))) - (F * g'.mean + K' * (z - H * (F * g'.mean))) = _
    rw [Matrix.sub_mul 1, Matrix.one_mul, Matrix.mul_assoc K H, Matrix.sub_mul K K']
    simp only [Matrix.mul_sub]
    abel
  rw [hdiff]
  refine Bounded.AtMost.trans (sum_sq hθ) ?_
  rw [add_smul ((1 + θ) * (b / (1 + α)))]
  refine Bounded.AtMost.add ?_ ?_
  · rw [mul_smul]
    refine at_smul ?_ (by linarith)
    refine Bounded.AtMost.trans ?_ (at_smul (updateReg_ge _ hp H R hRp _ _ he hRe _ _) (div_nonneg hb h1a.le))
    rw [← hP, ← hK]
    have h2 : AtMost ((F * (g.mean - g'.mean)) * (F * (g.mean - g'.mean))ᵀ) ((b / (1 + α)) • P) := by
      have e1 : (F * (g.mean - g'.mean)) * (F * (g.mean - g'.mean))ᵀ = F * ((g.mean - g'.mean) * (g.mean - g'.mean)ᵀ) * Fᵀ := by
        rw [transpose_mul]; simp only [Matrix.mul_assoc]
      rw [e1]
      refine Bounded.AtMost.trans (Bounded.AtMost.congr hd F) ?_
      have h3 := at_smul (stirred hs) (div_nonneg hb h1a.le)
      rw [smul_smul, div_mul_cancel₀ _ h1a.ne'] at h3
      rw [Matrix.mul_smul, Matrix.smul_mul]
      exact h3
    have h4 := Bounded.AtMost.congr h2 (1 - K * H)
    rw [Matrix.mul_smul, Matrix.smul_mul] at h4
    convert h4 using 1
    rw [transpose_mul (1 - K * H)]
    simp only [Matrix.mul_assoc]
  · rw [mul_smul]
    refine at_smul ?_ (by positivity)
    have e1 : (K - K') * (z - H * (F * g'.mean)) * ((K - K') * (z - H * (F * g'.mean)))ᵀ =
        (K - K') * ((z - H * (F * g'.mean)) * (z - H * (F * g'.mean))ᵀ) * (K - K')ᵀ := by
      rw [transpose_mul (K - K')]; simp only [Matrix.mul_assoc]
    rw [e1]
    refine Bounded.AtMost.trans (Bounded.AtMost.congr hr (K - K')) ?_
    rw [Matrix.mul_smul, Matrix.smul_mul, mul_smul]
    refine at_smul ?_ hs0
    have h2 := gains_apart hp hp' hκ1 ⟨l1, l2⟩ H hRe
    refine Bounded.AtMost.trans h2 ?_
    have hap : (Alg.apos P H (R + c.cfg.eps • 1)).PosSemidef := by
      have := Alg.joseph_psd hp H hRe.posSemidef K
      rw [Alg.joseph_gain hp H (Alg.innov_pd hp H hRe)] at this
      exact this
    refine Bounded.AtMost.trans (NearOptimal.sc_le hap (b := κ * (κ + 1) * ((κ - 1) / (1 + α))) ?_) (at_smul (quiet_ge _ H R _ _ he _ _ hq) ?_)
    · have e2 : 1 + (κ - 1) / (1 + α) - 1 = (κ - 1) / (1 + α) := by ring
      rw [e2]
      refine mul_le_mul_of_nonneg_right ?_ hdk
      exact mul_le_mul hκ2 (by linarith) (by linarith) (by linarith)
    · have : 0 ≤ κ := by linarith
      positivity

/-- C129. Two filters with different initial beliefs, given the same measurements: if one of them finds all residuals plausible, both answer all calls, the factor between the reported covariances
approaches 1 and the difference of the means, measured in reported standard deviations, approaches 0, both geometrically. (`θ` can be chosen; the smaller, the faster and the larger the constant.) -/
theorem c129_belief (α θ s : ℝ) (hα : 0 ≤ α) (hθ : 0 < θ) (hs0 : 0 ≤ s) (cs : List Cycle) (hv : ∀ c ∈ cs, c.Valid n) (hq : ∀ c ∈ cs, Cycle.Quiet 0 c) (t : Int) (h h' : Buf Belief)
    (ho : Ok n h) (ho' : Ok n h') (g g' : Gauss n) (hg : estimates n h t = some g) (hg' : estimates n h' t = some g') (κ : ℝ) (hκ : 1 ≤ κ) (hl : SameUpTo κ g.cov g'.cov)
    (b : ℝ) (hb : 0 ≤ b) (hd : Within b g.mean g'.mean g.cov) (hs : StirsAlong n α t h cs) (hs' : StirsAlong n α t h' cs) (hr : ResidualsAlong n s t h' cs) :
    ∃ k k' u u', calls h (script t cs) = .ok (k, List.replicate (2 * cs.length) true) ∧ calls h' (script t cs) = .ok (k', List.replicate (2 * cs.length) true) ∧
      estimates n k (time t cs) = some u ∧ estimates n k' (time t cs) = some u' ∧
      SameUpTo (1 + (κ - 1) / (1 + α) ^ cs.length) u.cov u'.cov ∧
      Within (((1 + θ) / (1 + α)) ^ cs.length * (b + s * κ * (κ + 1) * (κ - 1) * (1 + θ) / θ ^ 2)) u.mean u'.mean u.cov := by
  have h1a : (0 : ℝ) < 1 + α := by linarith
  -- `K` bounds the factor for ever
  have main : ∀ (K : ℝ) (cs : List Cycle) (t : Int) (h h' : Buf Belief) (g g' : Gauss n) (κ b : ℝ), (∀ c ∈ cs, c.Valid n) → (∀ c ∈ cs, Cycle.Quiet 0 c) → Ok n h → Ok n h' →
      estimates n h t = some g → estimates n h' t = some g' → 1 ≤ κ → κ ≤ K → SameUpTo κ g.cov g'.cov → 0 ≤ b →
      AtMost ((g.mean - g'.mean) * (g.mean - g'.mean)ᵀ) (b • g.cov) → StirsAlong n α t h cs → StirsAlong n α t h' cs → ResidualsAlong n s t h' cs →
      ∃ k k' u u', calls h (script t cs) = .ok (k, List.replicate (2 * cs.length) true) ∧ calls h' (script t cs) = .ok (k', List.replicate (2 * cs.length) true) ∧ Ok n k ∧ Ok n k' ∧
        estimates n k (time t cs) = some u ∧ estimates n k' (time t cs) = some u' ∧ SameUpTo (1 + (κ - 1) / (1 + α) ^ cs.length) u.cov u'.cov ∧
        AtMost ((u.mean - u'.mean) * (u.mean - u'.mean)ᵀ) ((((1 + θ) / (1 + α)) ^ cs.length * (b + s * K * (K + 1) * (κ - 1) * (1 + θ) / θ ^ 2)) • u.cov) := by
    intro K cs
    induction cs with
    | nil =>
      intro t h h' g g' κ b _ _ ho ho' hg hg' hκ hκK hl hb hd _ _ _
      refine ⟨h, h', g, g', rfl, rfl, ho, ho', hg, hg', by simpa using hl, Bounded.AtMost.trans hd (NearOptimal.sc_le (psd_at ho hg) ?_)⟩
      have : 0 ≤ s * K * (K + 1) * (κ - 1) * (1 + θ) / θ ^ 2 := by
        have h1 : 0 ≤ κ - 1 := by linarith
        have h2 : 0 ≤ K := by linarith
        positivity
      simp only [List.length_nil, pow_zero, one_mul]
      linarith
    | cons c r ih =>
      intro t h h' g g' κ b hv hq ho ho' hg hg' hκ hκK hl hb hd hs hs' hr
      obtain ⟨k, k', u, u', hk, hk', hok, hok', hu, hu', hl1, hd1⟩ := belief_cycle c (hv c (by simp)) (hq c (by simp)) t h h' ho ho' g g' hg hg' hκ hα hθ hs0 hb hl hd
        (hs.head hg) (hs'.head hg') (hr.head hg')
      have hdk : 0 ≤ (κ - 1) / (1 + α) := div_nonneg (sub_nonneg.mpr hκ) h1a.le
      have hκ2 : 1 + (κ - 1) / (1 + α) ≤ κ := by
        have := div_le_self (sub_nonneg.mpr hκ) (show 1 ≤ 1 + α by linarith)
        linarith
      have hK0 : 0 ≤ K := by linarith
      have hκ0 : 0 ≤ κ := by linarith
      set b1 := (1 + θ) * (b / (1 + α)) + (1 + 1 / θ) * (s * (K * (K + 1) * ((κ - 1) / (1 + α)))) with hb1
      have hd2 : AtMost ((u.mean - u'.mean) * (u.mean - u'.mean)ᵀ) (b1 • u.cov) := by
        refine Bounded.AtMost.trans hd1 (NearOptimal.sc_le (psd_at hok hu) ?_)
        rw [hb1]
        gcongr
      obtain ⟨q, q', v, v', hqq, hqq', hoq, hoq', hw, hw', hl2, hd3⟩ := ih c.tb k k' u u' _ b1 (fun c hc => hv c (by simp [hc])) (fun c hc => hq c (by simp [hc])) hok hok' hu hu'
        (by linarith) (hκ2.trans hκK) hl1 (by rw [hb1]; positivity) hd2 (hs.tail hk) (hs'.tail hk') (hr.tail hk')
      have e2 : List.replicate (2 * (c :: r).length) true = [true, true] ++ List.replicate (2 * r.length) true := by
        rw [List.length_cons, Nat.mul_add, Nat.mul_one, List.replicate_succ, List.replicate_succ]; rfl
      refine ⟨q, q', v, v', ?_, ?_, hoq, hoq', hw, hw', ?_, ?_⟩
      · rw [script_cons, e2]; exact calls_append _ _ hk hqq
      · rw [script_cons, e2]; exact calls_append _ _ hk' hqq'
      · rw [List.length_cons, pow_succ, mul_comm, ← div_div]
        rwa [show 1 + (κ - 1) / (1 + α) - 1 = (κ - 1) / (1 + α) by ring] at hl2
      · rw [show 1 + (κ - 1) / (1 + α) - 1 = (κ - 1) / (1 + α) by ring] at hd3
        convert hd3 using 2
        rw [List.length_cons, pow_succ, mul_assoc]
        congr 1
        rw [hb1]
        field_simp
        ring
  obtain ⟨k, k', u, u', h1, h2, h3, h4, h5, h6, h7, h8⟩ := main κ cs t h h' g g' κ b hv hq ho ho' hg hg' hκ le_rfl hl hb
    ((within_iff _ _ _ _ (Alg.psd_symm (psd_at ho hg))).mp hd) hs hs' hr
  exact ⟨k, k', u, u', h1, h2, h5, h6, h7, (within_iff _ _ _ _ (Alg.psd_symm (psd_at h3 h5))).mpr h8⟩

/-! ## Example: the moving body whose position is measured (C118) -/

theorem body_stirs (t : Int) (z : ℝ) : Cycle.Stirs (1 / 50) (((1 : ℝ) + 3 / (1 - 1 / 2)) • X2) (body t z) := by
  have hF : (body t z).F.toM 2 2 = !![1, 1; 0, 1] := Mat.toM_ofM _
  have hQ : (body t z).Q.toM 2 2 = 1 := Mat.toM_ofM _
  unfold Cycle.Stirs AtMost
  rw [hF, hQ]
  have e : (1 : Matrix (Fin 2) (Fin 2) ℝ) - (1 / 50 : ℝ) • (!![1, 1; 0, 1] * (((1 : ℝ) + 3 / (1 - 1 / 2)) • X2) * (!![1, 1; 0, 1])ᵀ) = !![29 / 50, -14 / 50; -14 / 50, 36 / 50] := by
    ext i j
    fin_cases i <;> fin_cases j <;> simp [X2, Matrix.mul_apply, Fin.sum_univ_two, Matrix.vecMul, dotProduct] <;> norm_num
  rw [e]
  exact psd2 _ _ _ (by norm_num) (by norm_num)

/-- A filter of the moving body that has just been started. -/
noncomputable def started (p x v : ℝ) : Buf Belief :=
  [(0, { mean := Mat.ofM (!![x; v] : Matrix (Fin 2) (Fin 1) ℝ), Sigma := Mat.ofM (p • 1 : Matrix (Fin 2) (Fin 2) ℝ), stamp := 0 })]

theorem started_ok {p : ℝ} (hp : 0 ≤ p) (x v : ℝ) : Ok 2 (started p x v) ∧ estimates 2 (started p x v) 0 = some ⟨!![x; v], p • 1⟩ := by
  refine ⟨⟨List.pairwise_singleton _ _, ?_⟩, ?_⟩
  · intro e he
    simp only [started, List.mem_singleton] at he
    subst he
    refine ⟨⟨rfl, rfl⟩, ⟨rfl, rfl⟩, ?_⟩
    show ((Mat.ofM (p • 1 : Matrix (Fin 2) (Fin 2) ℝ)).toM 2 2).PosSemidef
    rw [Mat.toM_ofM]; exact Alg.smul_one_psd hp
  · show some (Gauss.mk ((Mat.ofM (!![x; v] : Matrix (Fin 2) (Fin 1) ℝ)).toM 2 1) ((Mat.ofM (p • 1 : Matrix (Fin 2) (Fin 2) ℝ)).toM 2 2)) = _
    rw [Mat.toM_ofM (p • 1 : Matrix (Fin 2) (Fin 2) ℝ), Mat.toM_ofM (!![x; v] : Matrix (Fin 2) (Fin 1) ℝ)]

theorem X2_pd : X2.PosDef := by
  rw [X2_diag]
  refine Matrix.PosDef.diagonal fun i => ?_
  fin_cases i <;> simp

theorem one_X2 {p : ℝ} (hp : p ≤ 1) : AtMost (p • (1 : Matrix (Fin 2) (Fin 2) ℝ)) ((1 : ℝ) • X2) := by
  have h1 := NearOptimal.sc_le (PosSemidef.one (n := Fin 2) (R := ℝ)) hp
  rw [one_smul] at h1
  refine Bounded.AtMost.trans h1 ?_
  have e : (1 : ℝ) • X2 - 1 = Matrix.diagonal ![0, 1] := by
    ext i j
    fin_cases i <;> fin_cases j <;> simp [X2] <;> norm_num
  unfold AtMost
  rw [e]
  refine Matrix.PosSemidef.diagonal fun i => ?_
  fin_cases i <;> simp

theorem started_within (x v x' v' : ℝ) : Within ((x - x') ^ 2 + (v - v') ^ 2) (!![x; v] : Matrix (Fin 2) (Fin 1) ℝ) !![x'; v'] ((1 : ℝ) • 1) := by
  intro y
  simp [Fin.sum_univ_two]
  nlinarith [sq_nonneg (y 0 * (v - v') - y 1 * (x - x'))]

/-- The hypotheses of `c129_limit` (and so those of `c129_mean` and `c129_geometric`) are met by the moving body, with any two initial means and any measured values: the filter that thinks the
body is a kilometre away ends with the same estimate. -/
example (zs : List ℝ) (x v x' v' : ℝ) : let cs := zs.mapIdx (fun i z => body i z)
    (∀ c ∈ cs, c.Valid 2) ∧ (∀ c ∈ cs, ∃ L, c.Observer X2 (1 / 2) 3 L) ∧ (∀ c ∈ cs, Cycle.Stirs (1 / 50) (((1 : ℝ) + 3 / (1 - 1 / 2)) • X2) c) ∧ X2.PosDef ∧
    Ok 2 (started 1 x v) ∧ Ok 2 (started 1 x' v') ∧ ∃ g g', estimates 2 (started 1 x v) 0 = some g ∧ estimates 2 (started 1 x' v') 0 = some g' ∧ g.cov = g'.cov ∧ AtMost g.cov ((1 : ℝ) • X2) ∧
    Within ((x - x') ^ 2 + (v - v') ^ 2) g.mean g'.mean g.cov := by
  refine ⟨?_, ?_, ?_, X2_pd, (started_ok zero_le_one x v).1, (started_ok zero_le_one x' v').1, _, _, (started_ok zero_le_one x v).2, (started_ok zero_le_one x' v').2, rfl, one_X2 le_rfl, started_within x v x' v'⟩
  · intro c hc
    obtain ⟨i, hi, rfl⟩ := List.mem_mapIdx.mp hc
    exact body_valid _ _
  · intro c hc
    obtain ⟨i, hi, rfl⟩ := List.mem_mapIdx.mp hc
    exact ⟨_, body_observer _ _⟩
  · intro c hc
    obtain ⟨i, hi, rfl⟩ := List.mem_mapIdx.mp hc
    exact body_stirs _ _

/-- A filter that expects the body at rest at 0, and measures 0, is right for ever. -/
theorem stays_zero (cs : List Cycle) (hv : ∀ c ∈ cs, c.Valid n) (hz : ∀ c ∈ cs, c.z.toM c.m 1 = 0) (t : Int) (h : Buf Belief) (ho : Ok n h) (g : Gauss n) (hg : estimates n h t = some g)
    (h0 : g.mean = 0) (k : Buf Belief) (as : List Bool) (u : Gauss n) (hk : calls h (script t cs) = .ok (k, as)) (hu : estimates n k (time t cs) = some u) : u.mean = 0 := by
  induction cs generalizing t h g k as with
  | nil =>
    simp only [script, calls] at hk
    cases hk
    rw [show time t [] = t from rfl, hg] at hu
    cases hu
    exact h0
  | cons c r ih =>
    obtain ⟨h2, hc, ho2, _, hg2⟩ := cycle_exact c (hv c (by simp)) t h ho g hg
    have hz2 : ((g.predict (c.F.toM n n) (c.Q.toM n n)).updateReg (c.H.toM c.m n) (c.R.toM c.m c.m)
        (c.z.toM c.m 1 - c.H.toM c.m n * (c.F.toM n n * g.mean)) c.cfg.eps c.cfg.joseph c.cfg.stab).mean = 0 := by
      show c.F.toM n n * g.mean + _ * (c.z.toM c.m 1 - c.H.toM c.m n * (c.F.toM n n * g.mean)) = 0
      rw [h0, hz c (by simp)]
      simp
    obtain ⟨x, a, as1, hx, hr, _⟩ := calls_cons hk
    obtain ⟨x2, a2, as2, hx2, hr2, _⟩ := calls_cons hr
    have e : h2 = x2 := by
      simp only [script, calls, hx, hx2, Res.bind_ok] at hc
      cases hc
      rfl
    subst e
    exact ih (fun c hc => hv c (by simp [hc])) (fun c hc => hz c (by simp [hc])) c.tb h2 ho2 _ hg2 hz2 k as2 hr2 hu

/-- The hypotheses of `c129_belief` (and so those of `c129_covariance`) are met by the body at rest, with a filter that knows it and one that is wrong by any amount, for any number of cycles. -/
example (N : ℕ) (x v : ℝ) : let cs := (List.replicate N (0 : ℝ)).mapIdx (fun i z => body i z)
    (∀ c ∈ cs, c.Valid 2) ∧ (∀ c ∈ cs, Cycle.Quiet 0 c) ∧ StirsAlong 2 (1 / 50) 0 (started 1 x v) cs ∧ StirsAlong 2 (1 / 50) 0 (started (1 / 4) 0 0) cs ∧
    ResidualsAlong 2 1 0 (started (1 / 4) 0 0) cs ∧ SameUpTo 4 ((1 : ℝ) • (1 : Matrix (Fin 2) (Fin 2) ℝ)) ((1 / 4 : ℝ) • 1) := by
  intro cs
  have hv : ∀ c ∈ cs, c.Valid 2 := by
    intro c hc
    obtain ⟨i, hi, rfl⟩ := List.mem_mapIdx.mp hc
    exact body_valid _ _
  have hobs : ∀ c ∈ cs, ∃ L, c.Observer X2 (1 / 2) 3 L := by
    intro c hc
    obtain ⟨i, hi, rfl⟩ := List.mem_mapIdx.mp hc
    exact ⟨_, body_observer _ _⟩
  have hst : ∀ c ∈ cs, Cycle.Stirs (1 / 50) (((1 : ℝ) + 3 / (1 - 1 / 2)) • X2) c := by
    intro c hc
    obtain ⟨i, hi, rfl⟩ := List.mem_mapIdx.mp hc
    exact body_stirs _ _
  have hz : ∀ c ∈ cs, c.z.toM c.m 1 = 0 := by
    intro c hc
    obtain ⟨i, hi, rfl⟩ := List.mem_mapIdx.mp hc
    rw [List.getElem_replicate]
    show (MathExample.sc 0).toM 1 1 = 0
    rw [sc_eq, zero_smul]
  have st : ∀ p x v, 0 ≤ p → p ≤ 1 → StirsAlong 2 (1 / 50) 0 (started p x v) cs := fun p x v h0 h1 =>
    stirs_bounded X2 (1 / 2) 3 X2_pd (by norm_num) (by norm_num) (by norm_num) (by norm_num) cs hv hobs 0 _ (started_ok h0 x v).1 _ (started_ok h0 x v).2 1 (by norm_num) (one_X2 h1) hst
  refine ⟨hv, ?_, st 1 x v (by norm_num) le_rfl, st (1 / 4) 0 0 (by norm_num) (by norm_num), ?_, ?_, ?_⟩
  · intro c hc
    obtain ⟨i, hi, rfl⟩ := List.mem_mapIdx.mp hc
    right
    show AtMost ((0 : ℝ) • 1) _
    rw [zero_smul, zero_smul]
    exact NearOptimal.le_rf 0
  · intro before c after e k as u hk hu
    have hin : ∀ d ∈ before, d ∈ cs := fun d hd => by rw [e]; simp [hd]
    have hc : c ∈ cs := by rw [e]; simp
    have hm := stays_zero before (fun d hd => hv d (hin d hd)) (fun d hd => hz d (hin d hd)) 0 _ (started_ok (show (0 : ℝ) ≤ 1 / 4 by norm_num) 0 0).1 _ (started_ok (show (0 : ℝ) ≤ 1 / 4 by norm_num) 0 0).2 (by ext i j; fin_cases i <;> simp) k as u hk hu
    rw [hm, hz c hc]
    obtain ⟨k1, u1, hk1, hok1, hu1, _⟩ := c118_bounded X2 (1 / 2) 3 X2_pd (by norm_num) (by norm_num) (by norm_num) before (fun d hd => hv d (hin d hd)) (fun d hd => hobs d (hin d hd)) 0 _
      (started_ok (show (0 : ℝ) ≤ 1 / 4 by norm_num) 0 0).1 _ (started_ok (show (0 : ℝ) ≤ 1 / 4 by norm_num) 0 0).2 1 (one_X2 (by norm_num))
    rw [hk] at hk1
    cases hk1
    rw [hu] at hu1
    cases hu1
    obtain ⟨_, _, _, hp, _⟩ := cycle_exact c (hv c hc) _ k hok1 u hu
    obtain ⟨hF, hQ, hH, hR, hz, hQp, hRp, he, hRe, hgate⟩ := hv c hc
    have hS := (Alg.innov_pd hp (c.H.toM c.m 2) hRe).posSemidef
    refine (within_iff _ _ _ _ (Alg.psd_symm hS)).mpr ?_
    unfold AtMost
    rw [Matrix.mul_zero, Matrix.mul_zero, sub_zero, Matrix.zero_mul, sub_zero, one_smul]
    exact hS
  · rw [smul_smul]; exact NearOptimal.sc_le PosSemidef.one (by norm_num)
  · rw [smul_smul]; exact NearOptimal.sc_le PosSemidef.one (by norm_num)

end Forget
end Ikf
