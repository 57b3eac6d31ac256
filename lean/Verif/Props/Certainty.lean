import Verif.Spec.Certainty
import Verif.Props.StandaloneMath

/-! # Property C117: more information never leads to less reported certainty -/

namespace Ikf
namespace Certainty
open Matrix SKF

variable {n m : ℕ}

/-! ## The update of the covariance -/

theorem updateReg_cov (g : Gauss n) (H : Matrix (Fin m) (Fin n) ℝ) (R : Matrix (Fin m) (Fin m) ℝ) (r : Matrix (Fin m) (Fin 1) ℝ) (e : ℝ) (j s : Bool) :
    (g.updateReg H R r e j s).cov = (1 - Alg.gain g.cov H (R + e • 1) * H) * g.cov -
      (if j then e • (Alg.gain g.cov H (R + e • 1) * (Alg.gain g.cov H (R + e • 1))ᵀ) else 0) + (if s then e • 1 else 0) := rfl

theorem psd_of_sub {A B : Matrix (Fin n) (Fin n) ℝ} (h : (A - B).PosSemidef) (hB : B.PosSemidef) : A.PosSemidef := by
  have := h.add hB
  rwa [sub_add_cancel] at this

/-- Less prior covariance and less noise give less covariance after the update. -/
theorem update_mono (g g' : Gauss n) (hg : g.cov.PosSemidef) (hl : AtMost g.cov g'.cov) (H : Matrix (Fin m) (Fin n) ℝ) (R R' : Matrix (Fin m) (Fin m) ℝ)
    (e : ℝ) (hR : (R + e • 1).PosDef) (hRR : AtMost R R') (r r' : Matrix (Fin m) (Fin 1) ℝ) (j s : Bool) (hj : e = 0 ∨ j = false) :
    AtMost (g.updateReg H R r e j s).cov (g'.updateReg H R' r' e j s).cov := by
  have hj0 : ∀ M : Matrix (Fin n) (Fin n) ℝ, (if j then e • M else 0) = 0 := by
    intro M
    rcases hj with h | h
    · rw [h]; simp
    · rw [h]; simp
  have hg' : g'.cov.PosSemidef := psd_of_sub hl hg
  have hR' : (R' + e • 1).PosDef := by
    have : R' + e • 1 = (R' - R) + (R + e • 1) := by abel
    rw [this]
    exact PosDef.posSemidef_add hRR hR
  unfold AtMost
  rw [updateReg_cov, updateReg_cov, hj0, hj0, sub_zero, sub_zero]
  set K' := Alg.gain g'.cov H (R' + e • 1) with hK'
  have h1 := Alg.joseph_gain hg' H (Alg.innov_pd hg' H hR')
  rw [← hK'] at h1
  have h2 := Alg.gain_optimal_psd hg H (Alg.innov_pd hg H hR) K'
  have h3 : Alg.joseph g'.cov H (R' + e • 1) K' - Alg.joseph g.cov H (R + e • 1) K' = Alg.joseph (g'.cov - g.cov) H (R' - R) K' := by
    simp only [Alg.joseph, Matrix.mul_sub, Matrix.sub_mul, Matrix.mul_add, Matrix.add_mul]
    abel
  have h4 := (Alg.joseph_psd hl H hRR K').add h2
  rw [← h3] at h4
  rw [← h1]
  convert h4 using 1
  abel

/-- An update without stabilisation does not increase the covariance. -/
theorem update_drop (g : Gauss n) (hg : g.cov.PosSemidef) (H : Matrix (Fin m) (Fin n) ℝ) (R : Matrix (Fin m) (Fin m) ℝ)
    (e : ℝ) (he : 0 ≤ e) (hR : (R + e • 1).PosDef) (r : Matrix (Fin m) (Fin 1) ℝ) (j s : Bool) (hs : e = 0 ∨ s = false) :
    AtMost (g.updateReg H R r e j s).cov g.cov := by
  have hs0 : (if s then e • (1 : Matrix (Fin n) (Fin n) ℝ) else 0) = 0 := by
    rcases hs with h | h
    · rw [h]; simp
    · rw [h]; simp
  unfold AtMost
  rw [updateReg_cov, hs0, add_zero]
  set K := Alg.gain g.cov H (R + e • 1) with hK
  have h1 := Alg.gain_info_psd hg H (Alg.innov_pd hg H hR)
  rw [← hK] at h1
  have hKK : (if j then e • (K * Kᵀ) else 0).PosSemidef := by
    split
    · have := Alg.psd_congr (Alg.smul_one_psd (n := Fin m) he) K
      simpa only [Matrix.mul_smul, Matrix.smul_mul, Matrix.mul_one] using this
    · exact PosSemidef.zero
  convert h1.add hKK using 1
  rw [Matrix.sub_mul, Matrix.one_mul]
  abel

/-! ## Runs -/

theorem NoWorse.update {f f' : Int → Option (Gauss n)} (h : NoWorse f f') (t : Int) {g g' : Gauss n} (hg : AtMost g.cov g'.cov) :
    NoWorse (Function.update f t (some g)) (Function.update f' t (some g')) := by
  intro u x hx
  by_cases hu : u = t
  · subst hu
    rw [Function.update_self] at hx ⊢
    cases hx
    exact ⟨g, rfl, hg⟩
  · rw [Function.update_of_ne hu] at hx ⊢
    exact h u x hx

theorem NoWorse.drop {f f' : Int → Option (Gauss n)} (h : NoWorse f f') (t : Int) {g0 g : Gauss n} (h0 : f t = some g0) (hg : AtMost g.cov g0.cov) :
    NoWorse (Function.update f t (some g)) f' := by
  intro u x hx
  obtain ⟨y, hy, hyx⟩ := h u x hx
  by_cases hu : u = t
  · subst hu
    rw [Function.update_self]
    rw [h0] at hy
    cases hy
    refine ⟨g, rfl, ?_⟩
    have := hg.add hyx
    unfold AtMost
    rwa [add_comm, sub_add_sub_cancel] at this
  · rw [Function.update_of_ne hu]
    exact ⟨y, hy, hyx⟩

theorem psd_at {h : Buf Belief} (ho : Ok n h) {t : Int} {g : Gauss n} (hg : estimates n h t = some g) : g.cov.PosSemidef := by
  obtain ⟨b, hb, rfl⟩ := Option.map_eq_some_iff.mp hg
  exact (ho.at hb).2.2

theorem extra_step {h h1 h' : Buf Belief} (ho : Ok n h) {c : KCall} (hf : c.Fits n) (hi : IsObs c) (hu : Unstabilised c) (hc : call h c = .ok (h1, true))
    (hw : NoWorse (estimates n h) (estimates n h')) : NoWorse (estimates n h1) (estimates n h') := by
  obtain ⟨ht, _⟩ := call_true ho c hf hc
  generalize he : estimates n h1 = f1 at ht ⊢
  cases ht with
  | priv H R z t cfg g hg => exact hw.drop t hg (update_drop g (psd_at ho hg) _ _ _ hf.1 hf.2.2 _ _ _ hu)
  | privEKF H R r t cfg g hg => exact hw.drop t hg (update_drop g (psd_at ho hg) _ _ _ hf.1 hf.2.2 _ _ _ hu)
  | prop => exact hi.elim
  | propEKF => exact hi.elim
  | propBel => exact hi.elim
  | correct => exact hi.elim

theorem pair_step {h h1 h' h1' : Buf Belief} (ho : Ok n h) (ho' : Ok n h') {c c' : KCall} (hf : c.Fits n) (hf' : c'.Fits n) (hT : Tells n c c')
    (hc : call h c = .ok (h1, true)) (hc' : call h' c' = .ok (h1', true))
    (hw : NoWorse (estimates n h) (estimates n h')) : NoWorse (estimates n h1) (estimates n h1') := by
  obtain ⟨ht, _⟩ := call_true ho c hf hc
  obtain ⟨ht', _⟩ := call_true ho' c' hf' hc'
  generalize he : estimates n h1 = f1 at ht ⊢
  generalize he' : estimates n h1' = f1' at ht' ⊢
  cases hT with
  | prop Phi Q Q' ta tb hQ =>
    cases ht with
    | prop _ _ _ _ g hg =>
      cases ht' with
      | prop _ _ _ _ g' hg' =>
        obtain ⟨x, hx, hl⟩ := hw ta g' hg'
        rw [hg] at hx
        cases hx
        refine hw.update tb ?_
        have := (Alg.psd_congr hl (Phi.toM n n)).add hQ
        unfold AtMost
        convert this using 1
        simp only [Gauss.predict, Matrix.mul_sub, Matrix.sub_mul]
        abel
  | propEKF mb mb' Phi Q Q' ta tb hQ =>
    cases ht with
    | propEKF _ _ _ _ _ g hg =>
      cases ht' with
      | propEKF _ _ _ _ _ g' hg' =>
        obtain ⟨x, hx, hl⟩ := hw ta g' hg'
        rw [hg] at hx
        cases hx
        refine hw.update tb ?_
        have := (Alg.psd_congr hl (Phi.toM n n)).add hQ
        unfold AtMost
        convert this using 1
        simp only [Gauss.predict, Matrix.mul_sub, Matrix.sub_mul]
        abel
  | propBel b b' Phi ta tb hb =>
    cases ht
    cases ht'
    exact hw.update tb hb
  | priv H R R' z z' t cfg hz hR hcf =>
    cases ht with
    | priv _ _ _ _ _ g hg =>
      cases ht' with
      | priv _ _ _ _ _ g' hg' =>
        obtain ⟨x, hx, hl⟩ := hw t g' hg'
        rw [hg] at hx
        cases hx
        refine hw.update t ?_
        have hfR := hf.2.2
        generalize hm : z.rows = m at hz hR hfR ⊢
        subst hz
        exact update_mono g g' (psd_at ho hg) hl _ _ _ _ hfR hR _ _ _ _ hcf
  | privEKF H R R' z z' t cfg hz hR hcf =>
    cases ht with
    | privEKF _ _ _ _ _ g hg =>
      cases ht' with
      | privEKF _ _ _ _ _ g' hg' =>
        obtain ⟨x, hx, hl⟩ := hw t g' hg'
        rw [hg] at hx
        cases hx
        refine hw.update t ?_
        have hfR := hf.2.2
        generalize hm : z.rows = m at hz hR hfR ⊢
        subst hz
        exact update_mono g g' (psd_at ho hg) hl _ _ _ _ hfR hR _ _ _ _ hcf

theorem calls_cons {h h2 : Buf Belief} {c : KCall} {cs : List KCall} {as : List Bool} (hr : calls h (c :: cs) = .ok (h2, as)) :
    ∃ h1 a bs, call h c = .ok (h1, a) ∧ calls h1 cs = .ok (h2, bs) ∧ as = a :: bs := by
  simp only [calls] at hr
  cases hc : call h c with
  | throws => rw [hc] at hr; simp at hr
  | ub => rw [hc] at hr; simp at hr
  | ok x =>
    rw [hc, Res.bind_ok] at hr
    cases hy : calls x.1 cs with
    | throws => rw [hy] at hr; simp at hr
    | ub => rw [hy] at hr; simp at hr
    | ok y =>
      rw [hy, Res.bind_ok] at hr
      have hr' := Prod.mk.inj (Res.ok.inj hr)
      exact ⟨x.1, x.2, y.2, rfl, by rw [hy, ← hr'.1], hr'.2.symm⟩

/-- C117 (partial: see `c117_extra_fails` and `c117_prior_fails` for what regularisation breaks). Take two `n`-state filters of which the first is nowhere less certain, and feed both: the
first with smaller or equal noise covariances and possibly further observations. All calls are accepted, except that observations may be refused by the second
filter. Then the first filter is still nowhere less certain, whatever is measured. -/
theorem c117_certainty_partial (h h' : Buf Belief) (ho : Ok n h) (ho' : Ok n h') (cs cs' : List KCall)
    (hf : ∀ c ∈ cs, c.Fits n) (hf' : ∀ c ∈ cs', c.Fits n) (hu : ∀ c ∈ cs, Unstabilised c) (hT : TellsAll n cs cs')
    (h0 : NoWorse (estimates n h) (estimates n h'))
    (h1 h1' : Buf Belief) (as as' : List Bool) (hr : calls h cs = .ok (h1, as)) (hr' : calls h' cs' = .ok (h1', as'))
    (hall : ∀ a ∈ as, a = true) (hall' : ∀ x ∈ cs'.zip as', x.2 = false → IsObs x.1) :
    NoWorse (estimates n h1) (estimates n h1') := by
  induction hT generalizing h h' as as' with
  | nil =>
    simp only [calls, Res.ok.injEq, Prod.mk.injEq] at hr hr'
    rw [← hr.1, ← hr'.1]
    exact h0
  | @cons c c' cs cs' hT r ih =>
    obtain ⟨k, a, bs, hc, hcs, rfl⟩ := calls_cons hr
    obtain ⟨k', a', bs', hc', hcs', rfl⟩ := calls_cons hr'
    have ha : a = true := hall a (by simp)
    subst ha
    have hfc := hf c (by simp)
    have hfc' := hf' c' (by simp)
    have ok := (call_true ho c hfc hc).2
    have rest := fun k' ok' hw => ih k k' ok ok' (fun x hx => hf x (by simp [hx])) (fun x hx => hf' x (by simp [hx])) (fun x hx => hu x (by simp [hx])) hw bs
      bs' hcs
    cases a' with
    | true =>
      have ok' := (call_true ho' c' hfc' hc').2
      exact rest k' ok' (pair_step ho ho' hfc hfc' hT hc hc' h0) hcs' (fun x hx => hall x (by simp [hx]))
        (fun x hx => hall' x (by simp [List.zip_cons_cons, hx]))
    | false =>
      have hk := c100_refused h' k' c' hc'
      subst hk
      have hob' : IsObs c' := hall' (c', false) (by simp) rfl
      have hob : IsObs c := by cases hT <;> first | exact trivial | exact hob'
      exact rest k' ho' (extra_step ho hfc hob (hu c (by simp)) hc h0) hcs' (fun x hx => hall x (by simp [hx]))
        (fun x hx => hall' x (by simp [List.zip_cons_cons, hx]))
  | @extra c cs cs' hi r ih =>
    obtain ⟨k, a, bs, hc, hcs, rfl⟩ := calls_cons hr
    have ha : a = true := hall a (by simp)
    subst ha
    have hfc := hf c (by simp)
    exact ih k h' (call_true ho c hfc hc).2 ho' (fun x hx => hf x (by simp [hx])) hf' (fun x hx => hu x (by simp [hx]))
      (extra_step ho hfc hi (hu c (by simp)) hc h0) bs as' hcs hr' (fun x hx => hall x (by simp [hx])) hall'

/-! ## What regularisation breaks -/

/-- The update of a scalar. -/
theorem scalar_update (g : Gauss 1) (p r e : ℝ) (hg : g.cov = p • 1) (hp : p + (r + e) ≠ 0) (d : Matrix (Fin 1) (Fin 1) ℝ) :
    (g.updateReg 1 (r • 1) d e true true).cov =
      ((1 - p * (p + (r + e))⁻¹) * p - e * (p * (p + (r + e))⁻¹) ^ 2 + e) • (1 : Matrix (Fin 1) (Fin 1) ℝ) := by
  have hK : Alg.gain g.cov (1 : Matrix (Fin 1) (Fin 1) ℝ) (r • 1 + e • 1) = (p * (p + (r + e))⁻¹) • 1 := by
    unfold Alg.gain
    have hi : ((1 : Matrix (Fin 1) (Fin 1) ℝ) * g.cov * 1ᵀ + (r • 1 + e • 1))⁻¹ = (p + (r + e))⁻¹ • 1 := by
      refine Matrix.inv_eq_right_inv ?_
      rw [hg]
      simp only [Matrix.transpose_one, Matrix.one_mul, Matrix.mul_one, ← add_smul, Matrix.smul_mul, Matrix.mul_smul, smul_smul]
      rw [inv_mul_cancel₀ hp, one_smul]
    rw [hi, hg]
    simp only [Matrix.transpose_one, Matrix.mul_one, Matrix.smul_mul, Matrix.mul_smul, smul_smul]
    rw [mul_comm]
  rw [updateReg_cov, hK, hg]
  simp only [if_true]
  ext i j
  fin_cases i; fin_cases j
  simp
  ring

open MathExample

theorem sc_eq (x : ℝ) : (sc x).toM 1 1 = x • (1 : Matrix (Fin 1) (Fin 1) ℝ) := by
  ext i j; fin_cases i; fin_cases j; simp [sc, Mat.toM, Mat.ofM, Mat.of]

/-- A filter with one state and the variance `p`. -/
noncomputable def scalar (p : ℝ) : Buf Belief := [(0, { mean := sc 0, Sigma := sc p, stamp := 0 })]

theorem scalar_ok {p : ℝ} (hp : 0 ≤ p) : Ok 1 (scalar p) where
  strict := List.pairwise_singleton _ _
  bel := by
    intro e he
    simp only [scalar, List.mem_singleton] at he
    subst he
    exact ⟨⟨rfl, rfl⟩, ⟨rfl, rfl⟩, sc_psd hp⟩

theorem scalar_est (p : ℝ) (t : Int) : estimates 1 (scalar p) t = if t = 0 then some ⟨(sc 0).toM 1 1, p • 1⟩ else none := by
  rw [← sc_eq]
  by_cases ht : t = 0
  · subst ht; rfl
  · rw [if_neg ht]
    have : ¬ (0 : Int) = t := fun h => ht h.symm
    simp [estimates, beliefAt, scalar, Buf.getAt, this]

/-- Observing the state itself with noise covariance `r` and the default configuration, but for the outlier gate. -/
noncomputable def observe (r : ℝ) : KCall := .priv (sc 1) (sc r) (sc 0) 0 { outlier := false }

theorem observe_fits {r : ℝ} (hr : 0 ≤ r) : (observe r).Fits 1 := by
  refine ⟨by norm_num, sc_psd hr, ?_⟩
  exact PosDef.posSemidef_add (sc_psd hr) (Alg.smul_one_pd (by norm_num))

theorem observe_run {p r : ℝ} (hp : 0 ≤ p) (hr : 0 ≤ r) : ∃ h', call (scalar p) (observe r) = .ok (h', true) ∧
    ∃ g, estimates 1 h' 0 = some g ∧ g.cov = ((1 - p * (p + (r + 1 / 10 ^ 16))⁻¹) * p - 1 / 10 ^ 16 * (p * (p + (r + 1 / 10 ^ 16))⁻¹) ^ 2 + 1 / 10 ^ 16) •
      (1 : Matrix (Fin 1) (Fin 1) ℝ) := by
  obtain ⟨h', a, hc, ha⟩ := ((c100_defined (m := 1) (scalar p) (scalar_ok hp) 0 _ rfl).2.2 (sc 1) (sc r) (sc 0) { outlier := false } rfl rfl rfl rfl rfl rfl
    (Or.inl rfl)).1
  rw [ha rfl] at hc
  refine ⟨h', hc, ?_⟩
  obtain ⟨ht, _⟩ := call_true (scalar_ok hp) (observe r) (observe_fits hr) hc
  generalize he : estimates 1 h' = f1 at ht ⊢
  generalize hb : estimates 1 (scalar p) = f0 at ht
  unfold observe at ht
  cases ht with
  | priv _ _ _ _ _ g hg =>
    rw [Function.update_self]
    refine ⟨_, rfl, ?_⟩
    rw [← hb, scalar_est, if_pos rfl] at hg
    cases hg
    have hu : ∀ e : ℝ, 0 < e → (Gauss.updateReg ⟨(sc 0).toM 1 1, p • 1⟩ ((sc 1).toM 1 1) ((sc r).toM 1 1) ((sc 0).toM 1 1 - (sc 1).toM 1 1 * (sc 0).toM 1 1)
        e true true).cov = ((1 - p * (p + (r + e))⁻¹) * p - e * (p * (p + (r + e))⁻¹) ^ 2 + e) • (1 : Matrix (Fin 1) (Fin 1) ℝ) := by
      intro e he
      rw [sc_eq 1, one_smul, sc_eq r]
      exact scalar_update _ p r e rfl (by positivity) _
    exact hu _ (by norm_num)

theorem not_atMost {a b : ℝ} (h : b < a) : ¬ AtMost (a • (1 : Matrix (Fin 1) (Fin 1) ℝ)) (b • 1) := by
  intro hc
  have := hc.diag_nonneg (i := 0)
  simp at this
  linarith

/-- C117 fails with the default configuration: a further observation makes a filter that knows its state exactly less certain, since `1e-16` is added to
the covariance. -/
theorem c117_extra_fails : ∃ (h h1 : Buf Belief) (c : KCall), Ok 1 h ∧ c.Fits 1 ∧ IsObs c ∧ call h c = .ok (h1, true) ∧
    ¬ NoWorse (estimates 1 h1) (estimates 1 h) := by
  obtain ⟨h1, hc, g, hg, hv⟩ := observe_run (p := 0) (r := 1) le_rfl zero_le_one
  refine ⟨scalar 0, h1, observe 1, scalar_ok le_rfl, observe_fits zero_le_one, trivial, hc, fun hn => ?_⟩
  obtain ⟨g', hg', hl⟩ := hn 0 _ (by rw [scalar_est, if_pos rfl])
  rw [hg] at hg'
  cases hg'
  rw [hv] at hl
  exact not_atMost (by norm_num) hl

/-- C117 fails with the default configuration: of two filters that observe their state without noise, the one that was less certain is the more
certain one afterwards, since the Joseph form is evaluated for another measurement noise than the gain. -/
theorem c117_prior_fails : ∃ (h h' h1 h1' : Buf Belief) (c : KCall), Ok 1 h ∧ Ok 1 h' ∧ c.Fits 1 ∧ NoWorse (estimates 1 h) (estimates 1 h') ∧
    call h c = .ok (h1, true) ∧ call h' c = .ok (h1', true) ∧ ¬ NoWorse (estimates 1 h1) (estimates 1 h1') := by
  obtain ⟨h1, hc, g, hg, hv⟩ := observe_run (p := 1 / 10 ^ 16) (r := 0) (by norm_num) le_rfl
  obtain ⟨h1', hc', g', hg', hv'⟩ := observe_run (p := 1) (r := 0) zero_le_one le_rfl
  refine ⟨scalar (1 / 10 ^ 16), scalar 1, h1, h1', observe 0, scalar_ok (by norm_num), scalar_ok zero_le_one, observe_fits le_rfl, ?_, hc, hc', fun hn => ?_⟩
  · intro t x hx
    rw [scalar_est] at hx ⊢
    split at hx
    · rename_i ht
      cases hx
      rw [if_pos ht]
      refine ⟨_, rfl, ?_⟩
      show ((1 : ℝ) • (1 : Matrix (Fin 1) (Fin 1) ℝ) - (1 / 10 ^ 16 : ℝ) • 1).PosSemidef
      rw [← sub_smul]
      exact Alg.smul_one_psd (by norm_num)
    · cases hx
  · obtain ⟨g2, hg2, hl⟩ := hn 0 _ hg'
    rw [hg] at hg2
    cases hg2
    rw [hv, hv'] at hl
    exact not_atMost (by norm_num) hl

/-! ## Example -/

/-- The hypotheses of `c117_certainty_partial` are met: one filter with variance 1 predicts and observes twice, the other starts with variance 2, is told twice the
process noise, and observes once. -/
example : ∃ (cs cs' : List KCall) (h1 h1' : Buf Belief), cs.length = 3 ∧ cs'.length = 2 ∧
    Ok 1 (scalar 1) ∧ Ok 1 (scalar 2) ∧ (∀ c ∈ cs, c.Fits 1) ∧ (∀ c ∈ cs', c.Fits 1) ∧ (∀ c ∈ cs, Unstabilised c) ∧ TellsAll 1 cs cs' ∧
    NoWorse (estimates 1 (scalar 1)) (estimates 1 (scalar 2)) ∧ calls (scalar 1) cs = .ok (h1, [true, true, true]) ∧
    calls (scalar 2) cs' = .ok (h1', [true, true]) := by
  have hsub : ∀ {a b : ℝ}, a ≤ b → AtMost ((sc a).toM 1 1) ((sc b).toM 1 1) := by
    intro a b hab
    unfold AtMost
    rw [sc_eq, sc_eq, ← sub_smul]
    exact Alg.smul_one_psd (by linarith)
  have hpriv : ∀ (h : Buf Belief) (ho : Ok 1 h) (z : Mat) (hz : z.rows = 1 ∧ z.cols = 1), (estimates 1 h 5).isSome →
      ∃ h', call h (.priv (sc 1) (sc 1) z 5 { outlier := false, eps := 0 }) = .ok (h', true) ∧ Ok 1 h' ∧ (estimates 1 h' 5).isSome := by
    intro h ho z hz hs
    obtain ⟨g, hg⟩ := Option.isSome_iff_exists.mp hs
    obtain ⟨b, hb, _⟩ := Option.map_eq_some_iff.mp hg
    obtain ⟨h', a, hc, ha⟩ := ((c100_defined (m := 1) h ho 5 b hb).2.2 (sc 1) (sc 1) z { outlier := false, eps := 0 } rfl rfl rfl rfl hz.1 hz.2 (Or.inl rfl)).1
    rw [ha rfl] at hc
    have hf : (KCall.priv (sc 1) (sc 1) z 5 { outlier := false, eps := 0 }).Fits 1 := by
      refine ⟨le_rfl, ?_, ?_⟩
      · rw [hz.1]; exact sc_psd zero_le_one
      · rw [hz.1]; exact (sc_pd zero_lt_one).add_posSemidef (Alg.smul_one_psd le_rfl)
    obtain ⟨ht, ho'⟩ := call_true ho _ hf hc
    refine ⟨h', hc, ho', ?_⟩
    generalize he : estimates 1 h' = f1 at ht ⊢
    cases ht
    rw [Function.update_self]
    rfl
  have hprop : ∀ (p q : ℝ) (hp : 0 ≤ p) (hq : 0 ≤ q), ∃ h', call (scalar p) (.prop (sc 1) (sc q) 0 5) = .ok (h', true) ∧ Ok 1 h' ∧ (estimates 1 h' 5).isSome := by
    intro p q hp hq
    obtain ⟨h', hc⟩ := (c100_defined (m := 0) (scalar p) (scalar_ok hp) 0 _ rfl).1 (sc 1) (sc q) 5 rfl rfl rfl rfl
    obtain ⟨ht, ho'⟩ := call_true (scalar_ok hp) (.prop (sc 1) (sc q) 0 5) (sc_psd hq) hc
    refine ⟨h', hc, ho', ?_⟩
    generalize he : estimates 1 h' = f1 at ht ⊢
    cases ht
    rw [Function.update_self]
    rfl
  obtain ⟨k1, e1, o1, s1⟩ := hprop 1 3 (by norm_num) (by norm_num)
  obtain ⟨k2, e2, o2, s2⟩ := hpriv k1 o1 (sc 2) ⟨rfl, rfl⟩ s1
  obtain ⟨k3, e3, o3, s3⟩ := hpriv k2 o2 (sc 4) ⟨rfl, rfl⟩ s2
  obtain ⟨k1', e1', o1', s1'⟩ := hprop 2 6 (by norm_num) (by norm_num)
  obtain ⟨k2', e2', o2', s2'⟩ := hpriv k1' o1' (sc 7) ⟨rfl, rfl⟩ s1'
  have hR : (sc (1 : ℝ)).toM 1 1 + (0 : ℝ) • (1 : Matrix (Fin 1) (Fin 1) ℝ) = (sc 1).toM 1 1 := by simp
  have hf2 : ∀ x : ℝ, (KCall.priv (sc 1) (sc 1) (sc x) 5 { outlier := false, eps := 0 }).Fits 1 := fun x =>
    ⟨le_rfl, sc_psd zero_le_one, (sc_pd zero_lt_one).add_posSemidef (Alg.smul_one_psd le_rfl)⟩
  refine ⟨[.prop (sc 1) (sc 3) 0 5, .priv (sc 1) (sc 1) (sc 2) 5 { outlier := false, eps := 0 }, .priv (sc 1) (sc 1) (sc 4) 5 { outlier := false, eps := 0 }],
    [.prop (sc 1) (sc 6) 0 5, .priv (sc 1) (sc 1) (sc 7) 5 { outlier := false, eps := 0 }], k3, k2', rfl, rfl, scalar_ok (by norm_num), scalar_ok (by norm_num),
    ?_, ?_, ?_, ?_, ?_, ?_, ?_⟩
  · intro c hc
    simp only [List.mem_cons, List.not_mem_nil, or_false] at hc
    rcases hc with rfl | rfl | rfl
    · exact sc_psd (by norm_num)
    · exact hf2 2
    · exact hf2 4
  · intro c hc
    simp only [List.mem_cons, List.not_mem_nil, or_false] at hc
    rcases hc with rfl | rfl
    · exact sc_psd (by norm_num)
    · exact hf2 7
  · intro c hc
    simp only [List.mem_cons, List.not_mem_nil, or_false] at hc
    rcases hc with rfl | rfl | rfl
    · trivial
    · exact Or.inl rfl
    · exact Or.inl rfl
  · refine .cons (.prop _ _ _ _ _ (hsub (by norm_num))) (.extra trivial (.cons (.priv _ _ _ _ _ _ _ rfl (hsub le_rfl) (Or.inl rfl)) .nil))
  · intro t x hx
    rw [scalar_est] at hx ⊢
    split at hx
    · rename_i ht
      cases hx
      rw [if_pos ht]
      refine ⟨_, rfl, ?_⟩
      have := hsub (a := 1) (b := 2) (by norm_num)
      rwa [sc_eq, sc_eq] at this
    · cases hx
  · simp only [calls, e1, e2, e3, Res.bind_ok]
  · simp only [calls, e1', e2', Res.bind_ok]

end Certainty
end Ikf
