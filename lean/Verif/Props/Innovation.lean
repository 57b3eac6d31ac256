import Verif.Spec.Innovation
import Verif.Props.Honest
import Verif.Props.NISTable

/-! # Property C140: what a filter is surprised by -/

namespace Ikf
namespace Honest
open MeasureTheory Matrix SKF
open scoped MatrixOrder

variable {Ω : Type} [MeasurableSpace Ω] {P : Measure Ω} {n m k l : ℕ}

/-! ## Traces -/

theorem trace_psd {A M : Matrix (Fin m) (Fin m) ℝ} (hA : A.PosSemidef) (hM : M.PosSemidef) : 0 ≤ (A * M).trace := by
  set Q : Matrix (Fin m) (Fin m) ℝ := CFC.sqrt A with hQ
  have hQQ : Q * Q = A := CFC.sqrt_mul_sqrt_self A (Matrix.nonneg_iff_posSemidef.mpr hA)
  have hQp : Q.PosSemidef := Matrix.nonneg_iff_posSemidef.mp (CFC.sqrt_nonneg A)
  have hQt : Qᵀ = Q := Alg.psd_symm hQp
  have h := (Alg.psd_congr hM Q).trace_nonneg
  rw [hQt, Matrix.mul_assoc, Matrix.trace_mul_comm, Matrix.mul_assoc, hQQ, Matrix.trace_mul_comm] at h
  exact h

theorem surprise_sum (S : Matrix (Fin m) (Fin m) ℝ) (r : Vec m) : surprise S r = ∑ i, ∑ j, S⁻¹ i j * (r i 0 * r j 0) := by
  simp only [surprise, Matrix.mul_apply, Matrix.transpose_apply, Finset.sum_mul]
  rw [Finset.sum_comm]
  exact Finset.sum_congr rfl fun i _ => Finset.sum_congr rfl fun j _ => by ring

theorem surprise_int {r : Ω → Vec m} (hr : Comp (sq2 P) r) (S : Matrix (Fin m) (Fin m) ℝ) : Integrable (fun ω => surprise S (r ω)) P := by
  simp only [surprise_sum]
  exact integrable_finsetSum _ fun i _ => integrable_finsetSum _ fun j _ => (l2_int (hr i) (hr j)).const_mul _

theorem surprise_trace {r : Ω → Vec m} (hr : Comp (sq2 P) r) (S : Matrix (Fin m) (Fin m) ℝ) :
    ∫ ω, surprise S (r ω) ∂P = (S⁻¹ * mom P r r).trace := by
  simp only [surprise_sum]
  refine (integral_finsetSum _ (fun i _ => integrable_finsetSum _ fun j _ => (l2_int (hr i) (hr j)).const_mul _)).trans ?_
  simp only [Matrix.trace, Matrix.diag, Matrix.mul_apply]
  refine Finset.sum_congr rfl fun i _ => ?_
  refine (integral_finsetSum _ (fun j _ => (l2_int (hr i) (hr j)).const_mul _)).trans ?_
  refine Finset.sum_congr rfl fun j _ => ?_
  refine (integral_const_mul _ _).trans ?_
  congr 1
  exact integral_congr_ae (Filter.Eventually.of_forall fun ω => mul_comm _ _)

theorem surprise_nonneg {S : Matrix (Fin m) (Fin m) ℝ} (hS : S.PosDef) (r : Vec m) : 0 ≤ surprise S r := by
  have h := Alg.psd_congr hS.inv.posSemidef rᵀ
  rw [Matrix.transpose_transpose] at h
  exact h.diag_nonneg (i := 0)

theorem surprise_le {r : Ω → Vec m} (hr : Comp (sq2 P) r) {S : Matrix (Fin m) (Fin m) ℝ} (hS : S.PosDef) (hd : (S - mom P r r).PosSemidef) :
    ∫ ω, surprise S (r ω) ∂P ≤ m := by
  have h := trace_psd hS.inv.posSemidef hd
  rw [Matrix.mul_sub, Matrix.trace_sub, Matrix.nonsing_inv_mul _ (Matrix.isUnit_iff_isUnit_det S |>.mp hS.isUnit), Matrix.trace_one, Fintype.card_fin,
    ← surprise_trace hr] at h
  linarith

theorem surprise_eq {r : Ω → Vec m} (hr : Comp (sq2 P) r) {S : Matrix (Fin m) (Fin m) ℝ} (hS : S.PosDef) (hd : S = mom P r r) :
    ∫ ω, surprise S (r ω) ∂P = m := by
  rw [surprise_trace hr, ← hd, Matrix.nonsing_inv_mul _ (Matrix.isUnit_iff_isUnit_det S |>.mp hS.isUnit), Matrix.trace_one, Fintype.card_fin]

/-! ## The residual -/

/-- The noise of a later measurement is uncorrelated with the error of the estimate before it. -/
theorem later (l : List (Stp Ω n)) (hv : ∀ s ∈ l, s.Valid P) (x : Ω → Vec n) (g : (Ω → Vec n) × Matrix (Fin n) (Fin n) ℝ)
    (hL : Comp (sq2 P) (err x g.1)) {v : Ω → Vec m} (hN : Comp (sq2 P) v) (h0 : mom P (err x g.1) v = 0)
    (hl : ∀ s ∈ l, mom P s.noise.2 v = 0) : mom P (err (truth l x) (final l x g).1) v = 0 := by
  induction l generalizing x g with
  | nil => exact h0
  | cons s r ih =>
    obtain ⟨A, B, hAB⟩ := err_step s x g
    have hs := (hv s List.mem_cons_self).noise_l2
    have hL1 : Comp (sq2 P) (err (s.truth x) (post s x g).1) := by rw [hAB]; exact (hL.mul A).add (hs.mul B)
    refine ih (fun s' h' => hv s' (List.mem_cons_of_mem _ h')) _ _ hL1 ?_ fun s' h' => hl s' (List.mem_cons_of_mem _ h')
    rw [hAB, mom_add_left (hL.mul A) (hs.mul B) hN, mom_mul_left hL hN, mom_mul_left hs hN, h0, hl s List.mem_cons_self]
    simp

omit [MeasurableSpace Ω] in
theorem resid_eq (H : Mat) (v : Ω → Vec m) (x e : Ω → Vec n) : resid H v x e = fun ω => H.toM m n * err x e ω + v ω := by
  funext ω
  simp only [resid, err, Matrix.mul_sub]
  abel

theorem resid_mom {H : Mat} {v : Ω → Vec m} {x e : Ω → Vec n} (hL : Comp (sq2 P) (err x e)) (hN : Comp (sq2 P) v) (h0 : mom P (err x e) v = 0) :
    Comp (sq2 P) (resid H v x e) ∧
    mom P (resid H v x e) (resid H v x e) = H.toM m n * mom P (err x e) (err x e) * (H.toM m n)ᵀ + mom P v v := by
  have hm := mom_lin hL hN h0 (H.toM m n) 1
  simp only [Matrix.one_mul, Matrix.transpose_one, Matrix.mul_one] at hm
  rw [resid_eq]
  exact ⟨(hL.mul _).add hN, hm⟩

theorem unc_split {e : Ω → Vec n} {l : List (Stp Ω n)} {H R : Mat} {cfg : Cfg} {v : Ω → Vec m}
    (hu : Uncorrelated P e (l ++ [.meas m H R cfg v])) :
    Uncorrelated P e l ∧ mom P e v = 0 ∧ ∀ s ∈ l, mom P s.noise.2 v = 0 := by
  unfold Uncorrelated at hu ⊢
  rw [List.map_append, ← List.cons_append, List.pairwise_append] at hu
  refine ⟨hu.1, ?_, fun s hs => ?_⟩
  · exact hu.2.2 ⟨n, e⟩ List.mem_cons_self ⟨m, v⟩ (List.mem_singleton.mpr rfl)
  · exact hu.2.2 _ (List.mem_cons_of_mem _ (List.mem_map_of_mem hs)) ⟨m, v⟩ (List.mem_singleton.mpr rfl)

/-- The residual after a run: its covariance is at most the expected one. -/
theorem resid_run (l : List (Stp Ω n)) (hv : ∀ s ∈ l, s.Valid P) (x : Ω → Vec n) (g : (Ω → Vec n) × Matrix (Fin n) (Fin n) ℝ)
    (hL : Comp (sq2 P) (err x g.1)) (hS : (g.2 - mom P (err x g.1) (err x g.1)).PosSemidef) (H R : Mat) (cfg : Cfg) (v : Ω → Vec m)
    (hs : Sensor P n H R cfg v) (hu : Uncorrelated P (err x g.1) (l ++ [.meas m H R cfg v])) :
    (final l x g).2.PosSemidef ∧ Comp (sq2 P) (resid H v (truth l x) (final l x g).1) ∧
    (expected H R cfg (final l x g).2 : Matrix (Fin m) (Fin m) ℝ).PosDef ∧
    (expected H R cfg (final l x g).2 -
      mom P (resid H v (truth l x) (final l x g).1) (resid H v (truth l x) (final l x g).1)).PosSemidef ∧
    ((∀ s ∈ l, s.Exact P) → g.2 = mom P (err x g.1) (err x g.1) → cfg.eps = 0 → R.toM m m = mom P v v →
      expected H R cfg (final l x g).2 = mom P (resid H v (truth l x) (final l x g).1) (resid H v (truth l x) (final l x g).1)) := by
  obtain ⟨hu1, hu2, hu3⟩ := unc_split hu
  obtain ⟨c1, c2, c3⟩ := cov_run l hv x g hL hS hu1
  obtain ⟨_, _, heps, hRe, hN, hR⟩ := hs
  have hN : Comp (sq2 P) v := hN
  obtain ⟨r1, r2⟩ := resid_mom (H := H) c1 hN (later l hv x g hL hN hu2 hu3)
  have hF := psd_of_sub c2 (mom_psd c1)
  refine ⟨hF, r1, ?_, ?_, ?_⟩
  · unfold expected
    rw [add_assoc]
    exact hRe.posSemidef_add (Alg.psd_congr hF _)
  · rw [r2]
    have : expected H R cfg (final l x g).2 - (H.toM m n * mom P (err (truth l x) (final l x g).1) (err (truth l x) (final l x g).1) * (H.toM m n)ᵀ + mom P v v) =
        H.toM m n * ((final l x g).2 - mom P (err (truth l x) (final l x g).1) (err (truth l x) (final l x g).1)) * (H.toM m n)ᵀ +
          (R.toM m m - mom P v v) + cfg.eps • 1 := by
      simp only [expected, Matrix.mul_sub, Matrix.sub_mul]
      abel
    rw [this]
    exact ((Alg.psd_congr c2 _).add hR).add (Alg.smul_one_psd heps)
  · intro hE h0 he hRv
    rw [r2, expected, he, hRv, ← c3 hE h0, zero_smul, add_zero]

/-! ## The theorems -/

variable (P) in
/-- C140. The filter is never more surprised than it expects: for a filter as in C115 and one more measurement, the residual has finite second moments, the covariance
the filter expects it to have is at least the true one, and on average `rᵀ S⁻¹ r` is at most the number of components; both hold with equality if the noises
are exactly what the filter was told. -/
theorem c140_surprise (l : List (Stp Ω n)) (hv : ∀ s ∈ l, s.Valid P) (x : Ω → Vec n) (t : Int) (h : Ω → Buf Belief)
    (ho : ∀ ω, Ok n (h ω)) (e : Ω → Vec n) (S : Matrix (Fin n) (Fin n) ℝ) (he : ∀ ω, estimates n (h ω) t = some ⟨e ω, S⟩)
    (hL : L2 P fun ω => x ω - e ω) (hS : (S - mom P (fun ω => x ω - e ω) fun ω => x ω - e ω).PosSemidef)
    (H R : Mat) (cfg : Cfg) (v : Ω → Vec m) (hs : Sensor P n H R cfg v)
    (hu : Uncorrelated P (fun ω => x ω - e ω) (l ++ [.meas m H R cfg v])) :
    ∃ (h' : Ω → Buf Belief) (e' : Ω → Vec n) (S' : Matrix (Fin n) (Fin n) ℝ),
      (∀ ω, calls (h ω) (script l t x ω) = .ok (h' ω, List.replicate l.length true) ∧ estimates n (h' ω) (time l t) = some ⟨e' ω, S'⟩) ∧
      L2 P (resid H v (truth l x) e') ∧
      (expected H R cfg S' - mom P (resid H v (truth l x) e') (resid H v (truth l x) e')).PosSemidef ∧
      ∫ ω, surprise (expected H R cfg S') (resid H v (truth l x) e' ω) ∂P ≤ m ∧
      ((∀ s ∈ l, s.Exact P) → S = mom P (fun ω => x ω - e ω) (fun ω => x ω - e ω) → cfg.eps = 0 → R.toM m m = mom P v v →
        expected H R cfg S' = mom P (resid H v (truth l x) e') (resid H v (truth l x) e') ∧
        ∫ ω, surprise (expected H R cfg S') (resid H v (truth l x) e' ω) ∂P = m) := by
  choose h' hr using fun ω => run l hv x t ω (h ω) (ho ω) (e, S) (he ω)
  obtain ⟨_, r1, r2, r3, r4⟩ := resid_run l hv x (e, S) hL hS H R cfg v hs hu
  exact ⟨h', _, _, fun ω => ⟨(hr ω).1, (hr ω).2.2⟩, r1, r3, surprise_le r1 r2 r3,
    fun a b c d => ⟨r4 a b c d, surprise_eq r1 r2 (r4 a b c d)⟩⟩

theorem row_pos {conf : ℚ} {row : List ℤ} (hrow : nisTable.lookup (round (conf * 1000)) = some row) (hm : m < 50) : 0 < tableQuantile row (m + 1) := by
  have hmem : (round (conf * 1000), row) ∈ nisTable := by
    obtain ⟨l1, l2, h, _⟩ := List.lookup_eq_some_iff.mp hrow
    rw [h]; simp
  obtain ⟨_, hr⟩ := table_checked _ hmem
  have hl := (table_rows _ hmem).1
  simp only at hr hl
  have := (rowOk_get hr m (by omega)).1
  unfold tableQuantile
  rw [Nat.add_sub_cancel]
  have h2 : (0 : ℝ) < (row.getD m 0 : ℤ) := by exact_mod_cast (by omega : (0 : ℤ) < row.getD m 0)
  positivity

/-- The answer of the filter to a measurement with the outlier gate on. -/
theorem gate_answer {h : Buf Belief} (ho : Ok n h) {t : Int} {e : Vec n} {S : Matrix (Fin n) (Fin n) ℝ} (he : estimates n h t = some ⟨e, S⟩)
    {H R z : Mat} {cfg : Cfg} (hH : H.rows = m ∧ H.cols = n) (hR : R.rows = m ∧ R.cols = m) (hRp : (R.toM m m).PosSemidef) (hz : z.rows = m ∧ z.cols = 1)
    (hg : cfg.outlier = true) (hc : 0 < cfg.conf) {row : List ℤ} (hrow : nisTable.lookup (round (cfg.conf * 1000)) = some row) (hm : m < 50) :
    ∃ h' a, call h (.priv H R z t cfg) = .ok (h', a) ∧
      (a = true ↔ surprise (expected H R cfg S) (z.toM m 1 - H.toM m n * e) ≤ tableQuantile row (m + 1)) := by
  obtain ⟨b, hb, hbe⟩ := Option.map_eq_some_iff.mp he
  obtain ⟨hm1, hS1, hP1⟩ := ho.at hb
  have sH : H.Shape m n := hH
  have sR : R.Shape m m := hR
  have sz : z.Shape m 1 := hz
  have e1 : b.mean.toM n 1 = e := congrArg Gauss.mean hbe
  have e2 : b.Sigma.toM n n = S := congrArg Gauss.cov hbe
  have sr : (z - H * b.mean).Shape m 1 := sz.sub
  have hO : ObsShape H R (z - H * b.mean) b.Sigma n m := ⟨sH, sR, sr, hS1⟩
  have hv : nisValue (innov H R b.Sigma cfg.eps) (z - H * b.mean) m = surprise (expected H R cfg S) (z.toM m 1 - H.toM m n * e) := by
    unfold nisValue surprise expected
    rw [toM_innov hO hP1 hRp, sz.toM_sub (sH.mul hm1), sH.toM_mul, e1, e2, add_assoc]
  obtain ⟨a, ha, hi⟩ := (c20_gate_partial _ _ (innov_shape hO cfg.eps) sr cfg.conf).2 hc row hrow
  rw [hv, if_pos hm] at hi
  simp only [call, privKF, hb]
  rw [sH.mulC hm1, Res.bind_ok, sz.subC (sH.mul hm1), Res.bind_ok]
  unfold privEKF
  rw [correctionStep_eq hO, if_pos hg, ha, Res.bind_ok, Res.bind_ok, Res.bind_ok]
  cases a with
  | false => exact ⟨h, false, by simp, hi⟩
  | true =>
    simp only [Bool.not_true, Bool.not_false, if_true]
    unfold Belief.correct
    rw [hm1.addC ((gainM_shape hO _).mul sr), Res.bind_ok, Res.bind_ok]
    exact ⟨_, true, rfl, hi⟩

/-- Two lists of calls, one after the other. -/
theorem calls_append {cs ds : List KCall} {h0 h1 : Buf Belief} {as : List Bool} (hc : calls h0 cs = .ok (h1, as)) :
    calls h0 (cs ++ ds) = (calls h1 ds >>= fun y => .ok (y.1, as ++ y.2)) := by
  induction cs generalizing h0 as with
  | nil =>
    simp only [calls, Res.ok.injEq, Prod.mk.injEq] at hc
    rw [← hc.1, ← hc.2, List.nil_append]
    cases calls h0 ds <;> rfl
  | cons c cs ih =>
    simp only [calls] at hc
    cases h3 : call h0 c with
    | throws => rw [h3] at hc; simp at hc
    | ub => rw [h3] at hc; simp at hc
    | ok y =>
      rw [h3, Res.bind_ok] at hc
      cases h4 : calls y.1 cs with
      | throws => rw [h4] at hc; simp at hc
      | ub => rw [h4] at hc; simp at hc
      | ok w =>
        rw [h4, Res.bind_ok] at hc
        simp only [Res.ok.injEq, Prod.mk.injEq] at hc
        rw [List.cons_append]
        simp only [calls]
        rw [h3, Res.bind_ok, ih (by rw [h4, ← hc.1]), ← hc.2]
        cases calls h1 ds <;> rfl

variable (P) in
/-- C140. The outlier test rarely rejects good measurements: for a filter as in C115 and one more measurement, taken with the test switched on at a listed
confidence, of `m ≤ 49` components, every call is answered, and the probability that the answer is false is at most `m / q` for the threshold `q` in use, whatever the
distributions of the state and the noises. -/
theorem c140_gate [IsProbabilityMeasure P] (l : List (Stp Ω n)) (hv : ∀ s ∈ l, s.Valid P) (x : Ω → Vec n) (t : Int) (h : Ω → Buf Belief)
    (ho : ∀ ω, Ok n (h ω)) (e : Ω → Vec n) (S : Matrix (Fin n) (Fin n) ℝ) (he : ∀ ω, estimates n (h ω) t = some ⟨e ω, S⟩)
    (hL : L2 P fun ω => x ω - e ω) (hS : (S - mom P (fun ω => x ω - e ω) fun ω => x ω - e ω).PosSemidef)
    (H R : Mat) (cfg : Cfg) (v : Ω → Vec m) (hs : Sensor P n H R cfg v)
    (hu : Uncorrelated P (fun ω => x ω - e ω) (l ++ [.meas m H R cfg v]))
    (hg : cfg.outlier = true) (hc : 0 < cfg.conf) (row : List ℤ) (hrow : nisTable.lookup (round (cfg.conf * 1000)) = some row) (hm : m < 50) :
    ∃ answer : Ω → Bool,
      (∀ ω, ∃ h', calls (h ω) (script l t x ω ++ [.priv H R (Mat.ofM (H.toM m n * truth l x ω + v ω)) (time l t) cfg]) =
        .ok (h', List.replicate l.length true ++ [answer ω])) ∧
      P.real {ω | answer ω = false} ≤ m / tableQuantile row (m + 1) := by
  choose h1 hr using fun ω => run l hv x t ω (h ω) (ho ω) (e, S) (he ω)
  obtain ⟨_, r1, r2, r3, _⟩ := resid_run l hv x (e, S) hL hS H R cfg v hs hu
  have hRp : (R.toM m m).PosSemidef := psd_of_sub hs.2.2.2.2.2 (mom_psd hs.2.2.2.2.1)
  choose h2 a hh ha using fun ω => gate_answer (hr ω).2.1 (hr ω).2.2 (z := Mat.ofM (H.toM m n * truth l x ω + v ω)) hs.1 hs.2.1 hRp ⟨rfl, rfl⟩ hg hc hrow hm
  refine ⟨a, fun ω => ⟨h2 ω, ?_⟩, ?_⟩
  · rw [calls_append (hr ω).1]
    simp only [calls, hh ω, Res.bind_ok]
  · have hq := row_pos hrow hm
    rw [le_div_iff₀ hq, mul_comm]
    have hi := mul_meas_ge_le_integral_of_nonneg (Filter.Eventually.of_forall fun ω => surprise_nonneg r2 _) (surprise_int r1 _)
      (tableQuantile row (m + 1)) (μ := P)
    refine le_trans (mul_le_mul_of_nonneg_left (measureReal_mono ?_) hq.le) (hi.trans (surprise_le r1 r2 r3))
    intro ω hω
    have h3 : ¬ (a ω = true) := by rw [show a ω = false from hω]; simp
    rw [ha ω, not_le, Mat.toM_ofM] at h3
    exact h3.le

/-! ## News -/

theorem data_one (l : List (Stp Ω n)) (x : Ω → Vec n) : (fun _ => 1 : Ω → ℝ) ∈ Submodule.span ℝ (data l x) := by
  induction l generalizing x with
  | nil => exact Submodule.subset_span rfl
  | cons s r ih => exact Submodule.span_mono Set.subset_union_right (ih _)

/-- A random vector that is uncorrelated with the first state, the noises and the number 1 is uncorrelated with all data. -/
theorem data_perp {v : Ω → Vec k} (hN : Comp (sq2 P) v) (h1 : (fun _ => 1 : Ω → ℝ) ∈ perp P v hN) (l : List (Stp Ω n)) (x : Ω → Vec n)
    (hx : Comp (perp P v hN) x) (hl : ∀ s ∈ l, Comp (perp P v hN) s.noise.2) : Submodule.span ℝ (data l x) ≤ perp P v hN := by
  refine Submodule.span_le.mpr ?_
  induction l generalizing x with
  | nil =>
    rintro _ rfl
    exact h1
  | cons s r ih =>
    have hs := hl s List.mem_cons_self
    have ht : Comp (perp P v hN) (s.truth x) := by
      cases s with
      | move F Q tb w => exact (hx.mul _).add hs
      | meas m H R cfg v => exact hx
    refine Set.union_subset ?_ (ih _ ht fun s' h' => hl s' (List.mem_cons_of_mem _ h'))
    cases s with
    | move F Q tb w => exact Set.empty_subset _
    | meas m H R cfg v =>
      rintro _ ⟨i, rfl⟩
      exact ((hx.mul _).add hs) i

/-- The residual after a run is uncorrelated with all data; the estimate is a linear function of them. -/
theorem news [IsProbabilityMeasure P] (l : List (Stp Ω n)) (hv : ∀ s ∈ l, s.Valid P) (hE : ∀ s ∈ l, s.Exact P) (x : Ω → Vec n)
    (e : Vec n) (S : Matrix (Fin n) (Fin n) ℝ) (hL : L2 P fun ω => x ω - e) (hS : S = mom P (fun ω => x ω - e) fun ω => x ω - e)
    (h0 : ∀ i, ∫ ω, (x ω - e) i 0 ∂P = 0) (H R : Mat) (cfg : Cfg) (v : Ω → Vec m) (hN : L2 P v) (hv0 : ∀ i, ∫ ω, v ω i 0 ∂P = 0)
    (hu : Uncorrelated P (fun ω => x ω - e) (l ++ [.meas m H R cfg v])) :
    Comp (Submodule.span ℝ (data l x)) (final l x (fun _ => e, S)).1 ∧
    ∃ hr : Comp (sq2 P) (resid H v (truth l x) (final l x (fun _ => e, S)).1),
      Submodule.span ℝ (data l x) ≤ perp P (resid H v (truth l x) (final l x (fun _ => e, S)).1) hr := by
  obtain ⟨hu1, hu2, hu3⟩ := unc_split hu
  have hN : Comp (sq2 P) v := hN
  have hL' : Comp (sq2 P) (err x fun _ => e) := hL
  have hd : (S - mom P (fun ω => x ω - e) fun ω => x ω - e).PosSemidef := by rw [hS, sub_self]; exact Matrix.PosSemidef.zero
  obtain ⟨c1, _, _⟩ := cov_run l hv x (fun _ => e, S) hL hd hu1
  have one2 : (fun _ => 1 : Ω → ℝ) ∈ sq2 P := memLp_const 1
  have hsp : Submodule.span ℝ {fun _ => 1} ⊔ Submodule.span ℝ (data l x) = Submodule.span ℝ (data l x) :=
    sup_eq_right.mpr (Submodule.span_le.mpr (by rintro _ rfl; exact data_one l x))
  have hone : ∀ (j : ℕ) (X : Ω → Vec j) (hX : Comp (sq2 P) X), (∀ i, ∫ ω, X ω i 0 ∂P = 0) → (fun _ => 1 : Ω → ℝ) ∈ perp P X hX :=
    fun j X hX hz => ⟨one2, fun i => by simpa using hz i⟩
  have hle : ∀ (j : ℕ) (X : Ω → Vec j) (hX : Comp (sq2 P) X), (∀ i, ∫ ω, X ω i 0 ∂P = 0) → Submodule.span ℝ {fun _ => 1} ≤ perp P X hX := by
    intro j X hX hz
    refine Submodule.span_le.mpr ?_
    rintro _ rfl
    exact hone j X hX hz
  have hconst : ∀ (V : Submodule ℝ (Ω → ℝ)), (fun _ => 1 : Ω → ℝ) ∈ V → Comp V fun _ => e := by
    intro V hV i
    have : (fun _ : Ω => e i 0) = e i 0 • fun _ : Ω => (1 : ℝ) := by funext ω; simp
    rw [this]
    exact V.smul_mem _ hV
  obtain ⟨o1, o2⟩ := opt_run l hv hE x (fun _ => e, S) hL hS hu1 (Submodule.span ℝ {fun _ => 1}) (Submodule.subset_span rfl)
    (hconst _ (Submodule.subset_span rfl)) (hle n _ hL h0)
    (fun s hs h' => hle _ _ h' (by
      have := hE s hs
      cases s with
      | move F Q tb w => exact this.2
      | meas m H R cfg v => exact this.2.2)) c1
  rw [hsp] at o1 o2
  have hvd : Submodule.span ℝ (data l x) ≤ perp P v hN := by
    refine data_perp hN (hone _ _ hN hv0) l x ?_ fun s hs => mom_perp hN (hv s hs).noise_l2 ?_
    · have : Comp (perp P v hN) fun ω => (x ω - e) + e :=
        (mom_perp hN hL' (by rw [← mom_tr, hu2, Matrix.transpose_zero])).add (hconst _ (hone _ _ hN hv0))
      simpa only [sub_add_cancel] using this
    · rw [← mom_tr, hu3 s hs, Matrix.transpose_zero]
  have hr : Comp (sq2 P) (resid H v (truth l x) (final l x (fun _ => e, S)).1) := by
    rw [resid_eq]
    exact (c1.mul _).add hN
  refine ⟨o1, hr, fun s hs => perp_lin c1 hN (H.toM m n) 1 hr ?_ (o2 hs) (hvd hs)⟩
  rw [resid_eq]
  simp only [Matrix.one_mul]

variable (P) in
/-- C140. The residual is news: if the noises are exactly what the filter was told, the residual of the next measurement has mean zero and is uncorrelated with every
linear function of all measurements seen before. -/
theorem c140_news [IsProbabilityMeasure P] (l : List (Stp Ω n)) (hv : ∀ s ∈ l, s.Valid P) (hE : ∀ s ∈ l, s.Exact P) (x : Ω → Vec n) (t : Int)
    (h : Buf Belief) (ho : Ok n h) (e : Vec n) (S : Matrix (Fin n) (Fin n) ℝ) (he : estimates n h t = some ⟨e, S⟩)
    (hL : L2 P fun ω => x ω - e) (hS : S = mom P (fun ω => x ω - e) fun ω => x ω - e) (h0 : ∀ i, ∫ ω, (x ω - e) i 0 ∂P = 0)
    (H R : Mat) (cfg : Cfg) (v : Ω → Vec m) (hN : L2 P v) (hv0 : ∀ i, ∫ ω, v ω i 0 ∂P = 0)
    (hu : Uncorrelated P (fun ω => x ω - e) (l ++ [.meas m H R cfg v])) :
    ∃ (h' : Ω → Buf Belief) (e' : Ω → Vec n) (S' : Matrix (Fin n) (Fin n) ℝ),
      (∀ ω, calls h (script l t x ω) = .ok (h' ω, List.replicate l.length true) ∧ estimates n (h' ω) (time l t) = some ⟨e' ω, S'⟩) ∧
      (∀ i, ∫ ω, resid H v (truth l x) e' ω i 0 ∂P = 0) ∧
      ∀ s ∈ Submodule.span ℝ (data l x), ∀ i, ∫ ω, resid H v (truth l x) e' ω i 0 * s ω ∂P = 0 := by
  choose h' hr using fun ω => run l hv x t ω h ho (fun _ => e, S) he
  obtain ⟨_, hc, hp⟩ := news l hv hE x e S hL hS h0 H R cfg v hN hv0 hu
  refine ⟨h', _, _, fun ω => ⟨(hr ω).1, (hr ω).2.2⟩, fun i => ?_, fun s hs => (hp hs).2⟩
  simpa using (hp (data_one l x)).2 i

omit [MeasurableSpace Ω] in
theorem final_append (l1 l2 : List (Stp Ω n)) (x : Ω → Vec n) (g : (Ω → Vec n) × Matrix (Fin n) (Fin n) ℝ) :
    final (l1 ++ l2) x g = final l2 (truth l1 x) (final l1 x g) := by
  induction l1 generalizing x g with
  | nil => rfl
  | cons s r ih => exact ih _ _

omit [MeasurableSpace Ω] in
theorem data_append (l1 l2 : List (Stp Ω n)) (x : Ω → Vec n) : data (l1 ++ l2) x = data l1 x ∪ data l2 (truth l1 x) := by
  induction l1 generalizing x with
  | nil =>
    have : ∀ (l : List (Stp Ω n)) (x : Ω → Vec n), (fun _ => 1 : Ω → ℝ) ∈ data l x := by
      intro l
      induction l with
      | nil => exact fun _ => rfl
      | cons s r ih => exact fun x => Or.inr (ih _)
    exact (Set.union_eq_self_of_subset_left (Set.singleton_subset_iff.mpr (this l2 x))).symm
  | cons s r ih =>
    show s.data x ∪ data (r ++ l2) (s.truth x) = s.data x ∪ data r (s.truth x) ∪ data l2 (truth r (s.truth x))
    rw [ih, Set.union_assoc]

variable (P) in
/-- C140. Surprises do not repeat: if the noises are exactly what the filter was told, the residuals of two measurements at different points of a run are
uncorrelated. -/
theorem c140_white [IsProbabilityMeasure P] (l1 l2 : List (Stp Ω n)) (H1 R1 : Mat) (cfg1 : Cfg) (v1 : Ω → Vec k)
    (hv : ∀ s ∈ l1 ++ .meas k H1 R1 cfg1 v1 :: l2, s.Valid P) (hE : ∀ s ∈ l1 ++ .meas k H1 R1 cfg1 v1 :: l2, s.Exact P) (x : Ω → Vec n) (t : Int)
    (h : Buf Belief) (ho : Ok n h) (e : Vec n) (S : Matrix (Fin n) (Fin n) ℝ) (he : estimates n h t = some ⟨e, S⟩)
    (hL : L2 P fun ω => x ω - e) (hS : S = mom P (fun ω => x ω - e) fun ω => x ω - e) (h0 : ∀ i, ∫ ω, (x ω - e) i 0 ∂P = 0)
    (H R : Mat) (cfg : Cfg) (v : Ω → Vec m) (hN : L2 P v) (hv0 : ∀ i, ∫ ω, v ω i 0 ∂P = 0)
    (hu : Uncorrelated P (fun ω => x ω - e) ((l1 ++ .meas k H1 R1 cfg1 v1 :: l2) ++ [.meas m H R cfg v])) :
    ∃ (h1 h2 : Ω → Buf Belief) (e1 e2 : Ω → Vec n) (S1 S2 : Matrix (Fin n) (Fin n) ℝ),
      (∀ ω, calls h (script l1 t x ω) = .ok (h1 ω, List.replicate l1.length true) ∧ estimates n (h1 ω) (time l1 t) = some ⟨e1 ω, S1⟩) ∧
      (∀ ω, calls h (script (l1 ++ .meas k H1 R1 cfg1 v1 :: l2) t x ω) =
          .ok (h2 ω, List.replicate (l1 ++ .meas k H1 R1 cfg1 v1 :: l2).length true) ∧
        estimates n (h2 ω) (time (l1 ++ .meas k H1 R1 cfg1 v1 :: l2) t) = some ⟨e2 ω, S2⟩) ∧
      mom P (resid H v (truth (l1 ++ .meas k H1 R1 cfg1 v1 :: l2) x) e2) (resid H1 v1 (truth l1 x) e1) = 0 := by
  have hv1 : ∀ s ∈ l1, s.Valid P := fun s hs => hv s (List.mem_append_left _ hs)
  have hE1 : ∀ s ∈ l1, s.Exact P := fun s hs => hE s (List.mem_append_left _ hs)
  have hm := hv (.meas k H1 R1 cfg1 v1) (List.mem_append_right _ List.mem_cons_self)
  have hmE := hE (.meas k H1 R1 cfg1 v1) (List.mem_append_right _ List.mem_cons_self)
  have hu1 : Uncorrelated P (fun ω => x ω - e) (l1 ++ [.meas k H1 R1 cfg1 v1]) := by
    refine List.Pairwise.sublist ?_ hu
    refine (List.Sublist.map _ ?_).cons_cons _
    rw [List.append_assoc]
    exact (List.Sublist.refl l1).append (by simp)
  choose h1 hr1 using fun ω => run l1 hv1 x t ω h ho (fun _ => e, S) he
  choose h2 hr2 using fun ω => run _ hv x t ω h ho (fun _ => e, S) he
  obtain ⟨n1, _, _⟩ := news l1 hv1 hE1 x e S hL hS h0 H1 R1 cfg1 v1 hm.2.2.2.2.2.1 hmE.2.2 hu1
  obtain ⟨_, hc, hp⟩ := news _ hv hE x e S hL hS h0 H R cfg v hN hv0 hu
  refine ⟨h1, h2, _, _, _, _, fun ω => ⟨(hr1 ω).1, (hr1 ω).2.2⟩, fun ω => ⟨(hr2 ω).1, (hr2 ω).2.2⟩, perp_mom hc fun i => hp ?_⟩
  rw [data_append]
  have a1 : Comp (Submodule.span ℝ (data l1 x ∪ data (.meas k H1 R1 cfg1 v1 :: l2) (truth l1 x))) (final l1 x (fun _ => e, S)).1 :=
    n1.mono (Submodule.span_mono Set.subset_union_left)
  have a2 : Comp (Submodule.span ℝ (data l1 x ∪ data (.meas k H1 R1 cfg1 v1 :: l2) (truth l1 x))) fun ω => H1.toM k n * truth l1 x ω + v1 ω :=
    fun i => Submodule.subset_span (Or.inr (Or.inl ⟨i, rfl⟩))
  exact (a2.sub (a1.mul (H1.toM k n))) i

/-! ## Example -/

/-- The filter of the example of C115, with estimate 7 for a state that is 7 plus the first number, predicts the state at time 10 and then gets its measurement with the
outlier test switched on: the answer is false with probability at most 9 percent. -/
example : ∃ answer : (Fin 3 → ℝ) → Bool,
    (∀ ω, ∃ h', calls startH (script (demo.take 1) 0 start ω ++ [.priv (Mat.ofM (1 : Matrix (Fin 1) (Fin 1) ℝ)) (Mat.ofM (1 : Matrix (Fin 1) (Fin 1) ℝ))
      (Mat.ofM ((Mat.ofM (1 : Matrix (Fin 1) (Fin 1) ℝ)).toM 1 1 * truth (demo.take 1) start ω + draw 2 ω)) 10 {}]) = .ok (h', [true, answer ω])) ∧
    gauss3.real {ω | answer ω = false} ≤ 9 / 100 := by
  have hO0 : Ok 1 ([] : Buf Belief) := ⟨List.Pairwise.nil, by simp⟩
  have ho : Ok 1 startH := hO0.set 0 ⟨rfl, rfl⟩ ⟨rfl, rfl⟩ (by rw [Mat.toM_ofM]; exact Matrix.PosSemidef.one)
  have he : estimates 1 startH 0 = some ⟨seven, 1⟩ := by
    rw [startH, estimates_set hO0, Function.update_self]
    simp only [Mat.toM_ofM]
  have hx : (fun ω => start ω - seven) = draw 0 := by
    funext ω
    simp only [start, add_sub_cancel_right]
  obtain ⟨a, h1, h2⟩ := c140_gate gauss3 (m := 1) (demo.take 1) (fun s hs => demo_valid.1 s (List.mem_of_mem_take hs)) start 0 (fun _ => startH) (fun _ => ho)
    (fun _ => seven) 1 (fun _ => he) (by rw [hx]; exact (gauss3_facts 0).1)
    (by rw [hx, (gauss3_facts 0).2.2.1, sub_self]; exact Matrix.PosSemidef.zero) (Mat.ofM (1 : Matrix (Fin 1) (Fin 1) ℝ)) (Mat.ofM (1 : Matrix (Fin 1) (Fin 1) ℝ)) {} (draw 2)
    ⟨⟨rfl, rfl⟩, ⟨rfl, rfl⟩, by norm_num, by
        rw [Mat.toM_ofM]
        exact Matrix.PosDef.one.add_posSemidef (Alg.smul_one_psd (by norm_num)), (gauss3_facts 2).1, by
        rw [Mat.toM_ofM, (gauss3_facts 2).2.2.1, sub_self]
        exact Matrix.PosSemidef.zero⟩
    (by rw [hx]; exact demo_uncorrelated) rfl (by norm_num) _ (by norm_num [round_eq]; rfl) (by norm_num)
  refine ⟨a, h1, h2.trans ?_⟩
  norm_num [tableQuantile]

end Honest
end Ikf
