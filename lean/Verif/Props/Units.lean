import Verif.Spec.Units
import Verif.Props.StandaloneMath
import Verif.Props.NIS
import Verif.Props.Simultaneous

/-! # Property C120: units, coordinates and superfluous states do not matter -/

namespace Ikf
namespace Units
open Matrix SKF

variable {n k m : ℕ}

/-! ## Algebra -/

section Algebra
variable {T : Matrix (Fin k) (Fin n) ℝ} {P : Matrix (Fin n) (Fin n) ℝ} {H : Matrix (Fin m) (Fin n) ℝ} {R U R' : Matrix (Fin m) (Fin m) ℝ}
  {H' : Matrix (Fin m) (Fin k) ℝ} (hU : IsUnit U.det) (e1 : H' * T = U * H) (e2 : R' = U * R * Uᵀ)

include e1 e2 in
theorem innov_conv : H' * (T * P * Tᵀ) * H'ᵀ + R' = U * (H * P * Hᵀ + R) * Uᵀ := by
  have : H' * (T * P * Tᵀ) * H'ᵀ = (H' * T) * P * (H' * T)ᵀ := by rw [Matrix.transpose_mul]; simp only [Matrix.mul_assoc]
  rw [this, e1, e2, Matrix.transpose_mul, Matrix.mul_add, Matrix.add_mul]
  simp only [Matrix.mul_assoc]

include hU e1 e2 in
theorem gain_conv : Alg.gain (T * P * Tᵀ) H' R' * U = T * Alg.gain P H R := by
  have hUt : IsUnit Uᵀ.det := by rwa [Matrix.det_transpose]
  unfold Alg.gain
  rw [innov_conv e1 e2, Matrix.mul_inv_rev, Matrix.mul_inv_rev]
  have e3 : T * P * Tᵀ * H'ᵀ = T * P * Hᵀ * Uᵀ := by
    have : (H' * T)ᵀ = (U * H)ᵀ := by rw [e1]
    rw [Matrix.transpose_mul, Matrix.transpose_mul] at this
    rw [Matrix.mul_assoc, this, Matrix.mul_assoc (T * P)]
  rw [e3]
  calc T * P * Hᵀ * Uᵀ * (Uᵀ⁻¹ * ((H * P * Hᵀ + R)⁻¹ * U⁻¹)) * U = T * P * Hᵀ * (Uᵀ * Uᵀ⁻¹) * (H * P * Hᵀ + R)⁻¹ * (U⁻¹ * U) := by
        simp only [Matrix.mul_assoc]
    _ = _ := by rw [Matrix.mul_nonsing_inv _ hUt, Matrix.nonsing_inv_mul _ hU]; simp only [Matrix.mul_one, Matrix.mul_assoc]

include hU e1 e2 in
theorem nis_conv (r : Matrix (Fin m) (Fin 1) ℝ) :
    (U * r)ᵀ * (H' * (T * P * Tᵀ) * H'ᵀ + R')⁻¹ * (U * r) = rᵀ * (H * P * Hᵀ + R)⁻¹ * r := by
  have hUt : IsUnit Uᵀ.det := by rwa [Matrix.det_transpose]
  rw [innov_conv e1 e2, Matrix.mul_inv_rev, Matrix.mul_inv_rev, Matrix.transpose_mul]
  calc rᵀ * Uᵀ * (Uᵀ⁻¹ * ((H * P * Hᵀ + R)⁻¹ * U⁻¹)) * (U * r) = rᵀ * (Uᵀ * Uᵀ⁻¹) * (H * P * Hᵀ + R)⁻¹ * (U⁻¹ * U) * r := by
        simp only [Matrix.mul_assoc]
    _ = _ := by rw [Matrix.mul_nonsing_inv _ hUt, Matrix.nonsing_inv_mul _ hU]; simp only [Matrix.mul_one]

include hU e1 e2 in
theorem updateR_conv (g : Gauss n) (hg : g.cov = P) (r : Matrix (Fin m) (Fin 1) ℝ) :
    (image T g).updateR H' R' (U * r) = image T (g.updateR H R r) := by
  subst hg
  have hK : (image T g).gain H' R' * U = T * g.gain H R := gain_conv hU e1 e2
  unfold Gauss.updateR
  refine Gauss.ext ?_ ?_
  · show T * g.mean + (image T g).gain H' R' * (U * r) = T * (g.mean + g.gain H R * r)
    rw [← Matrix.mul_assoc, hK, Matrix.mul_add, Matrix.mul_assoc]
  · show (1 - (image T g).gain H' R' * H') * (T * g.cov * Tᵀ) = T * ((1 - g.gain H R * H) * g.cov) * Tᵀ
    have : (image T g).gain H' R' * H' * (T * g.cov * Tᵀ) = T * g.gain H R * H * g.cov * Tᵀ := by
      calc _ = (image T g).gain H' R' * (H' * T) * g.cov * Tᵀ := by simp only [Matrix.mul_assoc]
        _ = (image T g).gain H' R' * U * H * g.cov * Tᵀ := by rw [e1]; simp only [Matrix.mul_assoc]
        _ = _ := by rw [hK]
    rw [Matrix.sub_mul, Matrix.one_mul, this]
    simp only [Matrix.mul_sub, Matrix.sub_mul, Matrix.one_mul, Matrix.mul_assoc]

end Algebra

theorem cov_conv {T : Matrix (Fin k) (Fin n) ℝ} {F Q : Matrix (Fin n) (Fin n) ℝ} {F' Q' : Matrix (Fin k) (Fin k) ℝ} (e1 : F' * T = T * F) (e2 : Q' = T * Q * Tᵀ)
    (P : Matrix (Fin n) (Fin n) ℝ) : F' * (T * P * Tᵀ) * F'ᵀ + Q' = T * (F * P * Fᵀ + Q) * Tᵀ := by
  have : F' * (T * P * Tᵀ) * F'ᵀ = (F' * T) * P * (F' * T)ᵀ := by rw [Matrix.transpose_mul]; simp only [Matrix.mul_assoc]
  rw [this, e1, e2, Matrix.transpose_mul, Matrix.mul_add, Matrix.add_mul]
  simp only [Matrix.mul_assoc]

/-! ## The gate -/

/-- The outlier decision of `correction_step`. -/
noncomputable def gate (cfg : Cfg) (S r : Mat) : Res Bool :=
  if cfg.outlier then do
    let good ← checkNIS S r cfg.conf
    .ok (!good)
  else .ok false

theorem gate_congr (cfg : Cfg) {S r S' r' : Mat} (hS : S.Shape m m) (hr : r.Shape m 1) (hS' : S'.Shape m m) (hr' : r'.Shape m 1)
    (h : nisValue S r m = nisValue S' r' m) : gate cfg S r = gate cfg S' r' := by
  unfold gate checkNIS
  rw [nis_ok hS hr, nis_ok hS' hr', hr.1, hr'.1, h]

/-- An observation of fitting size, as a function of the gate. -/
theorem privEKF_eq {h : Buf Belief} {b : Belief} {t : Int} {H R r : Mat} {cfg : Cfg} (hO : ObsShape H R r b.Sigma n m) (hm : b.mean.Shape n 1) :
    privEKF h b t H R r cfg = gate cfg (innov H R b.Sigma cfg.eps) r >>= fun rej => if rej then .ok (h, false) else
      .ok (setBelief h { b with mean := b.mean + gainM H R b.Sigma cfg.eps * r, Sigma := postM H R b.Sigma cfg } t, true) := by
  unfold privEKF
  rw [correctionStep_eq hO]
  change (gate cfg (innov H R b.Sigma cfg.eps) r >>= _) >>= _ = _
  generalize gate cfg (innov H R b.Sigma cfg.eps) r = x
  cases x with
  | throws => rfl
  | ub => rfl
  | ok rej =>
    simp only [Res.bind_ok]
    cases rej with
    | true => rfl
    | false =>
      simp only [Bool.not_false, if_true, Bool.false_eq_true, if_false]
      unfold Belief.correct
      rw [hm.addC ((gainM_shape hO _).mul hO.r)]
      rfl

/-! ## Calls -/

theorem updateReg_zero (g : Gauss n) (H : Matrix (Fin m) (Fin n) ℝ) (R : Matrix (Fin m) (Fin m) ℝ) (r : Matrix (Fin m) (Fin 1) ℝ) (j s : Bool) :
    g.updateReg H R r 0 j s = g.updateR H R r := by
  unfold Gauss.updateReg
  simp

theorem SameAs.update {T : Matrix (Fin k) (Fin n) ℝ} {f : Int → Option (Gauss n)} {f' : Int → Option (Gauss k)} (h : SameAs T f f') (t : Int) (g : Gauss n) :
    SameAs T (Function.update f t (some g)) (Function.update f' t (some (image T g))) := by
  intro t'
  by_cases ht : t' = t
  · subst ht; simp
  · simp [ht, h t']

/-- The state of two filters, the second estimating `T x`. -/
structure Both (T : Matrix (Fin k) (Fin n) ℝ) (h h' : Buf Belief) : Prop where
  ok : Ok n h
  ok' : Ok k h'
  same : SameAs T (estimates n h) (estimates k h')

variable {T : Matrix (Fin k) (Fin n) ℝ} {h h' h1 : Buf Belief}

theorem Both.at (hb : Both T h h') {t : Int} {b : Belief} (h1 : beliefAt h t = some b) :
    ∃ b', beliefAt h' t = some b' ∧ b'.mean.toM k 1 = T * b.mean.toM n 1 ∧ b'.Sigma.toM k k = T * b.Sigma.toM n n * Tᵀ := by
  have := hb.same t
  unfold estimates at this
  rw [h1] at this
  obtain ⟨b', hb', e⟩ := Option.map_eq_some_iff.mp this
  exact ⟨b', hb', congrArg Gauss.mean e, congrArg Gauss.cov e⟩

theorem Both.none (hb : Both T h h') {t : Int} (h1 : beliefAt h t = none) : beliefAt h' t = none := by
  have := hb.same t
  unfold estimates at this
  rw [h1] at this
  exact Option.map_eq_none_iff.mp this

theorem obs_step (hb : Both T h h') {t : Int} {b b' : Belief} (hbt : beliefAt h t = some b) (hbt' : beliefAt h' t = some b')
    (em : b'.mean.toM k 1 = T * b.mean.toM n 1) (ec : b'.Sigma.toM k k = T * b.Sigma.toM n n * Tᵀ)
    {H R r H' R' r' : Mat} {U : Matrix (Fin m) (Fin m) ℝ} {cfg : Cfg} (hM : Measures T m H R H' R' U) (hr : r.Shape m 1) (hr' : r'.Shape m 1)
    (er : r'.toM m 1 = U * r.toM m 1) (heps : cfg.eps = 0) (hR : (R.toM m m).PosDef) {a : Bool} (hc : privEKF h b t H R r cfg = .ok (h1, a)) :
    ∃ h1', privEKF h' b' t H' R' r' cfg = .ok (h1', a) ∧ Both T h1 h1' := by
  obtain ⟨hU, sH, sR, sH', sR', e1, e2⟩ := hM
  obtain ⟨hm, hS, hP⟩ := hb.ok.at hbt
  obtain ⟨hm', hS', hP'⟩ := hb.ok'.at hbt'
  have hR' : (R'.toM m m).PosDef := by
    rw [e2]
    have := hR.conjTranspose_mul_mul_same (B := Uᵀ) (by
      rw [Matrix.mulVec_injective_iff_isUnit, Matrix.isUnit_iff_isUnit_det, Matrix.det_transpose]
      exact hU)
    rwa [Matrix.conjTranspose_eq_transpose_of_trivial, Matrix.transpose_transpose] at this
  have hO : ObsShape H R r b.Sigma n m := ⟨sH, sR, hr, hS⟩
  have hO' : ObsShape H' R' r' b'.Sigma k m := ⟨sH', sR', hr', hS'⟩
  have hg : gate cfg (innov H R b.Sigma cfg.eps) r = gate cfg (innov H' R' b'.Sigma cfg.eps) r' := by
    refine gate_congr cfg (innov_shape hO _) hr (innov_shape hO' _) hr' ?_
    unfold nisValue
    rw [toM_innov hO hP hR.posSemidef, toM_innov hO' hP' hR'.posSemidef, heps, zero_smul, add_zero, add_zero, ec, er, nis_conv hU e1 e2]
  have hx := hc
  rw [privEKF_eq hO hm] at hx
  have key : ∃ h1', privEKF h' b' t H' R' r' cfg = .ok (h1', a) ∧ (a = false → h1 = h ∧ h1' = h') := by
    rw [privEKF_eq hO' hm', ← hg]
    generalize gate cfg (innov H R b.Sigma cfg.eps) r = x at hx ⊢
    cases x with
    | throws => cases hx
    | ub => cases hx
    | ok rej =>
      simp only [Res.bind_ok] at hx ⊢
      cases rej with
      | true =>
        simp only [if_true] at hx ⊢
        cases hx
        exact ⟨_, rfl, fun _ => ⟨rfl, rfl⟩⟩
      | false =>
        simp only [Bool.false_eq_true, if_false] at hx ⊢
        cases hx
        exact ⟨_, rfl, fun hh => by cases hh⟩
  obtain ⟨h1', hc', hf⟩ := key
  refine ⟨h1', hc', ?_⟩
  cases a with
  | false =>
    obtain ⟨rfl, rfl⟩ := hf rfl
    exact hb
  | true =>
    obtain ⟨-, es, ho⟩ := privEKF_true hb.ok hbt H R r cfg heps.ge (by rw [hr.1]; exact hR.posSemidef)
      (by rw [hr.1, heps, zero_smul, add_zero]; exact hR) hc
    obtain ⟨-, es', ho'⟩ := privEKF_true hb.ok' hbt' H' R' r' cfg heps.ge (by rw [hr'.1]; exact hR'.posSemidef)
      (by rw [hr'.1, heps, zero_smul, add_zero]; exact hR') hc'
    refine ⟨ho, ho', ?_⟩
    rw [es, es', heps, updateReg_zero, updateReg_zero]
    have sr := hr.1
    have sr' := hr'.1
    rw [sr, sr', em, ec, er]
    have := updateR_conv (T := T) hU e1 e2 ⟨b.mean.toM n 1, b.Sigma.toM n n⟩ rfl (r.toM m 1)
    rw [show (⟨T * b.mean.toM n 1, T * b.Sigma.toM n n * Tᵀ⟩ : Gauss k) = image T ⟨b.mean.toM n 1, b.Sigma.toM n n⟩ from rfl, this]
    exact hb.same.update t _

theorem step (hb : Both T h h') {c c' : KCall} (hc : Converted T c c') (hf : c.Fits n) (hu : Unregularised c) {a : Bool} (hs : call h c = .ok (h1, a)) :
    ∃ h1', call h' c' = .ok (h1', a) ∧ Both T h1 h1' := by
  have psd : ∀ {S : Matrix (Fin n) (Fin n) ℝ}, S.PosSemidef → (T * S * Tᵀ).PosSemidef := fun hS => Alg.psd_congr hS T
  cases hc with
  | prop Phi Q Phi' Q' ta tb hP hQ hP' hQ' e1 e2 =>
    cases hbt : beliefAt h ta with
    | none =>
      have hn := hb.none hbt
      simp only [call, propKF, hbt] at hs
      refine ⟨h', by simp only [call, propKF, hn]; cases hs; rfl, ?_⟩
      cases hs
      exact hb
    | some b =>
      obtain ⟨b', hbt', em, ec⟩ := hb.at hbt
      obtain ⟨x, hx⟩ := (c100_defined (m := 0) h hb.ok ta b hbt).1 Phi Q tb hP.1 hP.2 hQ.1 hQ.2
      obtain ⟨x', hx'⟩ := (c100_defined (m := 0) h' hb.ok' ta b' hbt').1 Phi' Q' tb hP'.1 hP'.2 hQ'.1 hQ'.2
      rw [hx] at hs
      cases hs
      refine ⟨x', hx', ?_⟩
      obtain ⟨ht, ho⟩ := call_true hb.ok _ hf hx
      obtain ⟨ht', ho'⟩ := call_true hb.ok' (.prop Phi' Q' ta tb) (by show (Q'.toM k k).PosSemidef; rw [e2]; exact psd hf) hx'
      refine ⟨ho, ho', ?_⟩
      have hsame := hb.same
      generalize estimates n h1 = f1 at ht ⊢
      generalize estimates k x' = f1' at ht' ⊢
      cases ht with
      | prop _ _ _ _ g hg =>
        cases ht' with
        | prop _ _ _ _ g' hg' =>
          have hgg := hsame ta
          rw [hg, hg', Option.map_some] at hgg
          cases hgg
          have : (image T g).predict (Phi'.toM k k) (Q'.toM k k) = image T (g.predict (Phi.toM n n) (Q.toM n n)) := by
            refine Gauss.ext ?_ ?_
            · show Phi'.toM k k * (T * g.mean) = T * (Phi.toM n n * g.mean)
              rw [← Matrix.mul_assoc, e1, Matrix.mul_assoc]
            · show Phi'.toM k k * (T * g.cov * Tᵀ) * (Phi'.toM k k)ᵀ + Q'.toM k k = T * (Phi.toM n n * g.cov * (Phi.toM n n)ᵀ + Q.toM n n) * Tᵀ
              exact cov_conv e1 e2 _
          rw [this]
          exact hsame.update tb _
  | propEKF mb Phi Q mb' Phi' Q' ta tb hm hP hQ hm' hP' hQ' e0 e1 e2 =>
    cases hbt : beliefAt h ta with
    | none =>
      simp only [call, hbt] at hs
      cases hs
    | some b =>
      obtain ⟨b', hbt', em, ec⟩ := hb.at hbt
      obtain ⟨x, hx⟩ := (c100_defined (m := 0) h hb.ok ta b hbt).2.1 mb Phi Q tb hm.1 hm.2 hP.1 hP.2 hQ.1 hQ.2
      obtain ⟨x', hx'⟩ := (c100_defined (m := 0) h' hb.ok' ta b' hbt').2.1 mb' Phi' Q' tb hm'.1 hm'.2 hP'.1 hP'.2 hQ'.1 hQ'.2
      rw [hx] at hs
      cases hs
      refine ⟨x', hx', ?_⟩
      obtain ⟨ht, ho⟩ := call_true hb.ok _ hf hx
      obtain ⟨ht', ho'⟩ := call_true hb.ok' (.propEKF mb' Phi' Q' ta tb) (by show (Q'.toM k k).PosSemidef; rw [e2]; exact psd hf) hx'
      refine ⟨ho, ho', ?_⟩
      have hsame := hb.same
      generalize estimates n h1 = f1 at ht ⊢
      generalize estimates k x' = f1' at ht' ⊢
      cases ht with
      | propEKF _ _ _ _ _ g hg =>
        cases ht' with
        | propEKF _ _ _ _ _ g' hg' =>
          have hgg := hsame ta
          rw [hg, hg', Option.map_some] at hgg
          cases hgg
          have : (⟨mb'.toM k 1, ((image T g).predict (Phi'.toM k k) (Q'.toM k k)).cov⟩ : Gauss k) =
              image T ⟨mb.toM n 1, (g.predict (Phi.toM n n) (Q.toM n n)).cov⟩ := by
            refine Gauss.ext e0 ?_
            show Phi'.toM k k * (T * g.cov * Tᵀ) * (Phi'.toM k k)ᵀ + Q'.toM k k = T * (Phi.toM n n * g.cov * (Phi.toM n n)ᵀ + Q.toM n n) * Tᵀ
            exact cov_conv e1 e2 _
          rw [this]
          exact hsame.update tb _
  | propBel b b' Phi Phi' ta tb hP hP' hb1 hm1 hb2 e1 e2 =>
    obtain ⟨x, hx, _⟩ := (c100_propagated_belief h hb.ok b Phi ta tb).1 ⟨by rw [hP.1, hb1.1], by rw [hP.2, hb1.1]⟩
    obtain ⟨x', hx', _⟩ := (c100_propagated_belief h' hb.ok' b' Phi' ta tb).1 ⟨by rw [hP'.1, hb2.1], by rw [hP'.2, hb2.1]⟩
    rw [hx] at hs
    cases hs
    refine ⟨x', hx', ?_⟩
    obtain ⟨ht, ho⟩ := call_true hb.ok _ hf hx
    obtain ⟨ht', ho'⟩ := call_true hb.ok' (.propBel b' Phi' ta tb) ⟨hm1, hb2, by rw [e2]; exact psd hf.2.2⟩ hx'
    refine ⟨ho, ho', ?_⟩
    have hsame := hb.same
    generalize estimates n h1 = f1 at ht ⊢
    generalize estimates k x' = f1' at ht' ⊢
    cases ht
    cases ht'
    rw [e1, e2]
    exact hsame.update tb _
  | priv m H R z H' R' z' U t cfg hM hz hz' e =>
    have hM' := hM
    obtain ⟨hU, sH, sR, sH', sR', e1, e2⟩ := hM
    have sH0 : H.Shape m n := sH
    have sH0' : H'.Shape m k := sH'
    have sz : z.Shape m 1 := hz
    have sz' : z'.Shape m 1 := hz'
    cases hbt : beliefAt h t with
    | none =>
      have hn := hb.none hbt
      simp only [call, privKF, hbt] at hs
      refine ⟨h', by simp only [call, privKF, hn]; cases hs; rfl, ?_⟩
      cases hs
      exact hb
    | some b =>
      obtain ⟨b', hbt', em, ec⟩ := hb.at hbt
      obtain ⟨hm, hS, hP⟩ := hb.ok.at hbt
      obtain ⟨hm', hS', hP'⟩ := hb.ok'.at hbt'
      simp only [call, privKF, hbt] at hs
      rw [sH0.mulC hm, Res.bind_ok, sz.subC (sH0.mul hm), Res.bind_ok] at hs
      simp only [call, privKF, hbt']
      rw [sH0'.mulC hm', Res.bind_ok, sz'.subC (sH0'.mul hm'), Res.bind_ok]
      refine obs_step hb hbt hbt' em ec hM' sz.sub sz'.sub ?_ hu ?_ hs
      · rw [sz.toM_sub (sH0.mul hm), sz'.toM_sub (sH0'.mul hm'), sH0.toM_mul, sH0'.toM_mul, em, ← Matrix.mul_assoc, e1, e, Matrix.mul_sub, Matrix.mul_assoc]
      · have := hf.2.2
        rw [show cfg.eps = 0 from hu, zero_smul, add_zero, hz.1] at this
        exact this
  | privEKF m H R r H' R' r' U t cfg hM hr hr' e =>
    cases hbt : beliefAt h t with
    | none =>
      simp only [call, hbt] at hs
      cases hs
    | some b =>
      obtain ⟨b', hbt', em, ec⟩ := hb.at hbt
      simp only [call, hbt, deref, Res.bind_ok] at hs
      simp only [call, hbt', deref, Res.bind_ok]
      refine obs_step hb hbt hbt' em ec hM hr hr' e hu ?_ hs
      have := hf.2.2
      rw [show cfg.eps = 0 from hu, zero_smul, add_zero, hr.1] at this
      exact this
  | correct dx S dx' S' t hd hS hd' hS' e1 e2 =>
    cases hbt : beliefAt h t with
    | none =>
      have hn := hb.none hbt
      simp only [call, correctBeliefAt, hbt] at hs
      refine ⟨h', by simp only [call, correctBeliefAt, hn]; cases hs; rfl, ?_⟩
      cases hs
      exact hb
    | some b =>
      obtain ⟨b', hbt', em, ec⟩ := hb.at hbt
      obtain ⟨hm, hSb, hP⟩ := hb.ok.at hbt
      obtain ⟨hm', hSb', hP'⟩ := hb.ok'.at hbt'
      have hd0 : dx.Shape n 1 := hd
      have hd0' : dx'.Shape k 1 := hd'
      simp only [call, correctBeliefAt, hbt, Belief.correct] at hs
      rw [hm.addC hd0] at hs
      simp only [call, correctBeliefAt, hbt', Belief.correct]
      rw [hm'.addC hd0']
      cases hs
      refine ⟨_, rfl, hb.ok.set t hm.add hS hf.2.2, hb.ok'.set t hm'.add hS' (by show (S'.toM k k).PosSemidef; rw [e2]; exact psd hf.2.2), ?_⟩
      rw [estimates_set hb.ok, estimates_set hb.ok']
      have : (⟨(b'.mean + dx').toM k 1, S'.toM k k⟩ : Gauss k) = image T ⟨(b.mean + dx).toM n 1, S.toM n n⟩ := by
        refine Gauss.ext ?_ e2
        show (b'.mean + dx').toM k 1 = T * (b.mean + dx).toM n 1
        rw [hm.toM_add hd0, hm'.toM_add hd0', em, e1, Matrix.mul_add]
      simp only
      rw [this]
      exact hb.same.update t _

/-- C120 (partial: `c120_units_fails` shows what regularisation breaks). One filter estimates `x`, the other `T x`, for any matrix `T`: other units or coordinates
if `T` is invertible, a part of the states if it selects some. If the second is told about `T x` what the first is told about `x`, with measurements in any
units, then both accept and refuse the same calls, outlier rejection included, and the second always reports the estimate of `T x`. -/
theorem c120_units_partial (T : Matrix (Fin k) (Fin n) ℝ) (h h' : Buf Belief) (ho : Ok n h) (ho' : Ok k h') (hs : SameAs T (estimates n h) (estimates k h'))
    (cs cs' : List KCall) (hc : List.Forall₂ (Converted T) cs cs') (hf : ∀ c ∈ cs, c.Fits n ∧ Unregularised c) (h1 : Buf Belief) (as : List Bool)
    (hr : calls h cs = .ok (h1, as)) : ∃ h1', calls h' cs' = .ok (h1', as) ∧ SameAs T (estimates n h1) (estimates k h1') := by
  have hb : Both T h h' := ⟨ho, ho', hs⟩
  clear ho ho' hs
  induction hc generalizing h h' as with
  | nil =>
    simp only [calls] at hr ⊢
    cases hr
    exact ⟨h', rfl, hb.same⟩
  | cons hcc _ ih =>
    obtain ⟨h2, a, bs, hx, hx', rfl⟩ := Certainty.calls_cons hr
    obtain ⟨h2', hy, hb'⟩ := step hb hcc (hf _ (by simp)).1 (hf _ (by simp)).2 hx
    obtain ⟨h3, hz, hd⟩ := ih h2 h2' (fun c hc => hf c (by simp [hc])) bs hx' hb'
    refine ⟨h3, ?_, hd⟩
    simp only [calls, hy, hz, Res.bind_ok]

/-! ## What regularisation breaks -/

section Fails
open MathExample Certainty Simultaneous

/-- Twice. -/
def twice : Matrix (Fin 1) (Fin 1) ℝ := (2 : ℝ) • 1

/-- C120 fails with the default configuration (but for the gate): with all units halved, so that the variance of the state and of the measurement are four times
as large in numbers, the variance after the observation is not. -/
theorem c120_units_fails : ∃ (h h' h1 h1' : Buf Belief) (c c' : KCall), Ok 1 h ∧ Ok 1 h' ∧ SameAs twice (estimates 1 h) (estimates 1 h') ∧ c.Fits 1 ∧ c'.Fits 1 ∧
    Converted twice c c' ∧ call h c = .ok (h1, true) ∧ call h' c' = .ok (h1', true) ∧ ¬ SameAs twice (estimates 1 h1) (estimates 1 h1') := by
  have hest : ∀ p, estimates 1 (scalar p) 0 = some ⟨(sc 0).toM 1 1, p • 1⟩ := fun p => by rw [scalar_est, if_pos rfl]
  obtain ⟨h1, hc, _, g, hg, hv⟩ := observe_any (scalar_ok zero_le_one) (hest 1) zero_le_one zero_le_one rfl
  obtain ⟨h1', hc', _, g', hg', hv'⟩ := observe_any (p := 4) (r := 4) (scalar_ok (by norm_num)) (hest 4) (by norm_num) (by norm_num) rfl
  refine ⟨scalar 1, scalar 4, h1, h1', observe 1, observe 4, scalar_ok zero_le_one, scalar_ok (by norm_num), ?_, observe_fits zero_le_one, observe_fits (by norm_num),
    ?_, hc, hc', ?_⟩
  · intro t
    rw [scalar_est, scalar_est]
    split
    · rw [Option.map_some]
      congr 1
      refine Gauss.ext ?_ ?_
      · show _ = twice * (sc 0).toM 1 1
        rw [sc_eq]
        simp
      · show (4 : ℝ) • (1 : Matrix (Fin 1) (Fin 1) ℝ) = twice * ((1 : ℝ) • 1) * twiceᵀ
        unfold twice
        ext i j; fin_cases i; fin_cases j; simp; norm_num
    · rfl
  · refine Converted.priv 1 _ _ _ _ _ _ twice _ _ ⟨?_, ⟨rfl, rfl⟩, ⟨rfl, rfl⟩, ⟨rfl, rfl⟩, ⟨rfl, rfl⟩, ?_, ?_⟩ ⟨rfl, rfl⟩ ⟨rfl, rfl⟩ ?_
    · simp [twice]
    · rw [sc_eq, one_smul, Matrix.one_mul, Matrix.mul_one]
    · rw [sc_eq, sc_eq]
      unfold twice
      ext i j; fin_cases i; fin_cases j; simp; norm_num
    · rw [sc_eq]
      simp
  · intro hn
    have := hn 0
    rw [hg, hg', Option.map_some] at this
    have hcov := congrArg Gauss.cov (Option.some.inj this)
    have e : (image twice g).cov = twice * g.cov * twiceᵀ := rfl
    rw [e, hv, hv'] at hcov
    have := congrFun (congrFun hcov 0) 0
    simp [twice] at this
    unfold after at this
    norm_num at this

end Fails

/-! ## Examples -/

section Examples
open MathExample Certainty

/-- Metres to millimetres. -/
def milli : Matrix (Fin 1) (Fin 1) ℝ := (1000 : ℝ) • 1

/-- The hypotheses of `c120_units_partial` are met by a filter in metres and one in millimetres that predict and observe, with outlier rejection on. -/
example : ∃ (cs cs' : List KCall) (h1 : Buf Belief) (as : List Bool), cs.length = 2 ∧ Ok 1 (scalar 1) ∧ Ok 1 (scalar 1000000) ∧
    SameAs milli (estimates 1 (scalar 1)) (estimates 1 (scalar 1000000)) ∧ List.Forall₂ (Converted milli) cs cs' ∧ (∀ c ∈ cs, c.Fits 1 ∧ Unregularised c) ∧
    calls (scalar 1) cs = .ok (h1, as) := by
  obtain ⟨h2, hc2⟩ := (c100_defined (m := 0) (scalar 1) (scalar_ok zero_le_one) 0 _ rfl).1 (sc 1) (sc 1) 5 rfl rfl rfl rfl
  obtain ⟨ht, ho2⟩ := call_true (scalar_ok zero_le_one) (.prop (sc 1) (sc 1) 0 5) (sc_psd zero_le_one) hc2
  have hb2 : ∃ b, beliefAt h2 5 = some b := by
    generalize he : estimates 1 h2 = f at ht
    cases ht with
    | prop _ _ _ _ g hg =>
      have : estimates 1 h2 5 = some (g.predict ((sc 1).toM 1 1) ((sc 1).toM 1 1)) := by rw [he, Function.update_self]
      obtain ⟨b, hb, _⟩ := Option.map_eq_some_iff.mp this
      exact ⟨b, hb⟩
  obtain ⟨b, hb⟩ := hb2
  obtain ⟨h3, a, hc3, _⟩ := ((c100_defined (m := 1) h2 ho2 5 b hb).2.2 (sc 1) (sc 1) (sc 7) { eps := 0 } rfl rfl rfl rfl rfl rfl
    (Or.inr (Or.inr (by norm_num)))).1
  refine ⟨[.prop (sc 1) (sc 1) 0 5, .priv (sc 1) (sc 1) (sc 7) 5 { eps := 0 }],
    [.prop (sc 1) (sc 1000000) 0 5, .priv (sc 1) (sc 1000000) (sc 7000) 5 { eps := 0 }], h3, [true, a], rfl, scalar_ok zero_le_one, scalar_ok (by norm_num), ?_,
    .cons ?_ (.cons ?_ .nil), ?_, ?_⟩
  · intro t
    rw [scalar_est, scalar_est]
    split
    · rw [Option.map_some]
      congr 1
      refine Gauss.ext ?_ ?_
      · show _ = milli * (sc 0).toM 1 1
        rw [sc_eq]
        simp
      · show (1000000 : ℝ) • (1 : Matrix (Fin 1) (Fin 1) ℝ) = milli * ((1 : ℝ) • 1) * milliᵀ
        unfold milli
        ext i j; fin_cases i; fin_cases j; simp; norm_num
    · rfl
  · refine Converted.prop _ _ _ _ _ _ ⟨rfl, rfl⟩ ⟨rfl, rfl⟩ ⟨rfl, rfl⟩ ⟨rfl, rfl⟩ ?_ ?_
    · rw [sc_eq, one_smul, Matrix.one_mul, Matrix.mul_one]
    · rw [sc_eq, sc_eq]
      unfold milli
      ext i j; fin_cases i; fin_cases j; simp; norm_num
  · refine Converted.priv 1 _ _ _ _ _ _ milli _ _ ⟨?_, ⟨rfl, rfl⟩, ⟨rfl, rfl⟩, ⟨rfl, rfl⟩, ⟨rfl, rfl⟩, ?_, ?_⟩ ⟨rfl, rfl⟩ ⟨rfl, rfl⟩ ?_
    · simp [milli]
    · rw [sc_eq, one_smul, Matrix.one_mul, Matrix.mul_one]
    · rw [sc_eq, sc_eq]
      unfold milli
      ext i j; fin_cases i; fin_cases j; simp; norm_num
    · rw [sc_eq, sc_eq]
      unfold milli
      ext i j; fin_cases i; fin_cases j; simp; norm_num
  · intro c hc
    simp only [List.mem_cons, List.not_mem_nil, or_false] at hc
    rcases hc with rfl | rfl
    · exact ⟨sc_psd zero_le_one, trivial⟩
    · exact ⟨⟨le_rfl, sc_psd zero_le_one, (sc_pd zero_lt_one).add_posSemidef (Alg.smul_one_psd le_rfl)⟩, rfl⟩
  · simp only [calls, hc2, hc3, Res.bind_ok]

/-- The first of two states. -/
def firstOf : Matrix (Fin 1) (Fin 2) ℝ := !![1, 0]

/-- Leaving out a state: two states with transition matrix `[[1, 0], [3, 1]]`, the first of which is observed, told to a filter of the first state alone. -/
example : Converted firstOf (.prop (Mat.ofM (!![1, 0; 3, 1] : Matrix (Fin 2) (Fin 2) ℝ)) (Mat.ofM (!![4, 1; 1, 5] : Matrix (Fin 2) (Fin 2) ℝ)) 0 5) (.prop (sc 1) (sc 4) 0 5) ∧
    Converted firstOf (.priv (Mat.ofM firstOf) (sc 2) (sc 7) 5 {}) (.priv (sc 1) (sc 2) (sc 7) 5 {}) := by
  constructor
  · refine Converted.prop _ _ _ _ _ _ ⟨rfl, rfl⟩ ⟨rfl, rfl⟩ ⟨rfl, rfl⟩ ⟨rfl, rfl⟩ ?_ ?_
    · rw [Mat.toM_ofM, sc_eq, one_smul, Matrix.one_mul]
      ext i j; fin_cases i; fin_cases j <;> simp [firstOf, Matrix.mul_apply, Fin.sum_univ_two]
    · rw [Mat.toM_ofM, sc_eq]
      ext i j; fin_cases i; fin_cases j; simp [firstOf, Matrix.mul_apply, Fin.sum_univ_two]
  · refine Converted.priv 1 _ _ _ _ _ _ 1 _ _ ⟨by simp, ⟨rfl, rfl⟩, ⟨rfl, rfl⟩, ⟨rfl, rfl⟩, ⟨rfl, rfl⟩, ?_, ?_⟩ ⟨rfl, rfl⟩ ⟨rfl, rfl⟩ ?_
    · rw [Mat.toM_ofM, sc_eq, one_smul]
    · simp
    · simp

end Examples

end Units
end Ikf
