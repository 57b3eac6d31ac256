import Verif.Spec.Information
import Verif.Props.Simultaneous

/-! # Property C139: simultaneous observations count only by their total information -/

namespace Ikf
namespace Simultaneous
open Matrix SKF

variable {n : ℕ}

/-- What a sequence of updates with the total information `J`, `h` does: the factor is `(1 + P J)⁻¹`. -/
structure Acc (P : Matrix (Fin n) (Fin n) ℝ) (x : Matrix (Fin n) (Fin 1) ℝ) (J : Matrix (Fin n) (Fin n) ℝ) (h : Matrix (Fin n) (Fin 1) ℝ)
    (U P' : Matrix (Fin n) (Fin n) ℝ) (x' : Matrix (Fin n) (Fin 1) ℝ) : Prop where
  inv : U * (1 + P * J) = 1
  cov : P' = U * P
  mean : x' = U * (x + P * h)

variable {P P1 P2 J J1 J2 U U1 U2 : Matrix (Fin n) (Fin n) ℝ} {x x1 x2 h h1 h2 : Matrix (Fin n) (Fin 1) ℝ}

theorem Acc.refl (P : Matrix (Fin n) (Fin n) ℝ) (x : Matrix (Fin n) (Fin 1) ℝ) : Acc P x 0 0 1 P x := ⟨by simp, by simp, by simp⟩

theorem Acc.trans (a : Acc P x J1 h1 U1 P1 x1) (b : Acc P1 x1 J2 h2 U2 P2 x2) : Acc P x (J1 + J2) (h1 + h2) (U2 * U1) P2 x2 := by
  obtain ⟨a1, a2, a3⟩ := a
  obtain ⟨b1, b2, b3⟩ := b
  subst a2 a3 b2 b3
  refine ⟨?_, (Matrix.mul_assoc _ _ _).symm, ?_⟩
  · have e : U1 * (1 + P * (J1 + J2)) = 1 + U1 * P * J2 := by
      rw [Matrix.mul_add P, ← add_assoc, Matrix.mul_add U1, a1, Matrix.mul_assoc]
    rw [Matrix.mul_assoc, e, b1]
  · simp only [Matrix.mul_add, Matrix.mul_assoc, add_assoc]

theorem Acc.unique (a : Acc P x J h U P1 x1) (b : Acc P x J h U2 P2 x2) : U = U2 ∧ P1 = P2 ∧ x1 = x2 := by
  have e : U = U2 := by
    have c := mul_eq_one_comm.mp b.inv
    calc U = U * ((1 + P * J) * U2) := by rw [c, Matrix.mul_one]
      _ = U2 := by rw [← Matrix.mul_assoc, a.inv, Matrix.one_mul]
  subst e
  exact ⟨rfl, by rw [a.cov, b.cov], by rw [a.mean, b.mean]⟩

/-- One update. -/
theorem Acc.one (hP : P.PosSemidef) (x : Matrix (Fin n) (Fin 1) ℝ) {o : Obs} (hN : o.N.PosDef) :
    Acc P x (o.info n) (o.weighted n) (1 - Alg.gain P (o.H.toM o.m n) o.N * o.H.toM o.m n) (Alg.apos P (o.H.toM o.m n) o.N)
      (x + Alg.gain P (o.H.toM o.m n) o.N * (o.z.toM o.m 1 - o.H.toM o.m n * x)) := by
  have hS := Alg.innov_pd hP (o.H.toM o.m n) hN
  unfold Obs.info Obs.weighted Alg.apos
  change Acc P x ((o.H.toM o.m n)ᵀ * (o.N)⁻¹ * o.H.toM o.m n) ((o.H.toM o.m n)ᵀ * (o.N)⁻¹ * o.z.toM o.m 1) _ _ _
  generalize o.H.toM o.m n = H at hS ⊢
  generalize o.z.toM o.m 1 = z
  generalize o.N = N at hN hS ⊢
  have iN : N * N⁻¹ = 1 := Matrix.mul_nonsing_inv N ((Matrix.isUnit_iff_isUnit_det N).mp hN.isUnit)
  have iS : (H * P * Hᵀ + N)⁻¹ * (H * P * Hᵀ + N) = 1 := Matrix.nonsing_inv_mul _ ((Matrix.isUnit_iff_isUnit_det _).mp hS.isUnit)
  have kS : Alg.gain P H N * (H * P * Hᵀ + N) = P * Hᵀ := by unfold Alg.gain; rw [Matrix.mul_assoc, iS, Matrix.mul_one]
  generalize Alg.gain P H N = K at kS ⊢
  have kN : K = (1 - K * H) * (P * Hᵀ * N⁻¹) := by
    have e : K * (H * P * Hᵀ) * N⁻¹ + K = P * Hᵀ * N⁻¹ := by
      rw [← kS, Matrix.mul_add, Matrix.add_mul, Matrix.mul_assoc K N, iN, Matrix.mul_one]
    rw [Matrix.sub_mul, Matrix.one_mul]
    have e2 : K * H * (P * Hᵀ * N⁻¹) = K * (H * P * Hᵀ) * N⁻¹ := by simp only [Matrix.mul_assoc]
    rw [e2, ← e]
    abel
  refine ⟨?_, ?_, ?_⟩
  · have : (1 - K * H) * (1 + P * (Hᵀ * N⁻¹ * H)) = (1 - K * H) + ((1 - K * H) * (P * Hᵀ * N⁻¹)) * H := by
      rw [Matrix.mul_add, Matrix.mul_one]; simp only [Matrix.mul_assoc]
    rw [this, ← kN]
    abel
  · rfl
  · have : (1 - K * H) * (x + P * (Hᵀ * N⁻¹ * z)) = (1 - K * H) * x + ((1 - K * H) * (P * Hᵀ * N⁻¹)) * z := by
      rw [Matrix.mul_add]; simp only [Matrix.mul_assoc]
    rw [this, ← kN, Matrix.sub_mul, Matrix.one_mul, Matrix.mul_sub, Matrix.mul_assoc]
    abel

theorem fold_acc {g : Gauss n} (hg : g.cov.PosSemidef) (os : List Obs) (hv : ∀ o ∈ os, o.Valid n) :
    ∃ U, Acc g.cov g.mean (os.map (Obs.info n)).sum (os.map (Obs.weighted n)).sum U (os.foldl upd g).cov (os.foldl upd g).mean := by
  induction os generalizing g with
  | nil => exact ⟨1, Acc.refl _ _⟩
  | cons o l ih =>
    have ho := hv o (by simp)
    obtain ⟨U, hU⟩ := ih (upd_psd hg ho) (fun x hx => hv x (by simp [hx]))
    exact ⟨_, (Acc.one hg g.mean ho.2.2.2.2.2.1).trans hU⟩

theorem fold_info {g : Gauss n} (hg : g.cov.PosSemidef) {os os' : List Obs} (hv : ∀ o ∈ os, o.Valid n) (hv' : ∀ o ∈ os', o.Valid n) (hs : SameInfo n os os') :
    os.foldl upd g = os'.foldl upd g := by
  obtain ⟨U, hU⟩ := fold_acc hg os hv
  obtain ⟨U', hU'⟩ := fold_acc hg os' hv'
  rw [hs.1, hs.2] at hU
  obtain ⟨-, h1, h2⟩ := hU.unique hU'
  exact Gauss.ext h2 h1

/-- C139 for a standalone filter: two lists of observations of the same time (any numbers, sizes, noises) that give the same information in total
are all accepted and leave the same estimates. -/
theorem c139_standalone (h : Buf Belief) (ho : Ok n h) (t : Int) (g : Gauss n) (hg : estimates n h t = some g) (os os' : List Obs)
    (hv : ∀ o ∈ os, o.Valid n ∧ Plain o.cfg) (hv' : ∀ o ∈ os', o.Valid n ∧ Plain o.cfg) (hs : SameInfo n os os') :
    ∃ h1 h1', calls h (os.map (Obs.call t)) = .ok (h1, List.replicate os.length true) ∧
      calls h (os'.map (Obs.call t)) = .ok (h1', List.replicate os'.length true) ∧ estimates n h1 = estimates n h1' := by
  obtain ⟨h1, hc, _, he⟩ := list_run ho hg os hv
  obtain ⟨h1', hc', _, he'⟩ := list_run ho hg os' hv'
  refine ⟨h1, h1', hc, hc', ?_⟩
  rw [he, he', fold_info (Certainty.psd_at ho hg) (fun o hx => (hv o hx).1) (fun o hx => (hv' o hx).1) hs]

/-- Measurements with the same noise and measurement matrix, and their average. -/
theorem average_info {o : Obs} {os : List Obs} (h : Averages o os) : SameInfo n os [o] := by
  obtain ⟨h0, hs, he, hm⟩ := h
  have hk : (os.length : ℝ) ≠ 0 := by
    have : os.length ≠ 0 := fun e => h0 (List.length_eq_zero_iff.mp e)
    exact_mod_cast this
  have each : ∀ x ∈ os, x.info n = (os.length : ℝ)⁻¹ • o.info n ∧
      x.weighted n = (o.H.toM o.m n)ᵀ * ((os.length : ℝ)⁻¹ • (o.R.toM o.m o.m)⁻¹) * x.z.toM o.m 1 := by
    intro x hx
    obtain ⟨e1, e2, e3, e4⟩ := hs x hx
    obtain ⟨m, H, R, z, cfg⟩ := x
    simp only at e1 e2 e3 e4
    subst e1 e2
    have eR : R.toM o.m o.m = (os.length : ℝ) • o.R.toM o.m o.m := by rw [e4, smul_smul, mul_inv_cancel₀ hk, one_smul]
    have ei : (R.toM o.m o.m)⁻¹ = (os.length : ℝ)⁻¹ • (o.R.toM o.m o.m)⁻¹ := by
      rw [eR]
      by_cases hd : IsUnit (o.R.toM o.m o.m).det
      · letI := invertibleOfNonzero hk
        rw [Matrix.inv_smul _ _ hd, invOf_eq_inv]
      · rw [Matrix.nonsing_inv_apply_not_isUnit _ hd, smul_zero, Matrix.nonsing_inv_apply_not_isUnit]
        rw [Matrix.det_smul]
        intro hu
        exact hd (isUnit_of_mul_isUnit_right hu)
    constructor
    · unfold Obs.info
      simp only [e3, he, zero_smul, add_zero, ei, Matrix.mul_smul, Matrix.smul_mul]
    · unfold Obs.weighted
      simp only [e3, zero_smul, add_zero, ei]
  have s1 : ∀ l : List Obs, (∀ x ∈ l, x ∈ os) → (l.map (Obs.info n)).sum = ((l.length : ℝ) * (os.length : ℝ)⁻¹) • o.info n ∧
      (l.map (Obs.weighted n)).sum = (o.H.toM o.m n)ᵀ * ((os.length : ℝ)⁻¹ • (o.R.toM o.m o.m)⁻¹) * (l.map fun x => x.z.toM o.m 1).sum := by
    intro l
    induction l with
    | nil => intro _; simp
    | cons x l ih =>
      intro hl
      obtain ⟨i1, i2⟩ := ih (fun y hy => hl y (by simp [hy]))
      obtain ⟨j1, j2⟩ := each x (hl x (by simp))
      simp only [List.map_cons, List.sum_cons, i1, i2, j1, j2, List.length_cons, Matrix.mul_add, and_true]
      rw [← add_smul]
      push_cast
      congr 1
      ring
  obtain ⟨t1, t2⟩ := s1 os (fun _ h => h)
  refine ⟨?_, ?_⟩
  · rw [t1, mul_inv_cancel₀ hk, one_smul]
    simp
  · rw [t2]
    simp only [List.map_cons, List.map_nil, List.sum_cons, List.sum_nil, add_zero]
    unfold Obs.weighted
    rw [he, zero_smul, add_zero, hm]
    simp only [Matrix.mul_smul, Matrix.smul_mul]

/-- C139, readings of one sensor: a standalone filter is in the same state after `k` readings of a time as after their mean with a `k`-th of the noise. -/
theorem c139_average (h : Buf Belief) (ho : Ok n h) (t : Int) (g : Gauss n) (hg : estimates n h t = some g) (o : Obs) (os : List Obs) (ha : Averages o os)
    (hv : ∀ x ∈ os, x.Valid n ∧ Plain x.cfg) (hvo : o.Valid n) :
    ∃ h1 h1', calls h (os.map (Obs.call t)) = .ok (h1, List.replicate os.length true) ∧ calls h [o.call t] = .ok (h1', [true]) ∧
      estimates n h1 = estimates n h1' :=
  c139_standalone h ho t g hg os [o] hv (fun x hx => by rw [List.mem_singleton.mp hx]; exact ⟨hvo, Or.inl ha.eps⟩) (average_info ha)

/-! ## Isolated instances -/

section Isolated
open Mat Hdl

variable {fp : FP} {near : Mat → Mat} {pred : ℕ → Inst → Int → Inst × Bool} {dim : ℕ → ℕ} {h h1 h1' : Hdl} {c : Central}

theorem mean_val {o : Obs} {x P : Mat} (hv : o.Valid n) (hx : x.Shape n 1) (hPs : P.Shape n n) (hP : (P.toM n n).PosSemidef) :
    (x + gainM o.H o.R P o.cfg.eps * (o.z - o.H * x)).toM n 1 =
      x.toM n 1 + Alg.gain (P.toM n n) (o.H.toM o.m n) o.N * (o.z.toM o.m 1 - o.H.toM o.m n * x.toM n 1) := by
  have hO := obs_shape hv hx hPs
  have hz : o.z.Shape o.m 1 := hv.2.2.1
  rw [hx.toM_add ((gainM_shape hO _).mul hO.r), (gainM_shape hO _).toM_mul, hz.toM_sub (hO.H.mul hx), hO.H.toM_mul, toM_gainM hO hP hv.2.2.2.1]
  rfl

/-- What observations do to the instances in `D`. -/
structure AccC (dim : ℕ → ℕ) (D : ℕ → Prop) (c c' : Central) (l : List (ℕ × Obs)) (U : (p : ℕ) → Matrix (Fin (dim p)) (Fin (dim p)) ℝ) : Prop where
  one : ∀ p, D p → Acc ((c.cov p p).toM (dim p) (dim p)) ((c.mu p).toM (dim p) 1) ((ofInst p l).map (Obs.info (dim p))).sum
    ((ofInst p l).map (Obs.weighted (dim p))).sum (U p) ((c'.cov p p).toM (dim p) (dim p)) ((c'.mu p).toM (dim p) 1)
  mu : ∀ p, D p → (c'.mu p).Shape (dim p) 1
  cov : ∀ p q, D p → D q → (c'.cov p q).Shape (dim p) (dim q)
  cross : ∀ p q, D p → D q → p ≠ q → (c'.cov p q).toM (dim p) (dim q) = U p * (c.cov p q).toM (dim p) (dim q) * (U q)ᵀ

/-- Sizes and covariances of the instances in `D`. -/
structure GoodC (dim : ℕ → ℕ) (D : ℕ → Prop) (c : Central) : Prop where
  mu : ∀ p, D p → (c.mu p).Shape (dim p) 1
  cov : ∀ p q, D p → D q → (c.cov p q).Shape (dim p) (dim q)

theorem step_acc {D : ℕ → Prop} {t : Int} {a : ℕ × Obs} (hg : GoodC dim D c) (hD : D a.1) (hga : Good dim c a.1) (hv : a.2.Valid (dim a.1)) (hp : Plain a.2.cfg) :
    ∃ U, AccC dim D c (updC t c a) [a] U := by
  obtain ⟨i, o⟩ := a
  simp only at hD hga hv hp
  have hO := obs_shape hv hga.1 hga.2.1
  refine ⟨fun p => if e : p = i then e ▸ (1 - Alg.gain ((c.cov i i).toM (dim i) (dim i)) (o.H.toM o.m (dim i)) o.N * o.H.toM o.m (dim i)) else 1, ?_, ?_, ?_, ?_⟩
  · intro p hDp
    by_cases e : p = i
    · subst e
      have : ofInst p [(p, o)] = [o] := by simp [ofInst]
      simp only [this, List.map_cons, List.map_nil, List.sum_cons, List.sum_nil, add_zero, dite_true]
      unfold updC Central.transform
      simp only [if_true, and_self]
      rw [post_val hv hp hO hga.2.2, mean_val hv hga.1 hga.2.1 hga.2.2]
      exact Acc.one hga.2.2 _ hv.2.2.2.2.2.1
    · have : ofInst p [(i, o)] = [] := by simp [ofInst, Ne.symm e]
      simp only [this, List.map_nil, List.sum_nil, dif_neg e]
      unfold updC Central.transform
      simp only [e, if_false, false_and]
      exact Acc.refl _ _
  · intro p hDp
    unfold updC Central.transform
    simp only
    split
    · rename_i e; subst e; exact hga.1.add
    · exact hg.mu p hDp
  · intro p q hDp hDq
    unfold updC Central.transform
    simp only
    split
    · rename_i e; obtain ⟨rfl, rfl⟩ := e; exact postM_shape hO _
    · split
      · rename_i e; subst e; exact (updM_shape hO _).mul (hg.cov _ _ hDp hDq)
      · split
        · rename_i e; subst e; exact (hg.cov _ _ hDp hDq).mul (updM_shape hO _).tr
        · exact hg.cov _ _ hDp hDq
  · intro p q hDp hDq hne
    unfold updC Central.transform
    simp only
    have huv := toM_updM hO hga.2.2 hv.2.2.2.1 o.cfg.eps
    by_cases e : p = i
    · subst e
      have e' : ¬ q = p := fun e => hne e.symm
      simp only [e', and_false, if_false, if_true, dite_true, dif_neg, not_false_eq_true, Matrix.transpose_one, Matrix.mul_one]
      rw [(updM_shape hO _).toM_mul, huv]
      rfl
    · by_cases e' : q = i
      · subst e'
        simp only [e, false_and, if_false, if_true, dite_true, dif_neg, not_false_eq_true, Matrix.one_mul]
        rw [(hg.cov _ _ hDp hDq).toM_mul, toM_tr, huv]
        rfl
      · simp only [e, e', false_and, if_false, dif_neg, not_false_eq_true, Matrix.transpose_one, Matrix.mul_one, Matrix.one_mul]

theorem ofInst_cons (p : ℕ) (a : ℕ × Obs) (l : List (ℕ × Obs)) : ofInst p (a :: l) = ofInst p [a] ++ ofInst p l := by
  simp only [ofInst, List.filter_cons, List.filter_nil]
  split <;> rfl

theorem foldC_acc {D : ℕ → Prop} {t : Int} (l : List (ℕ × Obs)) (hg : GoodC dim D c) (hD : ∀ x ∈ l, D x.1) (hga : ∀ x ∈ l, Good dim c x.1)
    (hv : ∀ x ∈ l, x.2.Valid (dim x.1) ∧ Plain x.2.cfg) : ∃ U, AccC dim D c (l.foldl (updC t) c) l U := by
  induction l generalizing c with
  | nil => exact ⟨fun _ => 1, fun p _ => Acc.refl _ _, hg.mu, hg.cov, fun p q _ _ _ => by simp⟩
  | cons a l ih =>
    obtain ⟨U1, k1⟩ := step_acc (t := t) hg (hD a (by simp)) (hga a (by simp)) (hv a (by simp)).1 (hv a (by simp)).2
    obtain ⟨U2, k2⟩ := ih ⟨k1.mu, k1.cov⟩ (fun x hx => hD x (by simp [hx]))
      (fun x hx => updC_good (hga x (by simp [hx])) (hga a (by simp)) (hv a (by simp)).1 (hv a (by simp)).2) (fun x hx => hv x (by simp [hx]))
    refine ⟨fun p => U2 p * U1 p, fun p hp => ?_, k2.mu, k2.cov, fun p q hp hq hne => ?_⟩
    · have := (k1.one p hp).trans (k2.one p hp)
      rw [ofInst_cons, List.map_append, List.map_append, List.sum_append, List.sum_append]
      exact this
    · rw [List.foldl_cons, k2.cross p q hp hq hne, k1.cross p q hp hq hne, Matrix.transpose_mul]
      simp only [Matrix.mul_assoc]

/-- Both lists give every instance the same information in total. -/
theorem foldC_info {D : ℕ → Prop} {t : Int} {l l' : List (ℕ × Obs)} (hg : GoodC dim D c) (hD : ∀ x ∈ l, D x.1) (hD' : ∀ x ∈ l', D x.1)
    (hga : ∀ x ∈ l, Good dim c x.1) (hga' : ∀ x ∈ l', Good dim c x.1)
    (hv : ∀ x ∈ l, x.2.Valid (dim x.1) ∧ Plain x.2.cfg) (hv' : ∀ x ∈ l', x.2.Valid (dim x.1) ∧ Plain x.2.cfg)
    (hs : ∀ p, SameInfo (dim p) (ofInst p l) (ofInst p l')) :
    (∀ p, D p → (l.foldl (updC t) c).mu p = (l'.foldl (updC t) c).mu p) ∧
      ∀ p q, D p → D q → (l.foldl (updC t) c).cov p q = (l'.foldl (updC t) c).cov p q := by
  obtain ⟨U, k⟩ := foldC_acc (t := t) l hg hD hga hv
  obtain ⟨U', k'⟩ := foldC_acc (t := t) l' hg hD' hga' hv'
  have key : ∀ p, D p → _ := fun p hp => by
    have a := k.one p hp
    rw [(hs p).1, (hs p).2] at a
    exact a.unique (k'.one p hp)
  refine ⟨fun p hp => ?_, fun p q hp hq => ?_⟩
  · exact toM_inj (k.mu p hp).1 (k.mu p hp).2 (k'.mu p hp).1 (k'.mu p hp).2 (key p hp).2.2
  · refine toM_inj (k.cov p q hp hq).1 (k.cov p q hp hq).2 (k'.cov p q hp hq).1 (k'.cov p q hp hq).2 ?_
    by_cases e : p = q
    · subst e
      exact (key p hp).2.1
    · rw [k.cross p q hp hq e, k'.cross p q hp hq e, (key p hp).1, (key q hq).1]

/-- C139 for isolated instances: two lists of private observations of the same time, of any instances, that give every instance the same information in total
are all accepted and leave the same means and the same covariances of all pairs. -/
theorem c139_isolated (hnear : NearOk near) (hreach : Reach fp near pred dim h) (t : Int) (l l' : List (ℕ × Obs))
    (hN : ∀ x ∈ l ++ l', Newest h x.1 t) (hv : ∀ x ∈ l ++ l', x.2.Valid (dim x.1) ∧ Plain x.2.cfg)
    (hpsd : ∀ x ∈ l ++ l', ∃ P, IsCov dim h x.1 x.1 t P ∧ (P.toM (dim x.1) (dim x.1)).PosSemidef)
    (hs : ∀ p, SameInfo (dim p) (ofInst p l) (ofInst p l')) :
    ∃ h1 h1', Runs fp near pred dim h (l.map fun x => (x.2.event x.1 t, true)) h1 ∧ Runs fp near pred dim h (l'.map fun x => (x.2.event x.1 t, true)) h1' ∧
    ∀ p q, Newest h p t → Newest h q t →
      (∃ m, IsMean h1 p t m ∧ IsMean h1' p t m) ∧ ∃ C, IsCov dim h1 p q t C ∧ IsCov dim h1' p q t C := by
  obtain ⟨c, hr⟩ := hreach.rel hnear
  have il : ∀ x ∈ l, x ∈ l ++ l' := fun x hx => List.mem_append_left _ hx
  have ir : ∀ x ∈ l', x ∈ l ++ l' := fun x hx => List.mem_append_right _ hx
  obtain ⟨h1, s1⟩ := runs_exist (fp := fp) (pred := pred) hnear l hr (fun x hx => hN x (il x hx)) (fun x hx => (hv x (il x hx)).1)
  obtain ⟨h1', s1'⟩ := runs_exist (fp := fp) (pred := pred) hnear l' hr (fun x hx => hN x (ir x hx)) (fun x hx => (hv x (ir x hx)).1)
  obtain ⟨r1, d1, n1⟩ := runs_fold hnear hr s1
  obtain ⟨r2, d2, n2⟩ := runs_fold hnear hr s1'
  have hgood : ∀ x ∈ l ++ l', Good dim c x.1 := by
    intro x hx
    obtain ⟨P, hP, hPp⟩ := hpsd x hx
    obtain ⟨hid, htm⟩ := (hN x hx).rel hr
    rw [← (hr.isCov (hN x hx) (hN x hx)).unique hP] at hPp
    exact ⟨hr.muS _ hid, hr.covS _ _ hid hid, hPp⟩
  obtain ⟨e1, e2⟩ := foldC_info (t := t) (D := fun p => Newest h p t) (l := l) (l' := l')
    ⟨fun p hp => hr.muS _ (hp.rel hr).1, fun p q hp hq => hr.covS _ _ (hp.rel hr).1 (hq.rel hr).1⟩
    (fun x hx => hN x (il x hx)) (fun x hx => hN x (ir x hx)) (fun x hx => hgood x (il x hx)) (fun x hx => hgood x (ir x hx))
    (fun x hx => hv x (il x hx)) (fun x hx => hv x (ir x hx)) hs
  refine ⟨h1, h1', s1, s1', fun p q hp hq => ⟨⟨_, r1.isMean (n1 p hp), ?_⟩, _, r1.isCov (n1 p hp) (n1 q hq), ?_⟩⟩
  · rw [e1 p hp]; exact r2.isMean (n2 p hp)
  · rw [e2 p q hp hq]; exact r2.isCov (n2 p hp) (n2 q hq)

end Isolated

/-! ## Examples -/

section Examples
open MathExample Certainty

theorem av : Averages (one1 1 7) [one1 2 5, one1 2 9] := by
  refine ⟨by simp, ?_, rfl, ?_⟩
  · intro x hx
    simp only [List.mem_cons, List.not_mem_nil, or_false] at hx
    rcases hx with rfl | rfl <;> refine ⟨rfl, rfl, rfl, ?_⟩ <;>
    · ext i j
      show (sc 1).e i j = _ * (sc 2).e i j
      rw [sc_e, sc_e]
      split <;> norm_num
  · ext i j
    have key : ∀ i j : ℕ, (sc 7).e i j = (2 : ℝ)⁻¹ * ((sc 5).e i j + ((sc 9).e i j + 0)) := by
      intro i j
      rw [sc_e, sc_e, sc_e]
      split <;> norm_num
    show (sc 7).e i j = _ * ((sc 5).e i j + ((sc 9).e i j + 0))
    rw [key]
    rfl

/-- The hypotheses of `c139_average` (and so of `c139_standalone`) are met: readings 5 and 9 with noise 2, and their mean 7 with noise 1. -/
example : Averages (one1 1 7) [one1 2 5, one1 2 9] ∧ (∀ x ∈ [one1 2 5, one1 2 9], x.Valid 1 ∧ Plain x.cfg) ∧ (one1 1 7).Valid 1 ∧ Ok 1 (scalar 1) ∧
    (∃ g, estimates 1 (scalar 1) 0 = some g) ∧ SameInfo 1 [one1 2 5, one1 2 9] [one1 1 7] := by
  refine ⟨av, ?_, (one1_valid (by norm_num)).1, scalar_ok zero_le_one, ⟨_, by rw [scalar_est, if_pos rfl]⟩, average_info av⟩
  intro x hx
  simp only [List.mem_cons, List.not_mem_nil, or_false] at hx
  rcases hx with rfl | rfl <;> exact one1_valid (by norm_num)

/-- The hypotheses of `c139_isolated` are met: two readings of one instance with one of another between them, and their mean. -/
example : ∃ l l' : List (ℕ × Obs), l.length = 3 ∧ l'.length = 2 ∧ Hdl.Reach FP.exact Hdl.Example.near Hdl.Example.pred Hdl.Example.dim Hdl.Example.h0 ∧
    (∀ x ∈ l ++ l', Hdl.Newest Hdl.Example.h0 x.1 0) ∧ (∀ x ∈ l ++ l', x.2.Valid (Hdl.Example.dim x.1) ∧ Plain x.2.cfg) ∧
    (∀ x ∈ l ++ l', ∃ P, Hdl.IsCov Hdl.Example.dim Hdl.Example.h0 x.1 x.1 0 P ∧ (P.toM (Hdl.Example.dim x.1) (Hdl.Example.dim x.1)).PosSemidef) ∧
    ∀ p, SameInfo (Hdl.Example.dim p) (ofInst p l) (ofInst p l') := by
  have mem : ∀ x ∈ [(1, one1 2 5), (2, one1 1 6), (1, one1 2 9)] ++ [(2, one1 1 6), (1, one1 1 7)], (x.1 = 1 ∨ x.1 = 2) ∧ x.2.Valid 1 ∧ Plain x.2.cfg := by
    intro x hx
    simp only [List.cons_append, List.nil_append, List.mem_cons, List.not_mem_nil, or_false] at hx
    rcases hx with rfl | rfl | rfl | rfl | rfl <;> exact ⟨by simp, one1_valid (by norm_num)⟩
  refine ⟨[(1, one1 2 5), (2, one1 1 6), (1, one1 2 9)], [(2, one1 1 6), (1, one1 1 7)], rfl, rfl, Hdl.Example.reach0, fun x hx => Hdl.Example.newest0 (mem x hx).1,
    fun x hx => (mem x hx).2, fun x hx => ?_, fun p => ?_⟩
  · have hp : ((Hdl.Example.s 2).toM 1 1).PosSemidef := by
      have : (Hdl.Example.s 2).toM 1 1 = (2 : ℝ) • 1 := by
        ext i j; fin_cases i; fin_cases j; simp [Hdl.Example.s, Mat.toM, Mat.of]
      rw [this]
      exact Alg.smul_one_psd zero_le_two
    refine ⟨Hdl.Example.s 2, Or.inl ⟨rfl, Hdl.Example.b0, ?_, rfl⟩, hp⟩
    rcases (mem x hx).1 with h | h <;> rw [h] <;> rfl
  · by_cases h1 : p = 1
    · subst h1
      have a : ofInst 1 [(1, one1 2 5), (2, one1 1 6), (1, one1 2 9)] = [one1 2 5, one1 2 9] := by simp [ofInst]
      have b : ofInst 1 [(2, one1 1 6), (1, one1 1 7)] = [one1 1 7] := by simp [ofInst]
      rw [a, b]
      exact average_info av
    · by_cases h2 : p = 2
      · subst h2
        have a : ofInst 2 [(1, one1 2 5), (2, one1 1 6), (1, one1 2 9)] = [one1 1 6] := by simp [ofInst]
        have b : ofInst 2 [(2, one1 1 6), (1, one1 1 7)] = [one1 1 6] := by simp [ofInst]
        rw [a, b]
        exact ⟨rfl, rfl⟩
      · have a : ofInst p [(1, one1 2 5), (2, one1 1 6), (1, one1 2 9)] = [] := by simp [ofInst, Ne.symm h1, Ne.symm h2]
        have b : ofInst p [(2, one1 1 6), (1, one1 1 7)] = [] := by simp [ofInst, Ne.symm h1, Ne.symm h2]
        rw [a, b]
        exact ⟨rfl, rfl⟩

end Examples

end Simultaneous
end Ikf
