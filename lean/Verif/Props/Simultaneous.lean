import Verif.Spec.Simultaneous
import Verif.Lemmas.Simultaneous
import Verif.Props.StandaloneMath
import Verif.Props.Certainty
import Verif.Props.IsolatedExamples

/-! # Property C119: the order of simultaneous observations does not matter -/

namespace Ikf
namespace Simultaneous
open Matrix SKF

variable {n : ℕ}

/-! ## A standalone filter -/

/-- The measurement noise the gain is computed for. -/
noncomputable def Obs.N (o : Obs) : Matrix (Fin o.m) (Fin o.m) ℝ := o.R.toM o.m o.m + o.cfg.eps • 1

/-- The textbook update. -/
noncomputable def upd (g : Gauss n) (o : Obs) : Gauss n :=
  ⟨g.mean + Alg.gain g.cov (o.H.toM o.m n) o.N * (o.z.toM o.m 1 - o.H.toM o.m n * g.mean), Alg.apos g.cov (o.H.toM o.m n) o.N⟩

theorem upd_psd {g : Gauss n} (hg : g.cov.PosSemidef) {o : Obs} (hv : o.Valid n) : (upd g o).cov.PosSemidef :=
  Alg.apos_psd hg _ hv.2.2.2.2.2.1

theorem upd_comm {g : Gauss n} (hg : g.cov.PosSemidef) {a b : Obs} (ha : a.Valid n) (hb : b.Valid n) : upd (upd g a) b = upd (upd g b) a :=
  Gauss.ext (Alg.mean_comm hg _ ha.2.2.2.2.2.1 _ hb.2.2.2.2.2.1 _ _ _) (Alg.apos_comm hg _ ha.2.2.2.2.2.1 _ hb.2.2.2.2.2.1)

theorem updateReg_plain (g : Gauss n) {m : ℕ} (H : Matrix (Fin m) (Fin n) ℝ) (R : Matrix (Fin m) (Fin m) ℝ) (r : Matrix (Fin m) (Fin 1) ℝ) (cfg : Cfg)
    (hp : Plain cfg) : g.updateReg H R r cfg.eps cfg.joseph cfg.stab =
      ⟨g.mean + Alg.gain g.cov H (R + cfg.eps • 1) * r, Alg.apos g.cov H (R + cfg.eps • 1)⟩ := by
  refine Gauss.ext rfl ?_
  rw [Certainty.updateReg_cov]
  rcases hp with h | h
  · simp [h, Alg.apos]
  · simp [h.1, h.2, Alg.apos]

theorem obs_run {h : Buf Belief} (ho : Ok n h) {t : Int} {g : Gauss n} (hg : estimates n h t = some g) {o : Obs} (hv : o.Valid n) (hp : Plain o.cfg) :
    ∃ h', call h (o.call t) = .ok (h', true) ∧ Ok n h' ∧ estimates n h' = Function.update (estimates n h) t (some (upd g o)) := by
  obtain ⟨m, H, R, z, cfg⟩ := o
  obtain ⟨hH, hR, hz, hRp, he, hRe, hgate⟩ := hv
  obtain ⟨hz1, hz2⟩ := hz
  simp only at hH hR hz1 hz2 hRp he hRe hgate hp
  subst hz1
  obtain ⟨b, hb, _⟩ := Option.map_eq_some_iff.mp hg
  obtain ⟨h', a, hc, ha⟩ := ((c100_defined (m := z.rows) h ho t b hb).2.2 H R z cfg hH.1 hH.2 hR.1 hR.2 rfl hz2 (Or.inl hgate)).1
  rw [ha hgate] at hc
  obtain ⟨ht, ho'⟩ := call_true ho (.priv H R z t cfg) ⟨he, hRp, hRe⟩ hc
  refine ⟨h', hc, ho', ?_⟩
  generalize he1 : estimates n h' = f1 at ht ⊢
  cases ht with
  | priv _ _ _ _ _ g' hg' =>
    rw [hg] at hg'
    cases hg'
    rw [updateReg_plain _ _ _ _ _ hp]
    rfl

theorem list_run {h : Buf Belief} (ho : Ok n h) {t : Int} {g : Gauss n} (hg : estimates n h t = some g) (os : List Obs) (hv : ∀ o ∈ os, o.Valid n ∧ Plain o.cfg) :
    ∃ h', calls h (os.map (Obs.call t)) = .ok (h', List.replicate os.length true) ∧ Ok n h' ∧
      estimates n h' = Function.update (estimates n h) t (some (os.foldl upd g)) := by
  induction os generalizing h g with
  | nil =>
    refine ⟨h, rfl, ho, ?_⟩
    rw [List.foldl_nil, ← hg, Function.update_eq_self]
  | cons o r ih =>
    obtain ⟨h1, hc, ho1, he1⟩ := obs_run ho hg (hv o (by simp)).1 (hv o (by simp)).2
    obtain ⟨h2, hc2, ho2, he2⟩ := ih ho1 (g := upd g o) (by rw [he1, Function.update_self]) (fun x hx => hv x (by simp [hx]))
    refine ⟨h2, ?_, ho2, ?_⟩
    · simp only [List.map_cons, calls, hc, hc2, Res.bind_ok, List.length_cons, List.replicate_succ]
    · rw [he2, he1, Function.update_idem]
      rfl

theorem fold_perm {g : Gauss n} (hg : g.cov.PosSemidef) {os os' : List Obs} (hp : os.Perm os') (hv : ∀ o ∈ os, o.Valid n) :
    os.foldl upd g = os'.foldl upd g := by
  induction hp generalizing g with
  | nil => rfl
  | cons o _ ih => exact ih (upd_psd hg (hv o (by simp))) (fun x hx => hv x (by simp [hx]))
  | swap a b l =>
    simp only [List.foldl_cons]
    rw [upd_comm hg (hv b (by simp)) (hv a (by simp))]
  | trans h1 h2 ih1 ih2 =>
    rw [ih1 hg hv]
    exact ih2 hg (fun x hx => hv x (h1.symm.subset hx))

/-- C119 (partial: `c119_order_fails` shows what regularisation breaks). A standalone filter that is given several observations of the same time accepts them in every order, and its estimates do not depend on the order. -/
theorem c119_any_order_partial (h : Buf Belief) (ho : Ok n h) (t : Int) (g : Gauss n) (hg : estimates n h t = some g) (os os' : List Obs) (hp : os.Perm os')
    (hv : ∀ o ∈ os, o.Valid n ∧ Plain o.cfg) :
    ∃ h1 h1', calls h (os.map (Obs.call t)) = .ok (h1, List.replicate os.length true) ∧
      calls h (os'.map (Obs.call t)) = .ok (h1', List.replicate os.length true) ∧ estimates n h1 = estimates n h1' := by
  obtain ⟨h1, hc, _, he⟩ := list_run ho hg os hv
  obtain ⟨h1', hc', _, he'⟩ := list_run ho hg os' (fun o hx => hv o (hp.symm.subset hx))
  refine ⟨h1, h1', hc, ?_, ?_⟩
  · rw [hc', hp.length_eq]
  · rw [he, he', fold_perm (Certainty.psd_at ho hg) hp fun o hx => (hv o hx).1]

/-- Both measurements as one, as matrices. -/
theorem both_mats {a b o : Obs} (ha : a.Valid n) (hb : b.Valid n) (h : Both a b o) (e : Fin o.m ≃ Fin a.m ⊕ Fin b.m)
    (he : e = (finCongr h.1).trans finSumFinEquiv.symm) :
    o.H.toM o.m n = (fromRows (a.H.toM a.m n) (b.H.toM b.m n)).submatrix e id ∧ o.z.toM o.m 1 = (fromRows (a.z.toM a.m 1) (b.z.toM b.m 1)).submatrix e id ∧
      o.N = (fromBlocks a.N 0 0 b.N).submatrix e e := by
  obtain ⟨hm, hc, hz, hH, hZ, hR, e1, e2, hgate⟩ := h
  have key : ∀ P : Fin o.m → Prop, (∀ i : Fin a.m, P (e.symm (Sum.inl i))) → (∀ i : Fin b.m, P (e.symm (Sum.inr i))) → ∀ i, P i := by
    intro P h1 h2 i
    rw [← e.symm_apply_apply i]
    cases e i with
    | inl j => exact h1 j
    | inr j => exact h2 j
  have v1 : ∀ i : Fin a.m, ((e.symm (Sum.inl i) : Fin o.m) : ℕ) = i := by
    intro i
    rw [he]
    simp
  have v2 : ∀ i : Fin b.m, ((e.symm (Sum.inr i) : Fin o.m) : ℕ) = a.m + i := by
    intro i
    rw [he]
    simp
  have above : ∀ (A B C : Mat) (k : ℕ), A.rows = a.m → B.rows = b.m → Above A B C →
      C.toM o.m k = (fromRows (A.toM a.m k) (B.toM b.m k)).submatrix e id := by
    intro A B C k hA hB ⟨_, h1, h2⟩
    ext i j
    revert i
    refine key _ (fun i => ?_) (fun i => ?_)
    · rw [Matrix.submatrix_apply, Equiv.apply_symm_apply, Mat.toM_apply, v1, h1 i (by rw [hA]; exact i.2)]
      rfl
    · rw [Matrix.submatrix_apply, Equiv.apply_symm_apply, Mat.toM_apply, v2]
      have := h2 i (by rw [hB]; exact i.2) j
      rw [hA] at this
      rw [this]
      rfl
  refine ⟨above _ _ _ n ha.1.1 hb.1.1 hH, above _ _ _ 1 ha.2.2.1.1 hb.2.2.1.1 hZ, ?_⟩
  obtain ⟨_, _, r1, r2, r3, r4⟩ := hR
  rw [ha.2.1.1, ha.2.1.2] at r2
  rw [ha.2.1.1] at r1 r3 r4
  rw [ha.2.1.2] at r1 r3 r4
  rw [hb.2.1.1] at r2 r4
  rw [hb.2.1.2] at r2 r3
  have h1 : (1 : Matrix (Fin o.m) (Fin o.m) ℝ) = (fromBlocks 1 0 0 1).submatrix e e := by rw [fromBlocks_one, Matrix.submatrix_one_equiv]
  unfold Obs.N
  rw [h1]
  ext i j
  revert i
  refine key _ (fun i => ?_) (fun i => ?_)
  · revert j
    refine key _ (fun j => ?_) (fun j => ?_)
    · simp only [Matrix.submatrix_apply, Equiv.apply_symm_apply, fromBlocks_apply₁₁, Matrix.add_apply, Matrix.smul_apply, Mat.toM_apply, v1]
      rw [r1 i i.2 j j.2, e1]
    · simp only [Matrix.submatrix_apply, Equiv.apply_symm_apply, fromBlocks_apply₁₂, Matrix.add_apply, Matrix.smul_apply, Mat.toM_apply, v1, v2]
      rw [r3 i i.2 j j.2, Matrix.zero_apply, smul_zero, add_zero]
  · revert j
    refine key _ (fun j => ?_) (fun j => ?_)
    · simp only [Matrix.submatrix_apply, Equiv.apply_symm_apply, fromBlocks_apply₂₁, Matrix.add_apply, Matrix.smul_apply, Mat.toM_apply, v1, v2]
      rw [r4 i i.2 j j.2, Matrix.zero_apply, smul_zero, add_zero]
    · simp only [Matrix.submatrix_apply, Equiv.apply_symm_apply, fromBlocks_apply₂₂, Matrix.add_apply, Matrix.smul_apply, Mat.toM_apply, v2]
      rw [r2 i i.2 j j.2, e2]

/-- C119 (partial as above). Two observations of the same time with independent noise can be given to the filter one by one or as one: the estimates
are the same. -/
theorem c119_stacked_partial (h : Buf Belief) (ho : Ok n h) (t : Int) (g : Gauss n) (hg : estimates n h t = some g) (a b o : Obs)
    (ha : a.Valid n) (hb : b.Valid n) (hpa : Plain a.cfg) (hpb : Plain b.cfg) (hpo : Plain o.cfg) (hR : (o.R.toM o.m o.m).PosSemidef) (hboth : Both a b o) :
    ∃ h1 h1', calls h [a.call t, b.call t] = .ok (h1, [true, true]) ∧ calls h [o.call t] = .ok (h1', [true]) ∧ estimates n h1 = estimates n h1' := by
  have hpsd := Certainty.psd_at ho hg
  obtain ⟨mH, mz, mN⟩ := both_mats ha hb hboth _ rfl
  set e := (finCongr hboth.1).trans finSumFinEquiv.symm with he
  have hN := Alg.blocks_pd hpsd ha.2.2.2.2.2.1 hb.2.2.2.2.2.1
  have hvo : o.Valid n := by
    obtain ⟨hm, hc, hz, hH, hZ, hRR, e1, e2, hgate⟩ := hboth
    refine ⟨⟨by rw [hH.1, hm, ha.1.1, hb.1.1], by rw [hc, ha.1.2]⟩, ⟨by rw [hRR.1, hm, ha.2.1.1, hb.2.1.1], by rw [hRR.2.1, hm, ha.2.1.2, hb.2.1.2]⟩,
      ⟨by rw [hZ.1, hm, ha.2.2.1.1, hb.2.2.1.1], hz⟩, hR, by rw [e1]; exact ha.2.2.2.2.1, ?_, hgate⟩
    show o.N.PosDef
    rw [mN]
    exact hN.submatrix e.injective
  obtain ⟨h1, hc1, _, he1⟩ := list_run ho hg [a, b] (by
    intro x hx
    simp only [List.mem_cons, List.not_mem_nil, or_false] at hx
    rcases hx with rfl | rfl
    · exact ⟨ha, hpa⟩
    · exact ⟨hb, hpb⟩)
  obtain ⟨h1', hc1', _, he1'⟩ := list_run ho hg [o] (by
    intro x hx
    simp only [List.mem_cons, List.not_mem_nil, or_false] at hx
    subst hx
    exact ⟨hvo, hpo⟩)
  refine ⟨h1, h1', hc1, hc1', ?_⟩
  rw [he1, he1']
  congr 2
  simp only [List.foldl_cons, List.foldl_nil]
  obtain ⟨b1, b2⟩ := Alg.both_eq hpsd (a.H.toM a.m n) ha.2.2.2.2.2.1 (b.H.toM b.m n) hb.2.2.2.2.2.1 g.mean (a.z.toM a.m 1) (b.z.toM b.m 1)
  have hgain : Alg.gain g.cov (o.H.toM o.m n) o.N = (Alg.gain g.cov (fromRows (a.H.toM a.m n) (b.H.toM b.m n)) (fromBlocks a.N 0 0 b.N)).submatrix id e := by
    rw [mH, mN]
    exact Alg.gain_reindex _ _ _ e
  refine Gauss.ext ?_ ?_
  · show _ = g.mean + Alg.gain g.cov (o.H.toM o.m n) o.N * (o.z.toM o.m 1 - o.H.toM o.m n * g.mean)
    have hz : o.z.toM o.m 1 - o.H.toM o.m n * g.mean =
        (fromRows (a.z.toM a.m 1) (b.z.toM b.m 1) - fromRows (a.H.toM a.m n) (b.H.toM b.m n) * g.mean).submatrix e id := by
      rw [mz, mH]
      ext i j
      rfl
    rw [hgain, hz, Matrix.submatrix_mul_equiv, Matrix.submatrix_id_id]
    exact b2.symm
  · show Alg.apos _ _ _ = (1 - Alg.gain g.cov (o.H.toM o.m n) o.N * o.H.toM o.m n) * g.cov
    rw [hgain, mH, Matrix.submatrix_mul_equiv, Matrix.submatrix_id_id]
    exact b1.symm

/-! ## Isolated instances -/

section Isolated
open Mat Hdl

variable {fp : FP} {near : Mat → Mat} {pred : ℕ → Inst → Int → Inst × Bool} {dim : ℕ → ℕ} {h h1 h1' : Hdl} {c : Central}

/-- The observation `x.2` of the instance `x.1` in the centralised filter. -/
noncomputable def updC (t : Int) (c : Central) (x : ℕ × Obs) : Central :=
  c.transform x.1 (updM x.2.H x.2.R (c.cov x.1 x.1) x.2.cfg.eps)
    (c.mu x.1 + gainM x.2.H x.2.R (c.cov x.1 x.1) x.2.cfg.eps * (x.2.z - x.2.H * c.mu x.1)) (postM x.2.H x.2.R (c.cov x.1 x.1) x.2.cfg) t (c.fix x.1)

/-- Sizes, and covariances that are some. -/
def Good (dim : ℕ → ℕ) (c : Central) (id : ℕ) : Prop :=
  (c.mu id).Shape (dim id) 1 ∧ (c.cov id id).Shape (dim id) (dim id) ∧ ((c.cov id id).toM (dim id) (dim id)).PosSemidef

theorem obs_shape {o : Obs} {n : ℕ} {x P : Mat} (hv : o.Valid n) (hx : x.Shape n 1) (hP : P.Shape n n) : ObsShape o.H o.R (o.z - o.H * x) P n o.m :=
  ⟨hv.1, hv.2.1, Shape.sub (n := o.m) (m := 1) hv.2.2.1, hP⟩

/-- The covariance an observation leaves. -/
theorem post_val {o : Obs} {n : ℕ} {r P : Mat} (hv : o.Valid n) (hp : Plain o.cfg) (hO : ObsShape o.H o.R r P n o.m) (hP : (P.toM n n).PosSemidef) :
    (postM o.H o.R P o.cfg).toM n n = Alg.apos (P.toM n n) (o.H.toM o.m n) o.N := by
  have hp0 : (post0 o.H o.R P o.cfg).toM n n = Alg.apos (P.toM n n) (o.H.toM o.m n) o.N := by
    rw [toM_post0 hO hP hv.2.2.2.1]
    rcases hp with h0 | h0
    · split
      · unfold Obs.N
        rw [h0, zero_smul, add_zero]
        have hd : (o.R.toM o.m o.m).PosDef := by have := hv.2.2.2.2.2.1; rwa [h0, zero_smul, add_zero] at this
        exact Alg.joseph_gain hP _ (Alg.innov_pd hP _ hd)
      · rfl
    · rw [h0.1]; rfl
  have hs : ((post0 o.H o.R P o.cfg).toM n n).transpose = (post0 o.H o.R P o.cfg).toM n n := by
    rw [hp0]
    exact Alg.psd_symm (Alg.apos_psd hP _ hv.2.2.2.2.2.1)
  have hq : (if o.cfg.stab then stabM (post0 o.H o.R P o.cfg) o.cfg.eps else post0 o.H o.R P o.cfg).toM n n = Alg.apos (P.toM n n) (o.H.toM o.m n) o.N := by
    split
    · rename_i hst
      rw [toM_stabM_symm (post0_shape hO _) _ hs, hp0]
      rcases hp with h0 | h0
      · rw [h0, zero_smul, add_zero]
      · rw [h0.2] at hst
        cases hst
    · exact hp0
  have hsh : (if o.cfg.stab then stabM (post0 o.H o.R P o.cfg) o.cfg.eps else post0 o.H o.R P o.cfg).Shape n n := by
    split
    · exact (post0_shape hO _).stabM _
    · exact post0_shape hO _
  unfold postM
  have hsy : (Alg.apos (P.toM n n) (o.H.toM o.m n) o.N)ᵀ = Alg.apos (P.toM n n) (o.H.toM o.m n) o.N :=
    Alg.psd_symm (Alg.apos_psd hP _ hv.2.2.2.2.2.1)
  rw [toM_symM hsh, hq, hsy, ← two_smul ℝ, smul_smul]
  norm_num

theorem updC_good {t : Int} {a : ℕ × Obs} {id : ℕ} (hg : Good dim c id) (hga : Good dim c a.1) (hv : a.2.Valid (dim a.1)) (hp : Plain a.2.cfg) :
    Good dim (updC t c a) id := by
  unfold Good updC Central.transform
  by_cases h : id = a.1
  · subst h
    have hO := obs_shape hv hga.1 hga.2.1
    simp only [if_true, and_self]
    refine ⟨hga.1.add, postM_shape hO _, ?_⟩
    rw [post_val hv hp hO hga.2.2]
    exact Alg.apos_psd hga.2.2 _ hv.2.2.2.2.2.1
  · simp only [h, if_false, false_and]
    exact hg

theorem _root_.Ikf.Central.ext' {c d : Central} (h1 : c.tm = d.tm) (h2 : c.mu = d.mu) (h3 : c.cov = d.cov) (h4 : c.fix = d.fix) : c = d := by
  cases c; cases d; simp_all

/-- Two observations of the same instance. -/
theorem pair_comm {n : ℕ} {a b : Obs} {P x : Mat} (hx : x.Shape n 1) (hPs : P.Shape n n) (hP : (P.toM n n).PosSemidef) (hva : a.Valid n) (hvb : b.Valid n)
    (hpa : Plain a.cfg) (hpb : Plain b.cfg) {x1 x2 P1 P2 : Mat} (e1 : x1 = x + gainM a.H a.R P a.cfg.eps * (a.z - a.H * x)) (e2 : P1 = postM a.H a.R P a.cfg)
    (e3 : x2 = x + gainM b.H b.R P b.cfg.eps * (b.z - b.H * x)) (e4 : P2 = postM b.H b.R P b.cfg) :
    x1 + gainM b.H b.R P1 b.cfg.eps * (b.z - b.H * x1) = x2 + gainM a.H a.R P2 a.cfg.eps * (a.z - a.H * x2) ∧
    postM b.H b.R P1 b.cfg = postM a.H a.R P2 a.cfg ∧
    updM b.H b.R P1 b.cfg.eps * updM a.H a.R P a.cfg.eps = updM a.H a.R P2 a.cfg.eps * updM b.H b.R P b.cfg.eps := by
  have sx1 : x1.Shape n 1 := by rw [e1]; exact hx.add
  have sx2 : x2.Shape n 1 := by rw [e3]; exact hx.add
  have hOa := obs_shape hva hx hPs
  have hOb := obs_shape hvb hx hPs
  have sP1 : P1.Shape n n := by rw [e2]; exact postM_shape hOa _
  have sP2 : P2.Shape n n := by rw [e4]; exact postM_shape hOb _
  have vP1 : P1.toM n n = Alg.apos (P.toM n n) (a.H.toM a.m n) a.N := by rw [e2]; exact post_val hva hpa hOa hP
  have vP2 : P2.toM n n = Alg.apos (P.toM n n) (b.H.toM b.m n) b.N := by rw [e4]; exact post_val hvb hpb hOb hP
  have pP1 : (P1.toM n n).PosSemidef := by rw [vP1]; exact Alg.apos_psd hP _ hva.2.2.2.2.2.1
  have pP2 : (P2.toM n n).PosSemidef := by rw [vP2]; exact Alg.apos_psd hP _ hvb.2.2.2.2.2.1
  have hOb1 := obs_shape hvb sx1 sP1
  have hOa2 := obs_shape hva sx2 sP2
  have mean : ∀ (o : Obs) (x P : Mat), o.Valid n → x.Shape n 1 → P.Shape n n → (P.toM n n).PosSemidef →
      (x + gainM o.H o.R P o.cfg.eps * (o.z - o.H * x)).toM n 1 =
        x.toM n 1 + Alg.gain (P.toM n n) (o.H.toM o.m n) o.N * (o.z.toM o.m 1 - o.H.toM o.m n * x.toM n 1) := by
    intro o x P hv hx hPs hP
    have hO := obs_shape hv hx hPs
    have hz : o.z.Shape o.m 1 := hv.2.2.1
    rw [hx.toM_add ((gainM_shape hO _).mul hO.r), (gainM_shape hO _).toM_mul, hz.toM_sub (hO.H.mul hx), hO.H.toM_mul, toM_gainM hO hP hv.2.2.2.1]
    rfl
  refine ⟨?_, ?_, ?_⟩
  · apply toM_inj (n := n) (m := 1) (sx1.add).1 (sx1.add).2 (sx2.add).1 (sx2.add).2
    rw [mean b x1 P1 hvb sx1 sP1 pP1, mean a x2 P2 hva sx2 sP2 pP2, vP1, vP2, e1, e3, mean a x P hva hx hPs hP, mean b x P hvb hx hPs hP]
    exact Alg.mean_comm hP _ hva.2.2.2.2.2.1 _ hvb.2.2.2.2.2.1 _ _ _
  · apply toM_inj (n := n) (m := n) (postM_shape hOb1 _).1 (postM_shape hOb1 _).2 (postM_shape hOa2 _).1 (postM_shape hOa2 _).2
    rw [post_val hvb hpb hOb1 pP1, post_val hva hpa hOa2 pP2, vP1, vP2]
    exact Alg.apos_comm hP _ hva.2.2.2.2.2.1 _ hvb.2.2.2.2.2.1
  · have u1 := (updM_shape hOb1 b.cfg.eps).mul (updM_shape hOa a.cfg.eps)
    have u2 := (updM_shape hOa2 a.cfg.eps).mul (updM_shape hOb b.cfg.eps)
    apply toM_inj (n := n) (m := n) u1.1 u1.2 u2.1 u2.2
    rw [(updM_shape hOb1 _).toM_mul, (updM_shape hOa2 _).toM_mul, toM_updM hOb1 pP1 hvb.2.2.2.1, toM_updM hOa hP hva.2.2.2.1,
      toM_updM hOa2 pP2 hva.2.2.2.1, toM_updM hOb hP hvb.2.2.2.1, vP1, vP2]
    exact Alg.factor_comm hP _ hva.2.2.2.2.2.1 _ hvb.2.2.2.2.2.1

theorem updC_comm {t : Int} {a b : ℕ × Obs} (hga : Good dim c a.1) (hva : a.2.Valid (dim a.1)) (hvb : b.2.Valid (dim b.1))
    (hpa : Plain a.2.cfg) (hpb : Plain b.2.cfg) : updC t (updC t c a) b = updC t (updC t c b) a := by
  obtain ⟨i, a⟩ := a
  obtain ⟨j, b⟩ := b
  simp only at *
  by_cases hij : i = j
  · subst hij
    obtain ⟨k1, k2, k3⟩ := pair_comm hga.1 hga.2.1 hga.2.2 hva hvb hpa hpb rfl rfl rfl rfl
    unfold updC Central.transform
    simp only [if_true, and_self]
    refine Central.ext' rfl ?_ ?_ ?_
    · funext p
      simp only
      split
      · exact k1
      · rfl
    · funext p q
      simp only
      by_cases hp : p = i
      · by_cases hq : q = i
        · simp only [hp, hq, and_self, if_true]
          exact k2
        · simp only [hp, hq, and_false, if_false, if_true]
          rw [← Mat.mul_assoc, ← Mat.mul_assoc, k3]
      · by_cases hq : q = i
        · simp only [hp, hq, false_and, if_false, if_true]
          rw [Mat.mul_assoc, Mat.mul_assoc, ← tr_mul, ← tr_mul, k3]
        · simp only [hp, hq, false_and, if_false]
    · funext p
      simp only
  · have hji : ¬ j = i := fun e => hij e.symm
    unfold updC Central.transform
    simp only [hij, hji, if_false, and_self]
    refine Central.ext' ?_ ?_ ?_ ?_
    · funext p
      simp only
      split <;> split <;> rfl
    · funext p
      simp only
      split <;> split <;> simp_all
    · funext p q
      simp only
      by_cases hp : p = i
      · subst hp
        by_cases hq : q = j
        · subst hq
          simp [hij, hji, Mat.mul_assoc]
        · by_cases hq' : q = p
          · subst hq'; simp [hij]
          · simp [hij, hq, hq']
      · by_cases hp' : p = j
        · subst hp'
          by_cases hq : q = i
          · subst hq
            simp [hij, hji, Mat.mul_assoc]
          · by_cases hq' : q = p
            · subst hq'; simp [hji]
            · simp [hji, hq, hq']
        · by_cases hq : q = i
          · subst hq; simp [hp, hp', hij]
          · simp [hp, hp', hq]
    · funext p
      simp only
      split <;> split <;> simp_all

theorem foldC_perm {t : Int} {l l' : List (ℕ × Obs)} (hp : l.Perm l') (hg : ∀ x ∈ l, Good dim c x.1) (hv : ∀ x ∈ l, x.2.Valid (dim x.1) ∧ Plain x.2.cfg) :
    l.foldl (updC t) c = l'.foldl (updC t) c := by
  induction hp generalizing c with
  | nil => rfl
  | cons o _ ih =>
    refine ih (fun x hx => updC_good (hg x (by simp [hx])) (hg o (by simp)) (hv o (by simp)).1 (hv o (by simp)).2) (fun x hx => hv x (by simp [hx]))
  | swap a b l =>
    simp only [List.foldl_cons]
    rw [updC_comm (hg b (by simp)) (hv b (by simp)).1 (hv a (by simp)).1 (hv b (by simp)).2 (hv a (by simp)).2]
  | trans h1 h2 ih1 ih2 =>
    rw [ih1 hg hv]
    exact ih2 (fun x hx => hg x (h1.symm.subset hx)) (fun x hx => hv x (h1.symm.subset hx))

/-- Accepted observations are those of the centralised filter. -/
theorem runs_fold (hnear : NearOk near) {t : Int} {l : List (ℕ × Obs)} (hr : Rel dim h c) (hs : Runs fp near pred dim h (l.map fun x => (x.2.event x.1 t, true)) h1) :
    Rel dim h1 (l.foldl (updC t) c) ∧ SameDom h h1 ∧ ∀ p, Newest h p t → Newest h1 p t := by
  induction l generalizing h c with
  | nil =>
    cases hs
    exact ⟨hr, fun _ => rfl, fun _ hp => hp⟩
  | cons x l ih =>
    rw [List.map_cons] at hs
    cases hs with
    | step hw hs r =>
      rename_i h2
      obtain ⟨c', hst, hr'⟩ := Hdl.accepted hnear hr _ hw hs
      have hd := step_dom hr _ hw hs
      have hN : Newest h x.1 t := hw
      obtain ⟨hid, htm⟩ := hN.rel hr
      have hc' : c' = updC t c x := by
        unfold Obs.event at hst
        cases hst with
        | privKF _ _ _ _ _ _ res hc hrj =>
          obtain ⟨hO, hres⟩ := Inst.correctionStep_accept (hr.covS _ _ hid hid) x.2.cfg res hc hrj
          unfold updC
          rw [hres]
          simp only
          congr 1
          unfold updM
          rw [(hr.covS _ _ hid hid).1]
      subst hc'
      obtain ⟨k1, k2, k3⟩ := ih hr' r
      refine ⟨k1, fun p => by rw [k2 p, hd p], fun p hp => k3 p ?_⟩
      obtain ⟨hp1, hp2⟩ := hp.rel hr
      refine Newest.of_rel hr' (sameDom_isSome hd hp1) ?_
      show (if p = x.1 then t else c.tm p) = t
      split
      · rfl
      · exact hp2

/-- Observations that fit are accepted, one after another. -/
theorem runs_exist (hnear : NearOk near) {t : Int} (l : List (ℕ × Obs)) (hr : Rel dim h c) (hN : ∀ x ∈ l, Newest h x.1 t) (hv : ∀ x ∈ l, x.2.Valid (dim x.1)) :
    ∃ h1, Runs fp near pred dim h (l.map fun x => (x.2.event x.1 t, true)) h1 := by
  induction l generalizing h c with
  | nil => exact ⟨h, .nil _⟩
  | cons x l ih =>
    have hx := hv x (by simp)
    obtain ⟨⟨v1, v2⟩, ⟨v3, v4⟩, ⟨v5, v6⟩, -, -, -, hgate⟩ := hx
    have hw : Wf dim h (x.2.event x.1 t) := hN x (by simp)
    obtain ⟨h2, a, hs, ha⟩ := progress_rel (fp := fp) (pred := pred) hnear hr (x.2.event x.1 t) hw
      ⟨v2, ⟨v3.trans v1.symm, v4.trans v1.symm⟩, ⟨v5.trans v1.symm, v6⟩, Or.inl hgate⟩
    rw [ha hgate] at hs
    obtain ⟨hr2, -, hn⟩ := runs_fold (l := [x]) hnear hr (.step hw hs (.nil _))
    obtain ⟨h1, hr1⟩ := ih hr2 (fun y hy => hn _ (hN y (by simp [hy]))) (fun y hy => hv y (by simp [hy]))
    exact ⟨h1, .step hw hs hr1⟩

/-- C119 (partial as above). Isolated instances that are given several private observations of the same time, of the same or of different instances, accept them in
every order, and afterwards the mean of every instance and the covariance of every pair do not depend on the order. -/
theorem c119_isolated_partial (hnear : NearOk near) (hreach : Reach fp near pred dim h) (t : Int) (l l' : List (ℕ × Obs)) (hp : l.Perm l')
    (hN : ∀ x ∈ l, Newest h x.1 t) (hv : ∀ x ∈ l, x.2.Valid (dim x.1) ∧ Plain x.2.cfg)
    (hpsd : ∀ x ∈ l, ∃ P, IsCov dim h x.1 x.1 t P ∧ (P.toM (dim x.1) (dim x.1)).PosSemidef) :
    ∃ h1 h1', Runs fp near pred dim h (l.map fun x => (x.2.event x.1 t, true)) h1 ∧ Runs fp near pred dim h (l'.map fun x => (x.2.event x.1 t, true)) h1' ∧
    ∀ p q, Newest h p t → Newest h q t →
      (∃ m, IsMean h1 p t m ∧ IsMean h1' p t m) ∧ ∃ C, IsCov dim h1 p q t C ∧ IsCov dim h1' p q t C := by
  obtain ⟨c, hr⟩ := hreach.rel hnear
  obtain ⟨h1, hs⟩ := runs_exist (fp := fp) (pred := pred) hnear l hr hN (fun x hx => (hv x hx).1)
  obtain ⟨h1', hs'⟩ := runs_exist (fp := fp) (pred := pred) hnear l' hr (fun x hx => hN x (hp.symm.subset hx)) (fun x hx => (hv x (hp.symm.subset hx)).1)
  obtain ⟨r1, d1, n1⟩ := runs_fold hnear hr hs
  obtain ⟨r2, d2, n2⟩ := runs_fold hnear hr hs'
  have hfold : l.foldl (updC t) c = l'.foldl (updC t) c := by
    refine foldC_perm hp (fun x hx => ?_) hv
    obtain ⟨P, hP, hPp⟩ := hpsd x hx
    obtain ⟨hid, htm⟩ := (hN x hx).rel hr
    rw [← (hr.isCov (hN x hx) (hN x hx)).unique hP] at hPp
    exact ⟨hr.muS _ hid, hr.covS _ _ hid hid, hPp⟩
  rw [← hfold] at r2
  refine ⟨h1, h1', hs, hs', fun p q hp hq => ?_⟩
  exact ⟨⟨_, r1.isMean (n1 p hp), r2.isMean (n2 p hp)⟩, ⟨_, r1.isCov (n1 p hp) (n1 q hq), r2.isCov (n2 p hp) (n2 q hq)⟩⟩

end Isolated

/-! ## What regularisation breaks -/

section Fails
open MathExample Certainty

/-- The variance an observation of a scalar leaves. -/
noncomputable def after (p r : ℝ) : ℝ := (1 - p * (p + (r + 1 / 10 ^ 16))⁻¹) * p - 1 / 10 ^ 16 * (p * (p + (r + 1 / 10 ^ 16))⁻¹) ^ 2 + 1 / 10 ^ 16

theorem observe_any {h : Buf Belief} (ho : Ok 1 h) {g : Gauss 1} (hg : estimates 1 h 0 = some g) {p r : ℝ} (hp : 0 ≤ p) (hr : 0 ≤ r) (hgc : g.cov = p • 1) :
    ∃ h', call h (observe r) = .ok (h', true) ∧ Ok 1 h' ∧ ∃ g', estimates 1 h' 0 = some g' ∧ g'.cov = after p r • (1 : Matrix (Fin 1) (Fin 1) ℝ) := by
  obtain ⟨b, hb, _⟩ := Option.map_eq_some_iff.mp hg
  obtain ⟨h', a, hc, ha⟩ := ((c100_defined (m := 1) h ho 0 b hb).2.2 (sc 1) (sc r) (sc 0) { outlier := false } rfl rfl rfl rfl rfl rfl (Or.inl rfl)).1
  rw [ha rfl] at hc
  obtain ⟨ht, ho'⟩ := call_true ho (observe r) (observe_fits hr) hc
  refine ⟨h', hc, ho', ?_⟩
  generalize he : estimates 1 h' = f1 at ht ⊢
  unfold observe at ht
  cases ht with
  | priv _ _ _ _ _ g2 hg2 =>
    rw [Function.update_self]
    refine ⟨_, rfl, ?_⟩
    rw [hg] at hg2
    cases hg2
    have hu : ∀ e : ℝ, 0 < e → ∀ d : Matrix (Fin 1) (Fin 1) ℝ, (Gauss.updateReg g ((sc 1).toM 1 1) ((sc r).toM 1 1) d e true true).cov =
        ((1 - p * (p + (r + e))⁻¹) * p - e * (p * (p + (r + e))⁻¹) ^ 2 + e) • (1 : Matrix (Fin 1) (Fin 1) ℝ) := by
      intro e he d
      rw [sc_eq 1, one_smul, sc_eq r]
      exact scalar_update _ p r e hgc (by positivity) _
    exact hu _ (by norm_num) _

/-- C119 fails with the default configuration (but for the gate): two observations of a state with variance 1, with noise covariances 1 and 2, leave another variance
in one order than in the other. -/
theorem c119_order_fails : ∃ (h h1 h1' : Buf Belief) (a b : KCall), Ok 1 h ∧ a.Fits 1 ∧ b.Fits 1 ∧ IsObs a ∧ IsObs b ∧
    calls h [a, b] = .ok (h1, [true, true]) ∧ calls h [b, a] = .ok (h1', [true, true]) ∧ estimates 1 h1 ≠ estimates 1 h1' := by
  have two : ∀ r r' : ℝ, 0 ≤ r → 0 ≤ r' → 0 ≤ after 1 r → ∃ h1, calls (scalar 1) [observe r, observe r'] = .ok (h1, [true, true]) ∧
      ∃ g, estimates 1 h1 0 = some g ∧ g.cov = after (after 1 r) r' • (1 : Matrix (Fin 1) (Fin 1) ℝ) := by
    intro r r' hr hr' ha
    obtain ⟨h1, hc1, ho1, g1, hg1, hv1⟩ := observe_any (scalar_ok zero_le_one) (by rw [scalar_est, if_pos rfl]) zero_le_one hr rfl
    obtain ⟨h2, hc2, ho2, g2, hg2, hv2⟩ := observe_any ho1 hg1 ha hr' hv1
    refine ⟨h2, ?_, g2, hg2, hv2⟩
    simp only [calls, hc1, hc2, Res.bind_ok]
  obtain ⟨h1, hc, g, hg, hv⟩ := two 1 2 zero_le_one zero_le_two (by unfold after; norm_num)
  obtain ⟨h1', hc', g', hg', hv'⟩ := two 2 1 zero_le_two zero_le_one (by unfold after; norm_num)
  refine ⟨scalar 1, h1, h1', observe 1, observe 2, scalar_ok zero_le_one, observe_fits zero_le_one, observe_fits zero_le_two, trivial, trivial, hc, hc', fun heq => ?_⟩
  rw [heq, hg'] at hg
  cases hg
  rw [hv] at hv'
  have := congrFun (congrFun hv' 0) 0
  simp only [Matrix.smul_apply, Matrix.one_apply_eq, smul_eq_mul, _root_.mul_one] at this
  unfold after at this
  norm_num at this

end Fails

/-! ## Examples -/

section Examples
open MathExample Certainty

theorem sc_e (x : ℝ) (i j : ℕ) : (sc x).e i j = if i = 0 ∧ j = 0 then x else 0 := by
  unfold sc Mat.ofM Mat.of
  simp only
  by_cases h : i = 0 ∧ j = 0
  · obtain ⟨rfl, rfl⟩ := h
    simp
  · rw [if_neg h, if_neg (by omega)]

/-- Observing a scalar. -/
noncomputable def one1 (r z : ℝ) : Obs := ⟨1, sc 1, sc r, sc z, { outlier := false, eps := 0 }⟩

theorem one1_valid {r z : ℝ} (hr : 0 < r) : (one1 r z).Valid 1 ∧ Plain (one1 r z).cfg :=
  ⟨⟨⟨rfl, rfl⟩, ⟨rfl, rfl⟩, ⟨rfl, rfl⟩, sc_psd hr.le, le_rfl, (sc_pd hr).add_posSemidef (Alg.smul_one_psd le_rfl), rfl⟩, Or.inl rfl⟩

/-- The hypotheses of `c119_any_order_partial` are met by three observations of a scalar. -/
example : ∃ (os os' : List Obs), os.length = 3 ∧ os ≠ os' ∧ os.Perm os' ∧ (∀ o ∈ os, o.Valid 1 ∧ Plain o.cfg) ∧ Ok 1 (scalar 1) ∧
    ∃ g, estimates 1 (scalar 1) 0 = some g := by
  refine ⟨[one1 1 5, one1 2 6, one1 3 7], [one1 2 6, one1 1 5, one1 3 7], rfl, ?_, List.Perm.swap _ _ _, ?_, scalar_ok zero_le_one, _, by rw [scalar_est, if_pos rfl]⟩
  · intro h
    have := congrArg (fun o => (o.R.e 0 0)) (List.cons.inj h).1
    simp [one1, sc_e] at this
  · intro o ho
    simp only [List.mem_cons, List.not_mem_nil, or_false] at ho
    rcases ho with rfl | rfl | rfl <;> exact one1_valid (by norm_num)

/-- Two observations of a scalar as one. -/
noncomputable def both1 : Obs := ⟨2, Mat.of 2 1 fun _ _ => 1, Mat.of 2 2 fun i j => if i = 0 ∧ j = 0 then 1 else if i = 1 ∧ j = 1 then 2 else 0,
  Mat.of 2 1 fun i _ => if i = 0 then 5 else 6, { outlier := false, eps := 0 }⟩

/-- The hypotheses of `c119_stacked_partial` are met. -/
example : Both (one1 1 5) (one1 2 6) both1 ∧ Plain both1.cfg ∧ (both1.R.toM both1.m both1.m).PosSemidef := by
  refine ⟨⟨rfl, rfl, rfl, ⟨rfl, ?_, ?_⟩, ⟨rfl, ?_, ?_⟩, ⟨rfl, rfl, ?_, ?_, ?_, ?_⟩, rfl, rfl, rfl⟩, Or.inl rfl, ?_⟩
  · intro i hi j
    obtain rfl : i = 0 := by change i < 1 at hi; omega
    simp only [one1, both1, sc_e, Mat.of]
    by_cases hj : j = 0 <;> simp [hj]
  · intro i hi j
    obtain rfl : i = 0 := by change i < 1 at hi; omega
    simp only [one1, both1, sc_e, Mat.of]
    by_cases hj : j = 0 <;> simp [hj, sc, Mat.ofM, Mat.of]
  · intro i hi j
    obtain rfl : i = 0 := by change i < 1 at hi; omega
    simp only [one1, both1, sc_e, Mat.of]
    by_cases hj : j = 0 <;> simp [hj]
  · intro i hi j
    obtain rfl : i = 0 := by change i < 1 at hi; omega
    simp only [one1, both1, sc_e, Mat.of]
    by_cases hj : j = 0 <;> simp [hj, sc, Mat.ofM, Mat.of]
  · intro i hi j hj
    obtain rfl : i = 0 := by change i < 1 at hi; omega
    obtain rfl : j = 0 := by change j < 1 at hj; omega
    simp [one1, both1, sc_e, Mat.of]
  · intro i hi j hj
    obtain rfl : i = 0 := by change i < 1 at hi; omega
    obtain rfl : j = 0 := by change j < 1 at hj; omega
    simp [one1, both1, sc, Mat.ofM, Mat.of]
  · intro i hi j hj
    obtain rfl : i = 0 := by change i < 1 at hi; omega
    obtain rfl : j = 0 := by change j < 1 at hj; omega
    simp [one1, both1, sc, Mat.ofM, Mat.of]
  · intro i hi j hj
    obtain rfl : i = 0 := by change i < 1 at hi; omega
    obtain rfl : j = 0 := by change j < 1 at hj; omega
    simp [one1, both1, sc, Mat.ofM, Mat.of]
  · have : both1.R.toM 2 2 = Matrix.diagonal ![(1 : ℝ), 2] := by
      ext i j
      fin_cases i <;> fin_cases j <;> simp [both1, Mat.toM, Mat.of]
    show (both1.R.toM 2 2).PosSemidef
    rw [this]
    refine Matrix.PosSemidef.diagonal fun i => ?_
    fin_cases i <;> simp

/-- The hypotheses of `c119_isolated_partial` are met: two observations of one instance and one of another. -/
example : ∃ l l' : List (ℕ × Obs), l.length = 3 ∧ l.Perm l' ∧ Hdl.Reach FP.exact Hdl.Example.near Hdl.Example.pred Hdl.Example.dim Hdl.Example.h0 ∧
    (∀ x ∈ l, Hdl.Newest Hdl.Example.h0 x.1 0) ∧ (∀ x ∈ l, x.2.Valid (Hdl.Example.dim x.1) ∧ Plain x.2.cfg) ∧
    ∀ x ∈ l, ∃ P, Hdl.IsCov Hdl.Example.dim Hdl.Example.h0 x.1 x.1 0 P ∧ (P.toM (Hdl.Example.dim x.1) (Hdl.Example.dim x.1)).PosSemidef := by
  refine ⟨[(1, one1 1 5), (2, one1 2 6), (1, one1 3 7)], [(2, one1 2 6), (1, one1 1 5), (1, one1 3 7)], rfl, List.Perm.swap _ _ _, Hdl.Example.reach0, ?_, ?_, ?_⟩
  · intro x hx
    simp only [List.mem_cons, List.not_mem_nil, or_false] at hx
    rcases hx with rfl | rfl | rfl
    · exact Hdl.Example.newest0 (Or.inl rfl)
    · exact Hdl.Example.newest0 (Or.inr rfl)
    · exact Hdl.Example.newest0 (Or.inl rfl)
  · intro x hx
    simp only [List.mem_cons, List.not_mem_nil, or_false] at hx
    rcases hx with rfl | rfl | rfl <;> exact one1_valid (by norm_num)
  · intro x hx
    have hp : ((Hdl.Example.s 2).toM 1 1).PosSemidef := by
      have : (Hdl.Example.s 2).toM 1 1 = (2 : ℝ) • 1 := by
        ext i j; fin_cases i; fin_cases j; simp [Hdl.Example.s, Mat.toM, Mat.of]
      rw [this]
      exact Alg.smul_one_psd zero_le_two
    have hx' : x.1 = 1 ∨ x.1 = 2 := by
      simp only [List.mem_cons, List.not_mem_nil, or_false] at hx
      rcases hx with rfl | rfl | rfl <;> simp
    refine ⟨Hdl.Example.s 2, Or.inl ⟨rfl, Hdl.Example.b0, ?_, rfl⟩, hp⟩
    rcases hx' with h | h <;> rw [h] <;> rfl

end Examples

end Simultaneous
end Ikf
