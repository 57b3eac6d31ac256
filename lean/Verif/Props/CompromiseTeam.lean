import Verif.Props.Compromise
import Verif.Props.RegionTeam

/-! # Property C142: joint measurements of isolated filters are the best compromise, too -/

namespace Ikf
namespace Simultaneous
open Mat Hdl Honest

section
variable {n m : ℕ} {fp : FP} {near : Mat → Mat} {pred : ℕ → Inst → Int → Inst × Bool} {dim : ℕ → ℕ} {h h' : Hdl}

theorem least {S : Matrix (Fin n) (Fin n) ℝ} (hS : S.PosDef) {N : Matrix (Fin m) (Fin m) ℝ} (hN : N.PosDef) (H : Matrix (Fin m) (Fin n) ℝ) (μ : Vec n) (z : Vec m) (x : Vec n)
    (hx : x ≠ μ + Alg.gain S H N * (z - H * μ)) :
    surprise S (μ + Alg.gain S H N * (z - H * μ) - μ) + surprise N (z - H * (μ + Alg.gain S H N * (z - H * μ))) < surprise S (x - μ) + surprise N (z - H * x) := by
  have key := fun x => congrFun (congrFun (complete hS hN H μ x z) 0) 0
  have k1 := key (μ + Alg.gain S H N * (z - H * μ))
  have k2 := key x
  rw [sub_self] at k1
  simp only [Matrix.add_apply, Matrix.mul_zero, Matrix.zero_apply, add_zero] at k1 k2
  unfold surprise
  rw [k1, k2, lt_add_iff_pos_right]
  have pd : (S⁻¹ + H.transpose * N⁻¹ * H).PosDef := by
    refine hS.inv.add_posSemidef ?_
    have := Alg.psd_congr hN.inv.posSemidef H.transpose
    rwa [Matrix.transpose_transpose] at this
  by_contra hn
  have pi := pd.inv
  have e : (S⁻¹ + H.transpose * N⁻¹ * H)⁻¹⁻¹ = S⁻¹ + H.transpose * N⁻¹ * H := Matrix.nonsing_inv_nonsing_inv _ ((Matrix.isUnit_iff_isUnit_det _).mp pd.isUnit)
  rw [← e] at hn
  exact hx (sub_eq_zero.mp (surprise_zero pi (not_lt.mp hn)))

/-- C142 for isolated filters: after a measurement of instance `p` of a team alone, its mean is the state of least cost. -/
theorem c142_isolated (hnear : NearOk near) (hreach : Reach fp near pred dim h) {p : ℕ} {t : Int} (hN : Newest h p t) {μ S : Mat} (hμ : IsMean h p t μ)
    (hS : IsCov dim h p p t S) (hP : (S.toM (dim p) (dim p)).PosDef) {H R z : Mat} {cfg : Cfg} (hH : H.Shape m (dim p)) (hR : R.Shape m m) (hz : z.Shape m 1)
    (hRp : (R.toM m m).PosSemidef) (hRe : (R.toM m m + cfg.eps • 1).PosDef) (hs : Hdl.run fp near pred h (.privKF p H R z t cfg) = .ok (h', true)) :
    ∃ μ', IsMean h' p t μ' ∧ ∀ x : Vec (dim p), x ≠ μ'.toM (dim p) 1 →
      surprise (S.toM (dim p) (dim p)) (μ'.toM (dim p) 1 - μ.toM (dim p) 1) + surprise (R.toM m m + cfg.eps • 1) (z.toM m 1 - H.toM m (dim p) * μ'.toM (dim p) 1) <
        surprise (S.toM (dim p) (dim p)) (x - μ.toM (dim p) 1) + surprise (R.toM m m + cfg.eps • 1) (z.toM m 1 - H.toM m (dim p) * x) := by
  obtain ⟨c, hr⟩ := hreach.rel hnear
  obtain ⟨hid, -⟩ := hN.rel hr
  have sμ : μ.Shape (dim p) 1 := by rw [← IsMean.unique (hr.isMean hN) hμ]; exact hr.muS p hid
  have sS : S.Shape (dim p) (dim p) := by rw [← IsCov.unique (hr.isCov hN hN) hS]; exact hr.covS p p hid hid
  have tR : R.tr = R := by
    refine Mat.ext' (by rw [hR.tr.1, hR.1]) (by rw [hR.tr.2, hR.2]) fun i j hi hj => ?_
    rw [hR.tr.1] at hi
    rw [hR.tr.2] at hj
    have := congrFun (congrFun (Alg.psd_symm hRp) ⟨i, hi⟩) ⟨j, hj⟩
    rw [Matrix.transpose_apply, toM_apply, toM_apply] at this
    rw [tr_e]
    exact this
  have tS : S.tr = S := by
    rw [← IsCov.unique (hr.isCov hN hN) hS]
    exact (hr.symm p p hid hid).symm
  obtain ⟨b, hb, ⟨b', hb', e1, -⟩, -⟩ := c23_private hnear hreach hN tR hs
  obtain ⟨b0, hb0, e0⟩ := hμ
  rw [hb] at hb0
  obtain rfl := Option.some.inj hb0
  have e2 : b.Sigma = S := by
    rcases hS with ⟨-, b1, hb1, e⟩ | ⟨hne, -⟩
    · rw [hb] at hb1
      rw [Option.some.inj hb1]
      exact e
    · exact absurd rfl hne
  rw [e0, e2] at e1
  have hO : ObsShape H R (z - H * μ) S (dim p) m := ⟨hH, hR, hz.sub, sS⟩
  have e3 : b'.mean.toM (dim p) 1 =
      μ.toM (dim p) 1 + Alg.gain (S.toM (dim p) (dim p)) (H.toM m (dim p)) (R.toM m m + cfg.eps • 1) * (z.toM m 1 - H.toM m (dim p) * μ.toM (dim p) 1) := by
    rw [← gainM_eq hO tS tR cfg.eps] at e1
    rw [e1, sμ.toM_add ((gainM_shape hO cfg.eps).mul hO.r), (gainM_shape hO cfg.eps).toM_mul, toM_gainM hO hP.posSemidef hRp, hz.toM_sub (hH.mul sμ), hH.toM_mul]
  refine ⟨b'.mean, ⟨b', hb', rfl⟩, fun x hx => ?_⟩
  rw [e3] at hx ⊢
  exact least hP hRe _ _ _ x hx

/-- C142 for isolated filters, the covariance: with no regularisation but that of the measurement noise, the covariance after a measurement of instance `p` alone says by how much the cost
of every other state is larger, and the least cost is the normalised innovation squared. -/
theorem c142_isolated_spread (hnear : NearOk near) (hreach : Reach fp near pred dim h) {p : ℕ} {t : Int} (hN : Newest h p t) {μ S : Mat} (hμ : IsMean h p t μ)
    (hS : IsCov dim h p p t S) (hP : (S.toM (dim p) (dim p)).PosDef) {H R z : Mat} {cfg : Cfg} (hH : H.Shape m (dim p)) (hR : R.Shape m m) (hz : z.Shape m 1)
    (hRp : (R.toM m m).PosSemidef) (he : 0 ≤ cfg.eps) (hRe : (R.toM m m + cfg.eps • 1).PosDef) (hp : Plain cfg) (hs : Hdl.run fp near pred h (.privKF p H R z t cfg) = .ok (h', true)) :
    ∃ μ' S', IsMean h' p t μ' ∧ IsCov dim h' p p t S' ∧ (S'.toM (dim p) (dim p)).PosDef ∧ ∀ x : Vec (dim p),
      surprise (S.toM (dim p) (dim p)) (x - μ.toM (dim p) 1) + surprise (R.toM m m + cfg.eps • 1) (z.toM m 1 - H.toM m (dim p) * x) =
        surprise (H.toM m (dim p) * S.toM (dim p) (dim p) * (H.toM m (dim p)).transpose + (R.toM m m + cfg.eps • 1)) (z.toM m 1 - H.toM m (dim p) * μ.toM (dim p) 1) +
          surprise (S'.toM (dim p) (dim p)) (x - μ'.toM (dim p) 1) := by
  obtain ⟨c, hr⟩ := hreach.rel hnear
  obtain ⟨hid, -⟩ := hN.rel hr
  have sμ : μ.Shape (dim p) 1 := by rw [← IsMean.unique (hr.isMean hN) hμ]; exact hr.muS p hid
  have sS : S.Shape (dim p) (dim p) := by rw [← IsCov.unique (hr.isCov hN hN) hS]; exact hr.covS p p hid hid
  have tR : R.tr = R := by
    refine Mat.ext' (by rw [hR.tr.1, hR.1]) (by rw [hR.tr.2, hR.2]) fun i j hi hj => ?_
    rw [hR.tr.1] at hi
    rw [hR.tr.2] at hj
    have := congrFun (congrFun (Alg.psd_symm hRp) ⟨i, hi⟩) ⟨j, hj⟩
    rw [Matrix.transpose_apply, toM_apply, toM_apply] at this
    rw [tr_e]
    exact this
  have tS : S.tr = S := by
    rw [← IsCov.unique (hr.isCov hN hN) hS]
    exact (hr.symm p p hid hid).symm
  obtain ⟨b, hb, ⟨b', hb', e1, e4⟩, -⟩ := c23_private hnear hreach hN tR hs
  obtain ⟨b0, hb0, e0⟩ := hμ
  rw [hb] at hb0
  obtain rfl := Option.some.inj hb0
  have e2 : b.Sigma = S := by
    rcases hS with ⟨-, b1, hb1, e⟩ | ⟨hne, -⟩
    · rw [hb] at hb1
      rw [Option.some.inj hb1]
      exact e
    · exact absurd rfl hne
  rw [e0, e2] at e1
  rw [e2] at e4
  have hO : ObsShape H R (z - H * μ) S (dim p) m := ⟨hH, hR, hz.sub, sS⟩
  have e3 : b'.mean.toM (dim p) 1 =
      μ.toM (dim p) 1 + Alg.gain (S.toM (dim p) (dim p)) (H.toM m (dim p)) (R.toM m m + cfg.eps • 1) * (z.toM m 1 - H.toM m (dim p) * μ.toM (dim p) 1) := by
    rw [← gainM_eq hO tS tR cfg.eps] at e1
    rw [e1, sμ.toM_add ((gainM_shape hO cfg.eps).mul hO.r), (gainM_shape hO cfg.eps).toM_mul, toM_gainM hO hP.posSemidef hRp, hz.toM_sub (hH.mul sμ), hH.toM_mul]
  let o : Obs := ⟨m, H, R, z, { cfg with outlier := false }⟩
  have hv : o.Valid (dim p) := ⟨hH, hR, hz, hRp, he, hRe, rfl⟩
  have e5 : b'.Sigma.toM (dim p) (dim p) = Alg.apos (S.toM (dim p) (dim p)) (H.toM m (dim p)) (R.toM m m + cfg.eps • 1) := by
    rw [e4]
    exact post_val (o := o) hv hp hO hP.posSemidef
  have hg : (⟨μ.toM (dim p) 1, S.toM (dim p) (dim p)⟩ : Gauss (dim p)).cov.PosDef := hP
  refine ⟨b'.mean, b'.Sigma, ⟨b', hb', rfl⟩, Or.inl ⟨rfl, b', hb', rfl⟩, ?_, fun x => ?_⟩
  · rw [e5]
    exact (upd_cov (o := o) hg hRe).1
  · rw [e5, e3]
    exact square (o := o) hg hRe x

/-- ... and after a joint measurement of several instances, none of them fixed, the stack of their means `M'` is the state of least cost, where `M` and `S` are their means and
covariances before, read by the user and stacked, `H` the measurement matrices side by side, and `S + 10⁻¹² I` stands for `S`. -/
theorem c142_isolated_joint (hnear : NearOk near) (hreach : Reach fp near pred dim h) {dH : SMap Mat} {t : Int} (hd : dH.Sorted) (hne : dH ≠ [])
    (hN : ∀ p ∈ dH.keys, Newest h p t) (he : ∀ e ∈ dH, e.2.Shape m (dim e.1) ∧ fixedAt h t e.1 = false) {C : ℕ → ℕ → Mat} {μ : ℕ → Mat}
    (hC : ∀ p ∈ dH.keys, ∀ q ∈ dH.keys, IsCov dim h p q t (C p q)) (hμ : ∀ p ∈ dH.keys, IsMean h p t (μ p)) (hP : TeamCov dim dH.keys.toFinset C)
    {H S M : Mat} (hH : SideBySide dH H) (hS : StackedCov (hcols dH) C S) (hM : StackedMean (hcols dH) μ M)
    {R z : Mat} {cfg : Cfg} (hR : R.Shape m m) (hz : z.Shape m 1) (hRp : (R.toM m m).PosSemidef) (hRe : (R.toM m m + cfg.eps • 1).PosDef)
    (hs : Hdl.run fp near pred h (.jointZ dH z R t cfg) = .ok (h', true)) :
    let T := S.toM (tot (hcols dH)) (tot (hcols dH)) + (1 / 10 ^ 12 : ℝ) • 1
    let cost := fun x : Vec (tot (hcols dH)) => surprise T (x - M.toM (tot (hcols dH)) 1) + surprise (R.toM m m + cfg.eps • 1) (z.toM m 1 - H.toM m (tot (hcols dH)) * x)
    ∃ μ' M', (∀ p ∈ dH.keys, IsMean h' p t (μ' p)) ∧ StackedMean (hcols dH) μ' M' ∧
      ∀ x, x ≠ M'.toM (tot (hcols dH)) 1 → cost (M'.toM (tot (hcols dH)) 1) < cost x := by
  intro T cost
  obtain ⟨c, hr⟩ := hreach.rel hnear
  set bs := hcols dH with hbs
  have hbs' : bs = dH.map fun e => (e.1, dim e.1) := List.map_congr_left fun e hem => by rw [(he e hem).1.2]
  have hkeys : bs.map (·.1) = dH.keys := by
    rw [hbs', List.map_map]
    rfl
  have hb : ∀ b ∈ bs, b.2 = dim b.1 := by
    intro b hb
    rw [hbs'] at hb
    obtain ⟨e, -, rfl⟩ := List.mem_map.mp hb
    rfl
  have hnd : (bs.map (·.1)).Nodup := by
    rw [hkeys]
    exact Hdl.Sorted.nodup hd
  have key : ∀ b ∈ bs, b.1 ∈ dH.keys := fun b hbm => by rw [← hkeys]; exact List.mem_map.mpr ⟨b, hbm, rfl⟩
  have eC : ∀ p ∈ dH.keys, ∀ q ∈ dH.keys, C p q = c.cov p q := fun p hp q hq => IsCov.unique (hC p hp q hq) (hr.isCov (hN p hp) (hN q hq))
  obtain ⟨C0, C', m0, m', h0, h1, H0, S0, x0, res, hH0, hS0, hx0, hc, hrj, hJ⟩ := c24_joint_meas hnear hreach hd hN hs
  have efl : (dH.keys.filter fun p => !fixedAt h t p) = dH.keys := by
    refine List.filter_eq_self.mpr fun p hp => ?_
    obtain ⟨e, hem, rfl⟩ := List.mem_map.mp hp
    rw [(he e hem).2]
    rfl
  have ebs : (dH.keys.filter fun p => !fixedAt h t p).map (fun p => (p, dim p)) = bs := by
    rw [efl, hbs', SMap.keys, List.map_map]
    rfl
  rw [ebs] at hS0 hx0 hJ
  obtain rfl := sideBySide_unique hd hne hH0 hH
  have hS2 : StackedCov bs C S0 := ⟨hS0.1, fun p hp q hq i hi j hj => by
    rw [hS0.2 p hp q hq i hi j hj, IsCov.unique (h0 p.1 q.1 (hN _ (key p hp)) (hN _ (key q hq))).1 (hC _ (key p hp) _ (key q hq))]⟩
  obtain rfl := stacked_unique hnd hS2 hS
  have hM2 : StackedMean bs μ x0 := ⟨hx0.1, fun p hp i hi => by
    rw [hx0.2 p hp i hi, IsMean.unique (h0 p.1 p.1 (hN _ (key p hp)) (hN _ (key p hp))).2 (hμ _ (key p hp))]⟩
  obtain rfl := stackedMean_unique hnd hM2 hM
  have hcov : IsCovMat S0 := hS.cov hb hnd (fun a ha b hb' => by
    rw [hkeys] at ha hb'
    rw [eC b hb' a ha, eC a ha b hb', hr.symm a b ((hN a ha).rel hr).1 ((hN b hb').rel hr).1]) (by rw [hkeys]; exact hP)
  obtain ⟨-, hSp⟩ := hcov.psd hS.1.1
  have hT : (stabM S0 (1 / 10 ^ 12)).toM (tot bs) (tot bs) = T := toM_stabM_symm hS.1 _ (Alg.psd_symm hSp)
  have hTp : T.PosDef := Matrix.PosDef.posSemidef_add hSp (Alg.smul_one_pd (by norm_num))
  have hHs : H0.Shape m (tot bs) := by
    obtain ⟨e, hem⟩ := List.exists_mem_of_ne_nil _ hne
    exact ⟨by rw [← (hH.2 e hem).1, (he e hem).1.1], hH.1⟩
  have hO : ObsShape H0 R (z - H0 * x0) (stabM S0 (1 / 10 ^ 12)) (tot bs) m := ⟨hHs, hR, hz.sub, hS.1.stabM _⟩
  have edx : res.dx = gainM H0 R (stabM S0 (1 / 10 ^ 12)) cfg.eps * (z - H0 * x0) := by
    rw [correctionStep_eq hO] at hc
    obtain ⟨rej, -, hc⟩ := bind_eq_ok hc
    rw [← Res.ok.inj hc]
  have sdx : res.dx.Shape (tot bs) 1 := by rw [edx]; exact (gainM_shape hO cfg.eps).mul hO.r
  have eM : (x0 + res.dx).toM (tot bs) 1 =
      x0.toM (tot bs) 1 + Alg.gain T (H0.toM m (tot bs)) (R.toM m m + cfg.eps • 1) * (z.toM m 1 - H0.toM m (tot bs) * x0.toM (tot bs) 1) := by
    rw [hM.1.toM_add sdx, edx, (gainM_shape hO cfg.eps).toM_mul, toM_gainM hO (by rw [hT]; exact hTp.posSemidef) hRp, hz.toM_sub (hHs.mul hM.1), hHs.toM_mul, hT]
  refine ⟨m', x0 + res.dx, fun p hp => (h1 p p (hN p hp) (hN p hp)).2, ⟨hM.1.add, fun p hp i hi => ?_⟩, fun x hx => ?_⟩
  · have ep := hb p hp
    have sm : (m0 p.1).Shape (dim p.1) 1 := by
      rw [IsMean.unique (h0 p.1 p.1 (hN _ (key p hp)) (hN _ (key p hp))).2 (hr.isMean (hN _ (key p hp)))]
      exact hr.muS p.1 ((hN _ (key p hp)).rel hr).1
    rw [hJ.mean p hp, add_e _ _ (by rw [sdx.1, hM.1.1]) (by rw [sdx.2, hM.1.2]), add_e _ _ (by rw [sm.1, ← ep]; rfl) (by rw [sm.2]; rfl), block_e, if_pos ⟨hi, Nat.zero_lt_one⟩,
      hx0.2 p hp i hi]
  · rw [eM] at hx ⊢
    exact least hTp hRe _ _ _ x hx

/-- ... and the covariance after a joint measurement: `S'` is the covariance of the instances afterwards, read by the user and stacked. -/
theorem c142_isolated_joint_spread (hnear : NearOk near) (hreach : Reach fp near pred dim h) {dH : SMap Mat} {t : Int} (hd : dH.Sorted) (hne : dH ≠ [])
    (hN : ∀ p ∈ dH.keys, Newest h p t) (he : ∀ e ∈ dH, e.2.Shape m (dim e.1) ∧ fixedAt h t e.1 = false) {C : ℕ → ℕ → Mat} {μ : ℕ → Mat}
    (hC : ∀ p ∈ dH.keys, ∀ q ∈ dH.keys, IsCov dim h p q t (C p q)) (hμ : ∀ p ∈ dH.keys, IsMean h p t (μ p)) (hP : TeamCov dim dH.keys.toFinset C)
    {H S M : Mat} (hH : SideBySide dH H) (hS : StackedCov (hcols dH) C S) (hM : StackedMean (hcols dH) μ M)
    {R z : Mat} {cfg : Cfg} (hR : R.Shape m m) (hz : z.Shape m 1) (hRp : (R.toM m m).PosSemidef) (hep : 0 ≤ cfg.eps) (hRe : (R.toM m m + cfg.eps • 1).PosDef) (hpl : Plain cfg)
    (hs : Hdl.run fp near pred h (.jointZ dH z R t cfg) = .ok (h', true)) :
    let T := S.toM (tot (hcols dH)) (tot (hcols dH)) + (1 / 10 ^ 12 : ℝ) • 1
    let Hm := H.toM m (tot (hcols dH))
    let Mm := M.toM (tot (hcols dH)) 1
    ∃ μ' M' C' S', (∀ p ∈ dH.keys, IsMean h' p t (μ' p)) ∧ StackedMean (hcols dH) μ' M' ∧
      (∀ p ∈ dH.keys, ∀ q ∈ dH.keys, IsCov dim h' p q t (C' p q)) ∧ StackedCov (hcols dH) C' S' ∧ (S'.toM (tot (hcols dH)) (tot (hcols dH))).PosDef ∧
      ∀ x : Vec (tot (hcols dH)), surprise T (x - Mm) + surprise (R.toM m m + cfg.eps • 1) (z.toM m 1 - Hm * x) =
        surprise (Hm * T * Hm.transpose + (R.toM m m + cfg.eps • 1)) (z.toM m 1 - Hm * Mm) +
          surprise (S'.toM (tot (hcols dH)) (tot (hcols dH))) (x - M'.toM (tot (hcols dH)) 1) := by
  intro T Hm Mm
  obtain ⟨c, hr⟩ := hreach.rel hnear
  set bs := hcols dH with hbs
  have hbs' : bs = dH.map fun e => (e.1, dim e.1) := List.map_congr_left fun e hem => by rw [(he e hem).1.2]
  have hkeys : bs.map (·.1) = dH.keys := by
    rw [hbs', List.map_map]
    rfl
  have hb : ∀ b ∈ bs, b.2 = dim b.1 := by
    intro b hb
    rw [hbs'] at hb
    obtain ⟨e, -, rfl⟩ := List.mem_map.mp hb
    rfl
  have hnd : (bs.map (·.1)).Nodup := by
    rw [hkeys]
    exact Hdl.Sorted.nodup hd
  have key : ∀ b ∈ bs, b.1 ∈ dH.keys := fun b hbm => by rw [← hkeys]; exact List.mem_map.mpr ⟨b, hbm, rfl⟩
  have eC : ∀ p ∈ dH.keys, ∀ q ∈ dH.keys, C p q = c.cov p q := fun p hp q hq => IsCov.unique (hC p hp q hq) (hr.isCov (hN p hp) (hN q hq))
  obtain ⟨C0, C', m0, m', h0, h1, H0, S0, x0, res, hH0, hS0, hx0, hc, hrj, hJ⟩ := c24_joint_meas hnear hreach hd hN hs
  have efl : (dH.keys.filter fun p => !fixedAt h t p) = dH.keys := by
    refine List.filter_eq_self.mpr fun p hp => ?_
    obtain ⟨e, hem, rfl⟩ := List.mem_map.mp hp
    rw [(he e hem).2]
    rfl
  have ebs : (dH.keys.filter fun p => !fixedAt h t p).map (fun p => (p, dim p)) = bs := by
    rw [efl, hbs', SMap.keys, List.map_map]
    rfl
  rw [ebs] at hS0 hx0 hJ
  obtain rfl := sideBySide_unique hd hne hH0 hH
  have hS2 : StackedCov bs C S0 := ⟨hS0.1, fun p hp q hq i hi j hj => by
    rw [hS0.2 p hp q hq i hi j hj, IsCov.unique (h0 p.1 q.1 (hN _ (key p hp)) (hN _ (key q hq))).1 (hC _ (key p hp) _ (key q hq))]⟩
  obtain rfl := stacked_unique hnd hS2 hS
  have hM2 : StackedMean bs μ x0 := ⟨hx0.1, fun p hp i hi => by
    rw [hx0.2 p hp i hi, IsMean.unique (h0 p.1 p.1 (hN _ (key p hp)) (hN _ (key p hp))).2 (hμ _ (key p hp))]⟩
  obtain rfl := stackedMean_unique hnd hM2 hM
  have hcov : IsCovMat S0 := hS.cov hb hnd (fun a ha b hb' => by
    rw [hkeys] at ha hb'
    rw [eC b hb' a ha, eC a ha b hb', hr.symm a b ((hN a ha).rel hr).1 ((hN b hb').rel hr).1]) (by rw [hkeys]; exact hP)
  obtain ⟨-, hSp⟩ := hcov.psd hS.1.1
  have hT : (stabM S0 (1 / 10 ^ 12)).toM (tot bs) (tot bs) = T := toM_stabM_symm hS.1 _ (Alg.psd_symm hSp)
  have hTp : T.PosDef := Matrix.PosDef.posSemidef_add hSp (Alg.smul_one_pd (by norm_num))
  have hHs : H0.Shape m (tot bs) := by
    obtain ⟨e, hem⟩ := List.exists_mem_of_ne_nil _ hne
    exact ⟨by rw [← (hH.2 e hem).1, (he e hem).1.1], hH.1⟩
  have hO : ObsShape H0 R (z - H0 * x0) (stabM S0 (1 / 10 ^ 12)) (tot bs) m := ⟨hHs, hR, hz.sub, hS.1.stabM _⟩
  have edx : res.dx = gainM H0 R (stabM S0 (1 / 10 ^ 12)) cfg.eps * (z - H0 * x0) := by
    rw [correctionStep_eq hO] at hc
    obtain ⟨rej, -, hc⟩ := bind_eq_ok hc
    rw [← Res.ok.inj hc]
  have sdx : res.dx.Shape (tot bs) 1 := by rw [edx]; exact (gainM_shape hO cfg.eps).mul hO.r
  have eM : (x0 + res.dx).toM (tot bs) 1 =
      x0.toM (tot bs) 1 + Alg.gain T (H0.toM m (tot bs)) (R.toM m m + cfg.eps • 1) * (z.toM m 1 - H0.toM m (tot bs) * x0.toM (tot bs) 1) := by
    rw [hM.1.toM_add sdx, edx, (gainM_shape hO cfg.eps).toM_mul, toM_gainM hO (by rw [hT]; exact hTp.posSemidef) hRp, hz.toM_sub (hHs.mul hM.1), hHs.toM_mul, hT]
  let o : Obs := ⟨m, H0, R, z, { cfg with outlier := false }⟩
  have hv : o.Valid (tot bs) := ⟨hHs, hR, hz, hRp, hep, hRe, rfl⟩
  have hTp' : ((stabM S0 (1 / 10 ^ 12)).toM (tot bs) (tot bs)).PosDef := by rw [hT]; exact hTp
  have ePm : res.Sapos = postM H0 R (stabM S0 (1 / 10 ^ 12)) cfg := by
    rw [correctionStep_eq hO] at hc
    obtain ⟨rej, -, hc⟩ := bind_eq_ok hc
    rw [← Res.ok.inj hc]
  have sP : res.Sapos.Shape (tot bs) (tot bs) := by rw [ePm]; exact postM_shape hO cfg
  have e5 : res.Sapos.toM (tot bs) (tot bs) = Alg.apos T (H0.toM m (tot bs)) (R.toM m m + cfg.eps • 1) := by
    rw [ePm, ← hT]
    exact post_val (o := o) hv hpl hO hTp'.posSemidef
  have hg : (⟨x0.toM (tot bs) 1, T⟩ : Gauss (tot bs)).cov.PosDef := hTp
  have pd : (res.Sapos.toM (tot bs) (tot bs)).PosDef := by
    rw [e5]
    exact (upd_cov (o := o) hg hRe).1
  have efx : fixPsd near res.Sapos = res.Sapos := by
    unfold fixPsd
    rw [if_pos ⟨by rw [sP.1, sP.2], by rw [sP.1]; exact pd.posSemidef⟩]
  rw [efx] at hJ
  refine ⟨m', x0 + res.dx, C', res.Sapos, fun p hp => (h1 p p (hN p hp) (hN p hp)).2, ⟨hM.1.add, fun p hp i hi => ?_⟩, fun p hp q hq => (h1 p q (hN p hp) (hN q hq)).1,
    ⟨sP, fun p hp q hq i hi j hj => ?_⟩, pd, fun x => ?_⟩
  · have ep := hb p hp
    have sm : (m0 p.1).Shape (dim p.1) 1 := by
      rw [IsMean.unique (h0 p.1 p.1 (hN _ (key p hp)) (hN _ (key p hp))).2 (hr.isMean (hN _ (key p hp)))]
      exact hr.muS p.1 ((hN _ (key p hp)).rel hr).1
    rw [hJ.mean p hp, add_e _ _ (by rw [sdx.1, hM.1.1]) (by rw [sdx.2, hM.1.2]), add_e _ _ (by rw [sm.1, ← ep]; rfl) (by rw [sm.2]; rfl), block_e, if_pos ⟨hi, Nat.zero_lt_one⟩,
      hx0.2 p hp i hi]
  · rw [hJ.pair p hp q hq, block_e, if_pos ⟨hi, hj⟩]
  · rw [e5, eM]
    exact square (o := o) hg hRe x

end

/-! ## Example -/

open Hdl.Example (s near nearOk pred dim)
open Hdl.TeamEx (h3 c3 init3 reach3 newest3)

/-- The premises of `c142_isolated` are met by the team of C106: after a measured value of 4 of its instance 2 (mean 0, variance 1, noise 1), the mean is the state of least cost.
The premises of `c142_isolated_joint` are those of `c141_isolated_joint` and the accepted call of the example there. -/
example : ∃ h' μ', Hdl.run FP.exact near pred h3 (.privKF 2 (s 1) (s 1) (Mat.ofM (Matrix.of fun _ _ => 4 : Vec 1)) 0 {}) = .ok (h', true) ∧ IsMean h' 2 0 μ' ∧
    ∀ x : Vec 1, x ≠ μ'.toM 1 1 →
      surprise ((s 1).toM 1 1) (μ'.toM 1 1 - (s 0).toM 1 1) + surprise ((s 1).toM 1 1 + ({} : Cfg).eps • 1) ((Mat.ofM (Matrix.of fun _ _ => 4 : Vec 1)).toM 1 1 - (s 1).toM 1 1 * μ'.toM 1 1) <
        surprise ((s 1).toM 1 1) (x - (s 0).toM 1 1) + surprise ((s 1).toM 1 1 + ({} : Cfg).eps • 1) ((Mat.ofM (Matrix.of fun _ _ => 4 : Vec 1)).toM 1 1 - (s 1).toM 1 1 * x) := by
  obtain ⟨h', hs⟩ := isolated_example.1
  have nn := newest3 (p := 2) (by simp)
  have e1 : c3.cov 2 2 = s 1 := by simp [c3]
  have e2 : c3.mu 2 = s 0 := by simp [c3]
  have hC := init3.rel.isCov nn nn
  have hm := init3.rel.isMean nn
  rw [e1] at hC
  rw [e2] at hm
  have one : (s 1).toM 1 1 = 1 := by rw [s_toM, one_smul]
  obtain ⟨μ', h1, h2⟩ := c142_isolated (m := 1) nearOk reach3 nn hm hC (by show ((s 1).toM 1 1).PosDef; rw [one]; exact Matrix.PosDef.one) (H := s 1) (R := s 1) ⟨rfl, rfl⟩ ⟨rfl, rfl⟩
    ⟨rfl, rfl⟩ (by rw [one]; exact Matrix.PosSemidef.one) (by rw [one]; exact Matrix.PosDef.one.add_posSemidef (Alg.smul_one_psd (by norm_num))) hs
  exact ⟨h', μ', hs, h1, h2⟩

/-- The premises of `c142_isolated_joint_spread` (and of `c142_isolated_joint`) are met by the team of C106: the difference 5 of its instances, both with mean 0 and variance 1, is measured
with noise 1. -/
example : ∃ h' μ' M' C' S', Hdl.run FP.exact near pred h3 (.jointZ [(1, s 1), (2, s (-1))] (Mat.ofM (Matrix.of fun _ _ => 5 : Vec 1)) (s 1) 0 { eps := 0 }) = .ok (h', true) ∧
    StackedMean [(1, 1), (2, 1)] μ' M' ∧ StackedCov [(1, 1), (2, 1)] C' S' ∧ (S'.toM 2 2).PosDef := by
  set H : Mat := Mat.of 1 2 fun _ j => if j = 0 then 1 else -1 with hH
  set S : Mat := Mat.of 2 2 fun i j => if i = j then 1 else 0 with hS
  set M : Mat := Mat.of 2 1 fun _ _ => 0 with hM
  have hg : Gated 2 1 H (s 1) { eps := 0 } _ :=
    ⟨⟨rfl, rfl⟩, ⟨rfl, rfl⟩, by rw [s_toM, one_smul]; exact Matrix.PosSemidef.one, by norm_num, by
      rw [s_toM, one_smul]
      exact Matrix.PosDef.one.add_posSemidef (Alg.smul_one_psd (le_refl 0)), rfl, by norm_num, by norm_num [round_eq]; rfl⟩
  have keys : ∀ p, p ∈ SMap.keys [(1, s 1), (2, s (-1))] → p = 1 ∨ p = 2 := by
    intro p hp
    simpa [SMap.keys] using hp
  have nn : ∀ p ∈ SMap.keys [(1, s 1), (2, s (-1))], Newest h3 p 0 := fun p hp => newest3 (by rcases keys p hp with h | h <;> simp [h])
  have acc := fun z => c141_isolated_joint (m := 1) (fp := FP.exact) (pred := pred) nearOk reach3 (dH := [(1, s 1), (2, s (-1))]) (t := 0) (by simp [SMap.Sorted]) (by simp) nn
    (by
      intro e he
      simp only [List.mem_cons, List.not_mem_nil, or_false] at he
      rcases he with rfl | rfl
      · exact ⟨⟨rfl, rfl⟩, rfl⟩
      · exact ⟨⟨rfl, rfl⟩, rfl⟩)
    (fun p hp q hq => init3.rel.isCov (nn p hp) (nn q hq)) (fun p hp => init3.rel.isMean (nn p hp))
    (by
      intro x
      have : (SMap.keys [(1, s 1), (2, s (-1))]).toFinset = {1, 2} := rfl
      rw [this]
      have h1 : ∀ p, bil (c3.cov p p) (dim p) (dim p) (x p) (x p) = x p 0 * x p 0 := by
        intro p
        show bil (c3.cov p p) 1 1 _ _ = _
        simp [bil, c3, s, Mat.of]
      have h2 : ∀ p q, p ≠ q → bil (c3.cov p q) (dim p) (dim q) (x p) (x q) = 0 := by
        intro p q hpq
        show bil (c3.cov p q) 1 1 _ _ = _
        simp [bil, c3, hpq, Mat.zero, Mat.of]
      rw [Finset.sum_pair (by decide), Finset.sum_pair (by decide), Finset.sum_pair (by decide), h1, h1, h2 1 2 (by decide), h2 2 1 (by decide)]
      nlinarith [mul_self_nonneg (x 1 0), mul_self_nonneg (x 2 0)])
    (H := H) (S := S) (M := M)
    (by
      refine ⟨rfl, fun e he => ?_⟩
      simp only [List.mem_cons, List.not_mem_nil, or_false] at he
      rcases he with rfl | rfl
      · refine ⟨rfl, fun i j hj => ?_⟩
        obtain rfl : j = 0 := Nat.lt_one_iff.mp hj
        simp [hH, off, s, Mat.of]
      · refine ⟨rfl, fun i j hj => ?_⟩
        obtain rfl : j = 0 := Nat.lt_one_iff.mp hj
        simp [hH, off, s, Mat.of])
    (by
      refine ⟨⟨rfl, rfl⟩, fun p hp q hq i hi j hj => ?_⟩
      have hp' : p = (1, 1) ∨ p = (2, 1) := by
        have : p ∈ [(1, 1), (2, 1)] := hp
        simpa using this
      have hq' : q = (1, 1) ∨ q = (2, 1) := by
        have : q ∈ [(1, 1), (2, 1)] := hq
        simpa using this
      rcases hp' with rfl | rfl <;> rcases hq' with rfl | rfl <;> obtain rfl := Nat.lt_one_iff.mp hi <;> obtain rfl := Nat.lt_one_iff.mp hj <;>
        simp [hS, off, c3, hcols, s, Mat.of, Mat.zero])
    (by
      refine ⟨⟨rfl, rfl⟩, fun p hp i hi => ?_⟩
      simp [hM, c3, s, Mat.of]) hg z
  have post := fun h' hs => c142_isolated_joint_spread (h' := h') (m := 1) (fp := FP.exact) (pred := pred) nearOk reach3 (dH := [(1, s 1), (2, s (-1))]) (t := 0) (by simp [SMap.Sorted]) (by simp) nn
    (by
      intro e he
      simp only [List.mem_cons, List.not_mem_nil, or_false] at he
      rcases he with rfl | rfl
      · exact ⟨⟨rfl, rfl⟩, rfl⟩
      · exact ⟨⟨rfl, rfl⟩, rfl⟩)
    (fun p hp q hq => init3.rel.isCov (nn p hp) (nn q hq)) (fun p hp => init3.rel.isMean (nn p hp))
    (by
      intro x
      have : (SMap.keys [(1, s 1), (2, s (-1))]).toFinset = {1, 2} := rfl
      rw [this]
      have h1 : ∀ p, bil (c3.cov p p) (dim p) (dim p) (x p) (x p) = x p 0 * x p 0 := by
        intro p
        show bil (c3.cov p p) 1 1 _ _ = _
        simp [bil, c3, s, Mat.of]
      have h2 : ∀ p q, p ≠ q → bil (c3.cov p q) (dim p) (dim q) (x p) (x q) = 0 := by
        intro p q hpq
        show bil (c3.cov p q) 1 1 _ _ = _
        simp [bil, c3, hpq, Mat.zero, Mat.of]
      rw [Finset.sum_pair (by decide), Finset.sum_pair (by decide), Finset.sum_pair (by decide), h1, h1, h2 1 2 (by decide), h2 2 1 (by decide)]
      nlinarith [mul_self_nonneg (x 1 0), mul_self_nonneg (x 2 0)])
    (H := H) (S := S) (M := M)
    (by
      refine ⟨rfl, fun e he => ?_⟩
      simp only [List.mem_cons, List.not_mem_nil, or_false] at he
      rcases he with rfl | rfl
      · refine ⟨rfl, fun i j hj => ?_⟩
        obtain rfl : j = 0 := Nat.lt_one_iff.mp hj
        simp [hH, off, s, Mat.of]
      · refine ⟨rfl, fun i j hj => ?_⟩
        obtain rfl : j = 0 := Nat.lt_one_iff.mp hj
        simp [hH, off, s, Mat.of])
    (by
      refine ⟨⟨rfl, rfl⟩, fun p hp q hq i hi j hj => ?_⟩
      have hp' : p = (1, 1) ∨ p = (2, 1) := by
        have : p ∈ [(1, 1), (2, 1)] := hp
        simpa using this
      have hq' : q = (1, 1) ∨ q = (2, 1) := by
        have : q ∈ [(1, 1), (2, 1)] := hq
        simpa using this
      rcases hp' with rfl | rfl <;> rcases hq' with rfl | rfl <;> obtain rfl := Nat.lt_one_iff.mp hi <;> obtain rfl := Nat.lt_one_iff.mp hj <;>
        simp [hS, off, c3, hcols, s, Mat.of, Mat.zero])
    (by
      refine ⟨⟨rfl, rfl⟩, fun p hp i hi => ?_⟩
      simp [hM, c3, s, Mat.of]) (R := s 1) (z := Mat.ofM (Matrix.of fun _ _ => 5 : Vec 1)) (cfg := { eps := 0 }) ⟨rfl, rfl⟩ ⟨rfl, rfl⟩ hg.psd (le_refl 0) (by rw [s_toM, one_smul]; exact Matrix.PosDef.one.add_posSemidef (Alg.smul_one_psd (le_refl 0))) (Or.inl rfl) hs
  have e1 : ∀ z : Vec 1, z - H.toM 1 2 * M.toM 2 1 = z := by
    intro z
    have : M.toM 2 1 = 0 := by
      ext i j
      simp [toM_apply, hM, Mat.of]
    rw [this, Matrix.mul_zero, sub_zero]
  have e2 : (expected (n := 2) H (s 1) { eps := 0 } (S.toM 2 2 + (1 / 10 ^ 12 : ℝ) • (1 : Matrix (Fin 2) (Fin 2) ℝ)) : Matrix (Fin 1) (Fin 1) ℝ) = (3 + 2 / 10 ^ 12 + (({ eps := 0 } : Cfg).eps)) • 1 := by
    ext i j
    obtain rfl : i = 0 := Subsingleton.elim _ _
    obtain rfl : j = 0 := Subsingleton.elim _ _
    simp [expected, Matrix.mul_apply, Fin.sum_univ_two, toM_apply, hH, hS, s, Mat.of]
    norm_num
  have ok : ∃ h', Hdl.run FP.exact near pred h3 (.jointZ [(1, s 1), (2, s (-1))] (Mat.ofM (Matrix.of fun _ _ => 5 : Vec 1)) (s 1) 0 { eps := 0 }) = .ok (h', true) := by
    refine (acc _).1.mpr ?_
    show Within _ (expected (n := 2) H (s 1) { eps := 0 } (S.toM 2 2 + (1 / 10 ^ 12 : ℝ) • (1 : Matrix (Fin 2) (Fin 2) ℝ))) (_ - H.toM 1 2 * M.toM 2 1)
    rw [e1, e2]
    intro y
    simp [thresholdInUse, tableQuantile, Matrix.mul_apply]
    nlinarith [sq_nonneg (y 0 0)]
  obtain ⟨h', hs⟩ := ok
  obtain ⟨μ', M', C', S', -, e3, -, e5, e6, -⟩ := post h' hs
  exact ⟨h', μ', M', C', S', hs, e3, e5, e6⟩

end Simultaneous
end Ikf
