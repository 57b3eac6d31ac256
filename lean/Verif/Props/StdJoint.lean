import Verif.Props.StdFilters

/-!
# The filters without buffers against the centralised filter (C55)
-/

namespace Ikf
open Mat
namespace StdHdl

/-- Calls with symmetric process noise, a variance vector that is a vector, and a joint update of two different filters with
Jacobians of the sizes of the filters (at least one row). Nothing is assumed about Phi, G, u, H, R, z, times and IDs. -/
def Wf (dim : ℕ → ℕ) : StdEv → Prop
  | .prop _ _ Q _ => Q.tr = Q
  | .propU _ _ Q _ _ _ var => Q.tr = Q ∧ var.cols = 1
  | .priv _ _ _ _ => True
  | .joint _ I J HI HJ _ _ => I ≠ J ∧ ∃ m, 0 < m ∧ HI.Shape m (dim I) ∧ HJ.Shape m (dim J)

/-- Fresh filters (with a belief, without factors) and the centralised filter with the same estimates and no correlations. -/
structure Init (dim : ℕ → ℕ) (h : StdHdl) (c : Central) : Prop where
  sorted : h.Sorted
  inst : ∀ p i, h.find p = some i → ∃ b, i = ⟨some b, []⟩ ∧ 0 < dim p ∧ b.mean.Shape (dim p) 1 ∧ b.Sigma.Shape (dim p) (dim p) ∧
    b.Sigma.tr = b.Sigma ∧ b.mean = c.mu p ∧ b.Sigma = c.cov p p ∧ b.stamp = c.tm p
  uncorrelated : ∀ p q, p ≠ q → c.cov p q = Mat.zero (dim p) (dim q)

variable {g1 g2 g3 : ℕ → ℕ → ℝ} {dim : ℕ → ℕ} {h h' : StdHdl} {c : Central}

theorem Init.srt (hi : Init dim h c) : Srt h :=
  ⟨hi.sorted, fun p i hp => by obtain ⟨b, rfl, -⟩ := hi.inst p i hp; exact List.Pairwise.nil⟩

theorem Init.rel (hi : Init dim h c) : StdView.Rel dim (view h) c := by
  have key : ∀ p, (view h).has p → ∃ b, h.find p = some ⟨some b, []⟩ ∧ 0 < dim p ∧ b.mean.Shape (dim p) 1 ∧ b.Sigma.Shape (dim p) (dim p) ∧
    b.Sigma.tr = b.Sigma ∧ b.mean = c.mu p ∧ b.Sigma = c.cov p p ∧ b.stamp = c.tm p := by
    intro p hp
    obtain ⟨i, hf⟩ := Option.isSome_iff_exists.mp hp
    obtain ⟨b, rfl, hb⟩ := hi.inst p i hf
    exact ⟨b, hf, hb⟩
  have nofac : ∀ p q, (view h).has p → (view h).fc p q = none := by
    intro p q hp
    obtain ⟨b, hf, -⟩ := key p hp
    rw [fc_of_find hf]; rfl
  constructor
  · intro p hp
    obtain ⟨b, hf, -, -, -, -, h1, h2, h3⟩ := key p hp
    exact ⟨b, by rw [bl_of_find hf], h1, h2, h3⟩
  · intro p hp; obtain ⟨b, -, h0, -⟩ := key p hp; exact h0
  · intro p hp; obtain ⟨b, -, -, hm, -, -, h1, -⟩ := key p hp; rw [← h1]; exact hm
  · intro p q hp hq
    by_cases hpq : p = q
    · subst hpq; obtain ⟨b, -, -, -, hS, -, -, h2, -⟩ := key p hp; rw [← h2]; exact hS
    · rw [hi.uncorrelated p q hpq]; exact ⟨rfl, rfl⟩
  · intro p q hp hq
    by_cases hpq : p = q
    · subst hpq; obtain ⟨b, -, -, -, -, hs, -, h2, -⟩ := key p hp; rw [← h2, hs]
    · rw [hi.uncorrelated p q hpq, hi.uncorrelated q p (Ne.symm hpq), Hdl.tr_zero]
  · intro p hp q M hM; rw [nofac p q hp] at hM; simp at hM
  · intro p q hp hq hpq
    exact Or.inr ⟨nofac p q hp, nofac q p hq, hi.uncorrelated p q hpq⟩

/-- The result of `mulFactors` on a filter whose belief was changed. -/
theorem moved {id : ℕ} {i i1 j : StdInst} {b' : Belief} {F : Mat} (hr : StdView.Rel dim (view h) c) (hs : Srt h) (hi : h.find id = some i)
    (hc : i1.ccf = i.ccf) (hb : i1.bel = some b') (hj : i1.mulFactors F = .ok j) (hF : F.Shape (dim id) (dim id)) (hm : b'.mean.Shape (dim id) 1)
    (hS : b'.Sigma.Shape (dim id) (dim id)) (hsym : b'.Sigma.tr = b'.Sigma) :
    StdView.Rel dim (view (h.set id j)) (c.transform id F b'.mean b'.Sigma b'.stamp (c.fix id)) ∧ Srt (h.set id j) := by
  obtain ⟨e1, e2⟩ := mulFactors_find hj
  constructor
  · rw [view_transform (F := F) (b := b') hi (by rw [e1, hb]) (by intro q; rw [e2, hc])]
    exact hr.transform hF hm hS hsym _
  · apply hs.set
    unfold StdInst.mulFactors at hj
    obtain ⟨m, h1, h2⟩ := Hdl.bind_eq_ok hj
    rw [← Res.ok.inj h2]
    exact SMap.Sorted.mapR (by rw [hc]; exact hs.ccf id i hi) h1

/-- An accepted call takes the filters to the state the centralised filter gets. -/
theorem accepted (hr : StdView.Rel dim (view h) c) (hs : Srt h) (ev : StdEv) (hw : Wf dim ev) (he : run g1 g2 g3 h ev = .ok (h', true)) :
    (∃ c', StdStep dim c ev c' ∧ StdView.Rel dim (view h') c') ∧ Srt h' := by
  cases ev with
  | prop id Phi Q t =>
    obtain ⟨i, j, hi, hf, rfl⟩ := onInst_inv he
    obtain ⟨b, hb, b1, b2, b3, b4, b5, b6⟩ := Rel.stored hr hi
    unfold StdInst.prop at hf
    by_cases hc : Phi.Shape (dim id) (dim id) ∧ Q.Shape (dim id) (dim id) ∧ b.stamp < t
    · obtain ⟨hP, hQ, ht⟩ := hc
      rw [StdInst.baseProp_yes hb b4 b5 hP hQ ht, Res.bind_ok] at hf
      obtain ⟨-, -, g⟩ := StdInst.thenFactors_inv hf
      obtain ⟨r1, r2⟩ := moved hr hs hi (by rfl) (by rfl) (g rfl) hP (hP.mul b4) ((hP.mul b5).mul hP.tr).add (Hdl.symm_prop b5 hP hQ b6 hw)
      refine ⟨⟨_, StdStep.prop id Phi Q t, ?_⟩, r2⟩
      rw [← b1, ← b2]
      exact r1
    · rw [StdInst.baseProp_no hb b5 hc, Res.bind_ok] at hf
      obtain ⟨e, -⟩ := StdInst.thenFactors_inv hf
      simp at e
  | propU id Phi Q t G u var =>
    obtain ⟨i, j, hi, hf, rfl⟩ := onInst_inv he
    obtain ⟨b, hb, b1, b2, b3, b4, b5, b6⟩ := Rel.stored hr hi
    unfold StdInst.propU at hf
    obtain ⟨⟨k, a⟩, h1, h2⟩ := Hdl.bind_eq_ok hf
    obtain ⟨e, -, g⟩ := StdInst.thenFactors_inv h2
    simp only at e g
    subst e
    rcases StdInst.basePropU_inv hb b4 b5 h1 with ⟨hh, -⟩ | ⟨-, hP, hQ, ht, hG, e1, e2, hv, rfl⟩
    · simp at hh
    · have hG1 : G.cols = 1 := by rw [← hv.2, hw.2]
      have hGs : G.Shape (dim id) 1 := ⟨hG, hG1⟩
      have hv1 : var.Shape 1 1 := by rw [hG1] at hv; exact hv
      have hvt : var.tr = var := by
        refine Mat.ext' (by rw [tr_rows, hv1.2, hv1.1]) (by rw [tr_cols, hv1.2, hv1.1]) ?_
        intro x y hx hy
        rw [tr_rows, hv1.2] at hx
        rw [tr_cols, hv1.1] at hy
        have h1 : x = 0 := by omega
        have h2 : y = 0 := by omega
        rw [h1, h2, tr_e]
      have hgs : (G * var * G.tr).Shape (dim id) (dim id) := (hGs.mul hv1).mul hGs.tr
      have hQd : (G * var * G.tr + Q).tr = G * var * G.tr + Q := by
        refine Mat.ext' (by rw [tr_rows, hgs.add.1, hgs.add.2]) (by rw [tr_cols, hgs.add.1, hgs.add.2]) ?_
        intro x y _ _
        have e1 : (G * var * G.tr).tr = G * var * G.tr := by rw [tr_mul, tr_mul, tr_tr, hvt, Mat.mul_assoc]
        have e2 : ∀ x y, (G * var * G.tr).e y x = (G * var * G.tr).e x y := fun x y => congrFun (congrFun (congrArg Mat.e e1) x) y
        have e3 : ∀ x y, Q.e y x = Q.e x y := fun x y => congrFun (congrFun (congrArg Mat.e hw.1) x) y
        rw [tr_e, add_e (G * var * G.tr) Q (by rw [hQ.1, hgs.1]) (by rw [hQ.2, hgs.2]),
          add_e (G * var * G.tr) Q (by rw [hQ.1, hgs.1]) (by rw [hQ.2, hgs.2]), e2, e3]
      obtain ⟨r1, r2⟩ := moved hr hs hi (by rfl) (by rfl) (g trivial) hP (hP.mul b4).add ((hP.mul b5).mul hP.tr).add (Hdl.symm_prop b5 hP hgs.add b6 hQd)
      refine ⟨⟨_, StdStep.propU id Phi Q t G u var, ?_⟩, r2⟩
      rw [← b1, ← b2]
      exact r1
  | priv id H R z =>
    obtain ⟨i, j, hi, hf, rfl⟩ := onInst_inv he
    obtain ⟨b, hb, b1, b2, b3, b4, b5, b6⟩ := Rel.stored hr hi
    obtain ⟨res, hc, ha, -, g⟩ := StdInst.priv_inv hb hf
    have hrj : res.rejected = false := by simpa using ha.symm
    obtain ⟨hO, hres⟩ := Inst.correctionStep_accept b5 {} res hc hrj
    have hdx : res.dx.Shape (dim id) 1 := by rw [hres]; exact (gainM_shape hO _).mul hO.r
    have hPs : res.Sapos.Shape (dim id) (dim id) := by rw [hres]; exact postM_shape hO {}
    have hPy : res.Sapos.tr = res.Sapos := by rw [hres]; exact Hdl.postM_symm hO {}
    obtain ⟨r1, r2⟩ := moved (b' := { b with mean := b.mean + res.dx, Sigma := res.Sapos }) hr hs hi (by rfl) (by rfl) (g rfl) (hPs.mul b5.inv) b4.add hPs hPy
    rw [b1, b2] at hc
    refine ⟨⟨_, StdStep.priv id H R z res hc hrj, ?_⟩, r2⟩
    rw [← b1, ← b2, ← b3]
    exact r1
  | joint me I J HI HJ R z =>
    obtain ⟨hIJ, m, hm, sHI, sHJ⟩ := hw
    simp only [run, joint] at he
    obtain ⟨_, x1, k1⟩ := Hdl.bind_eq_ok he
    obtain ⟨_, x2, k2⟩ := Hdl.bind_eq_ok k1
    obtain ⟨i, x3, k3⟩ := Hdl.bind_eq_ok k2
    obtain ⟨j, x4, k4⟩ := Hdl.bind_eq_ok k3
    obtain rfl := expect_inv x2
    have hi := get_inv x3
    have hj := get_inv x4
    obtain ⟨bI, hbI, a1, a2, a3, a4, a5, a6⟩ := Rel.stored hr hi
    obtain ⟨bJ, hbJ, b1, b2, b3, b4, b5, b6⟩ := Rel.stored hr hj
    have hI : (h.find I).isSome := by rw [hi]; rfl
    have hJ : (h.find J).isSome := by rw [hj]; rfl
    rw [StdInst.deref_ok hbI, Res.bind_ok, StdInst.deref_ok hbJ, Res.bind_ok] at k4
    obtain ⟨_, x5, k5⟩ := Hdl.bind_eq_ok k4
    have ht := expect_inv x5
    obtain ⟨H, eH, hH, sH⟩ := horcat_side hIJ g1 sHI sHJ hm (hr.pos I hI) (hr.pos J hJ)
    obtain ⟨x, ex, hx, sx⟩ := vertcat_mean hIJ g2 a4 b4 (hr.pos I hI) (hr.pos J hJ) a1 b1
    obtain ⟨S, eS, hS, sS⟩ := stackPrior_cov hIJ hr g3 hI hJ
    rw [← a2, ← b2] at eS
    rw [eH, Res.bind_ok, ex, Res.bind_ok] at k5
    obtain ⟨_, x6, k6⟩ := Hdl.bind_eq_ok k5
    obtain ⟨_, x7, k7⟩ := Hdl.bind_eq_ok k6
    obtain ⟨-, rfl⟩ := StdInst.mulC_inv x6
    obtain ⟨-, -, rfl⟩ := StdInst.subC_inv x7
    rw [eS, Res.bind_ok, stabilize_ok sS, Res.bind_ok] at k7
    obtain ⟨res, hc, k8⟩ := Hdl.bind_eq_ok k7
    clear k1 k2 k3 k4 k5 k6 k7 he
    cases hrj : res.rejected with
    | true => rw [hrj] at k8; simp at k8
    | false =>
      rw [hrj] at k8
      simp only [Bool.not_false, if_true] at k8
      obtain ⟨hO, hres⟩ := Inst.correctionStep_accept (sS.stabM _) {} res hc hrj
      have hdx : res.dx.Shape (dim I + dim J) 1 := by rw [hres]; exact (gainM_shape hO _).mul hO.r
      have hPs : res.Sapos.Shape (dim I + dim J) (dim I + dim J) := by rw [hres]; exact postM_shape hO {}
      have hPy : res.Sapos.tr = res.Sapos := by rw [hres]; exact Hdl.postM_symm hO {}
      by_cases hp : Psd res.Sapos
      · obtain ⟨h1, A, B, e1, s1, hAB, rA, rB, cB, pA, hv⟩ := commit_spec hIJ hs hi hj hbI hbJ (hr.pos I hI) (hr.pos J hJ) a4 b4 a5 b5
          (Rel.rows hr hs hi) (Rel.rows hr hs hj) hPs hdx hp
        rw [e1, Res.bind_ok] at k8
        obtain rfl := (Prod.mk.inj (Res.ok.inj k8)).1
        refine ⟨⟨_, StdStep.joint I J HI HJ R z H S x res (by rw [← a3, ← b3, ht]) hH hS hx hc hrj, ?_⟩, s1⟩
        rw [hv, joint_steps hIJ hPy (t := bI.stamp) a3.symm (by rw [← b3, ht]), ← hAB]
        have r1 := hr.transform (id := I) (F := res.Sapos.block 0 0 (dim I) (dim I) * bI.Sigma.inv)
          (b := { bI with mean := bI.mean + res.dx.block 0 0 (dim I) 1, Sigma := res.Sapos.block 0 0 (dim I) (dim I) })
          (Shape.mul ⟨rfl, rfl⟩ a5.inv) a4.add ⟨rfl, rfl⟩ (Hdl.block_tr hPy _ _ _ _) (c.fix I)
        have r2 := r1.transform (id := J) (F := res.Sapos.block (dim I) (dim I) (dim J) (dim J) * bJ.Sigma.inv)
          (b := { bJ with mean := bJ.mean + res.dx.block (dim I) 0 (dim J) 1, Sigma := res.Sapos.block (dim I) (dim I) (dim J) (dim J) })
          (Shape.mul ⟨rfl, rfl⟩ b5.inv) b4.add ⟨rfl, rfl⟩ (Hdl.block_tr hPy _ _ _ _) (c.fix J)
        have r3 := r2.setFac hIJ rA rB pA cB
        rw [← a1, ← a2, ← b1, ← b2]
        simp only [ht] at r3 ⊢
        exact r3
      · rw [commit_throws hp] at k8; simp at k8

/-- Simulation from any related state. -/
theorem sim (hr : StdView.Rel dim (view h) c) (hs : Srt h) {l : List (StdEv × Bool)} (hw : ∀ x ∈ l, Wf dim x.1) (hx : Runs g1 g2 g3 h l h') :
    ∃ c', StdSpecRun dim c l c' ∧ StdView.Rel dim (view h') c' ∧ Srt h' := by
  induction hx generalizing c with
  | nil h => exact ⟨c, .nil c, hr, hs⟩
  | @step h h1 h2 ev ans l he r ih =>
    have hw' : ∀ x ∈ l, Wf dim x.1 := fun x hx => hw x (List.mem_cons_of_mem _ hx)
    cases ans with
    | false =>
      obtain rfl := c54_unchanged hs.reg ev he
      obtain ⟨c', g1, g2⟩ := ih hr hs hw'
      exact ⟨c', .reject g1, g2⟩
    | true =>
      obtain ⟨⟨c1, st, r1⟩, s1⟩ := accepted hr hs ev (hw _ List.mem_cons_self) he
      obtain ⟨c', g1, g2⟩ := ih r1 s1 hw'
      exact ⟨c', .accept st g1, g2⟩

/-- The belief of filter `p` (`get(p)->get_belief()`). -/
def belief (h : StdHdl) (p : ℕ) : Option Belief := (h.find p).bind (·.bel)

/-- What can be read from the filters is the state `c`: beliefs and, for each ordered pair, the cross-covariance. -/
def Reads (dim : ℕ → ℕ) (h : StdHdl) (c : Central) : Prop :=
  (∀ p, (h.find p).isSome → ∃ b, belief h p = some b ∧ b.mean = c.mu p ∧ b.Sigma = c.cov p p ∧ b.stamp = c.tm p) ∧
  (∀ p q, (h.find p).isSome → (h.find q).isSome → p ≠ q → ∃ S, getSigma h p q = .ok S ∧ asCov (dim p) (dim q) S = c.cov p q)

theorem reads (hr : StdView.Rel dim (view h) c) : Reads dim h c := by
  refine ⟨fun p hp => hr.bel p hp, fun p q hp hq hpq => ?_⟩
  rcases Rel.getSigma hr hp hq hpq with ⟨e, hs⟩ | ⟨e, hz⟩
  · exact ⟨_, e, by unfold asCov; rw [if_neg hs]⟩
  · exact ⟨_, e, by unfold asCov; rw [if_pos (by rfl), hz]⟩

/-- C55: any number of filters, any sequence of calls of any of them that returns: all beliefs and all cross-covariances that
can be read are those of the centralised filter that executes the accepted calls. -/
theorem c55_simulation (hi : Init dim h c) {l : List (StdEv × Bool)} (hw : ∀ x ∈ l, Wf dim x.1) (hx : Runs g1 g2 g3 h l h') :
    ∃ c', StdSpecRun dim c l c' ∧ Reads dim h' c' := by
  obtain ⟨c', s, r, -⟩ := sim hi.rel hi.srt hw hx
  exact ⟨c', s, reads r⟩

/-- States reachable from fresh filters. -/
def Reach (g1 g2 g3 : ℕ → ℕ → ℝ) (dim : ℕ → ℕ) (h : StdHdl) : Prop :=
  ∃ h0 c0 l, Init dim h0 c0 ∧ (∀ x ∈ l, Wf dim x.1) ∧ Runs g1 g2 g3 h0 l h

theorem Reach.rel (hr : Reach g1 g2 g3 dim h) : ∃ c, StdView.Rel dim (view h) c ∧ Srt h := by
  obtain ⟨h0, c0, l, hi, hw, hx⟩ := hr
  obtain ⟨c, -, r, s⟩ := sim hi.rel hi.srt hw hx
  exact ⟨c, r, s⟩

/-- C55: the joint update of `I` and `J`. With the means and covariances `c` read before and `c'` read after: `S`, `x` and `H`
are the covariance, mean and Jacobian of the stacked state, `P` and `d` the posterior covariance and correction that the
Kalman correction of the stacked state yields (C18). Both filters get their blocks of mean and covariance, reading the
cross-covariance in either direction gives the off-diagonal block, the cross-covariances with every other filter are
multiplied by posterior times inverse prior, and everything else is as before. -/
theorem c55_joint (hreach : Reach g1 g2 g3 dim h) {I J : ℕ} {HI HJ R z : Mat} {m : ℕ} (hIJ : I ≠ J) (hm : 0 < m) (sI : HI.Shape m (dim I))
    (sJ : HJ.Shape m (dim J)) (hs : joint g1 g2 g3 h I I J HI HJ R z = .ok (h', true)) :
    ∃ c c', Reads dim h c ∧ Reads dim h' c' ∧ c.tm I = c.tm J ∧ c'.tm = c.tm ∧
      ∃ H S x res, SideBySide [(I, HI), (J, HJ)] H ∧ StackedCov [(I, dim I), (J, dim J)] c.cov S ∧ StackedMean [(I, dim I), (J, dim J)] c.mu x ∧
        correctionStep H R (z - H * x) (stabM S (1 / 10^12)) {} = .ok res ∧ res.rejected = false ∧
        c'.mu I = c.mu I + res.dx.block 0 0 (dim I) 1 ∧ c'.mu J = c.mu J + res.dx.block (dim I) 0 (dim J) 1 ∧
        c'.cov I I = res.Sapos.block 0 0 (dim I) (dim I) ∧ c'.cov J J = res.Sapos.block (dim I) (dim I) (dim J) (dim J) ∧
        c'.cov I J = res.Sapos.block 0 (dim I) (dim I) (dim J) ∧ c'.cov J I = (res.Sapos.block 0 (dim I) (dim I) (dim J)).tr ∧
        (∀ q, q ≠ I → q ≠ J → c'.mu q = c.mu q ∧
          c'.cov I q = c'.cov I I * (c.cov I I).inv * c.cov I q ∧ c'.cov q I = c.cov q I * (c'.cov I I * (c.cov I I).inv).tr ∧
          c'.cov J q = c'.cov J J * (c.cov J J).inv * c.cov J q ∧ c'.cov q J = c.cov q J * (c'.cov J J * (c.cov J J).inv).tr ∧
          ∀ p, p ≠ I → p ≠ J → c'.cov p q = c.cov p q) := by
  obtain ⟨c, hr, hsr⟩ := hreach.rel
  obtain ⟨⟨c', hst, hr'⟩, -⟩ := accepted hr hsr (.joint I I J HI HJ R z) ⟨hIJ, m, hm, sI, sJ⟩ hs
  have hJI := Ne.symm hIJ
  cases hst with
  | joint I J HI HJ R z H S x res ht hH hS hx hc hrj =>
    have sS : S.Shape (dim I + dim J) (dim I + dim J) := by simpa [tot] using hS.1
    obtain ⟨hO, hres⟩ := Inst.correctionStep_accept (sS.stabM _) {} res hc hrj
    have hPy : res.Sapos.tr = res.Sapos := by rw [hres]; exact Hdl.postM_symm hO {}
    have e := joint_steps (c := c) hIJ (P := res.Sapos) (dx := res.dx) (a := dim I) (b := dim J) hPy rfl ht.symm
    refine ⟨c, _, reads hr, reads hr', ht, rfl, H, S, x, res, hH, hS, hx, hc, hrj, ?_⟩
    rw [e]
    simp only [Central.setCov, Central.transform]
    refine ⟨by simp [hIJ], by simp, by simp [hIJ], by simp [hIJ, hJI], by simp, by simp [hJI, hIJ], ?_⟩
    intro q h1 h2
    refine ⟨by simp [h1, h2], by simp [hIJ, h1, h2], by simp [hIJ, h1, h2], by simp [hJI, hIJ, h1, h2], by simp [hJI, hIJ, h1, h2], ?_⟩
    intro p h3 h4
    simp [h1, h2, h3, h4]

end StdHdl
end Ikf
