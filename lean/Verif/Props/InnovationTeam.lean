import Verif.Props.Innovation
import Verif.Spec.Region
import Verif.Props.HonestChain

/-! # Property C140: the outlier test of an isolated filter of a team -/

namespace Ikf
namespace Honest
open MeasureTheory Mat Hdl Contact

section
variable {Ω : Type} [MeasurableSpace Ω] {P : Measure Ω} {dim grp : ℕ → ℕ} {ids : Finset ℕ} {fp : FP} {near : Mat → Mat}
  {pred : ℕ → Inst → Int → Inst × Bool}

/-- A random vector as a column. -/
def colOf (n : ℕ) (w : RVec Ω) : Ω → Vec n := fun ω => Matrix.of fun i _ => w ω i

theorem colOf_psd {n : ℕ} {w : RVec Ω} {Q : Mat} (h : AtMost P n w Q) (hQ : (Q.toM n n).transpose = Q.toM n n) :
    Comp (sq2 P) (colOf n w) ∧ (Q.toM n n - mom P (colOf n w) (colOf n w)).PosSemidef := by
  have hc : Comp (sq2 P) (colOf n w) := fun i => h.1 i i.2
  refine ⟨hc, Matrix.PosSemidef.of_dotProduct_mulVec_nonneg ?_ fun y => ?_⟩
  · rw [Matrix.IsHermitian, Matrix.conjTranspose_eq_transpose_of_trivial, Matrix.transpose_sub, mom_tr, hQ]
  · have h2 := h.2 (fun i => if hi : i < n then y ⟨i, hi⟩ else 0)
    unfold bil at h2
    rw [quad_toM] at h2
    rw [star_trivial, Matrix.sub_mulVec, dotProduct_sub, quad hc, sub_nonneg]
    simp only [Fin.is_lt, dite_true, Fin.eta] at h2
    refine le_trans (le_of_eq (integral_congr_ae (Filter.Eventually.of_forall fun ω => ?_))) h2
    simp only
    rw [Finset.sum_range]
    simp [colOf]

theorem colOf_mom {n m : ℕ} {w u : RVec Ω} (h : Uncorr P (n, w) (m, u)) : mom P (colOf n w) (colOf m u) = 0 := by
  ext i j
  exact h i i.2 j j.2

/-- What Chebyshev says about the refusals. -/
theorem refused [IsProbabilityMeasure P] {n m : ℕ} {e : Ω → Vec n} {v : Ω → Vec m} {T : Matrix (Fin n) (Fin n) ℝ} {H R : Mat} {cfg : Cfg}
    (ce : Comp (sq2 P) e) (pe : (T - mom P e e).PosSemidef) (hno : NoiseOk R cfg) (hRm : R.rows = m) (cv : Comp (sq2 P) v) (pv : (R.toM m m - mom P v v).PosSemidef)
    (h0 : mom P e v = 0) {q : ℝ} (hq : 0 < q) {a : Ω → Bool} (ha : ∀ ω, a ω = true ↔ surprise (expected H R cfg T) (resid H v e (fun _ => 0) ω) ≤ q) :
    P.real {ω | a ω = false} ≤ m / q := by
  obtain ⟨hRp, heps, hRe⟩ := hno.pd hRm
  have hSp : T.PosSemidef := psd_of_sub pe (mom_psd ce)
  have hX : err e (fun _ => 0) = e := by funext ω; simp [err]
  have ce' : Comp (sq2 P) (err e fun _ => 0) := by rw [hX]; exact ce
  obtain ⟨r1, r2⟩ := resid_mom (H := H) ce' cv (by rw [hX]; exact h0)
  set r := resid H v e fun _ => 0 with hr
  have hE : (expected H R cfg T : Matrix (Fin m) (Fin m) ℝ).PosDef := by
    unfold expected
    rw [add_assoc]
    exact hRe.posSemidef_add (Alg.psd_congr hSp _)
  have hD : (expected H R cfg T - mom P r r).PosSemidef := by
    rw [r2, hX]
    have : expected H R cfg T - (H.toM m n * mom P e e * (H.toM m n).transpose + mom P v v) =
        H.toM m n * (T - mom P e e) * (H.toM m n).transpose + (R.toM m m - mom P v v) + cfg.eps • 1 := by
      simp only [expected, Matrix.mul_sub, Matrix.sub_mul]
      abel
    rw [this]
    exact ((Alg.psd_congr pe _).add pv).add (Alg.smul_one_psd heps)
  rw [le_div_iff₀ hq, mul_comm]
  have hi := mul_meas_ge_le_integral_of_nonneg (Filter.Eventually.of_forall fun ω => surprise_nonneg hE _) (surprise_int r1 _) q (μ := P)
  refine le_trans (mul_le_mul_of_nonneg_left (measureReal_mono ?_) hq.le) (hi.trans (surprise_le r1 hE hD))
  intro ω hω
  have h3 : ¬ (a ω = true) := by rw [show a ω = false from hω]; simp
  rw [ha, not_le] at h3
  exact h3.le

/-- The run of `Chain.runs`, with more noises to come. -/
theorem Chain.runs_more (hnear : NearOk near) (hn : NearCov near) {o : Ω} {k : Contact} {h h' : Ω → Hdl} {c : Ω → Central} {x : ℕ → RVec Ω} {l : List (NStp Ω)}
    {more : List (ℕ × RVec Ω)} (hself : k.Self) (hrel : ∀ ω, Rel dim (h ω) (c ω)) (hreg : ∀ ω, ∀ p ∈ ids, ((h ω).find p).isSome)
    (hk : Chain P dim ids o k h c x (l.map (·.noise dim) ++ more)) (hv : ∀ s ∈ l, s.Told P dim ids) (ho : Orderly l k)
    (hm : ∀ μ ∈ more, ∀ k < μ.1, (fun ω => μ.2 ω k) ∈ sq2 P)
    (hu : (l.map (·.noise dim) ++ more).Pairwise (Uncorr P)) (hrun : ∀ ω, Runs fp near pred dim (h ω) ((teamScript dim l x ω).map (·, true)) (h' ω)) :
    ∃ c' : Ω → Central, (∀ ω, Rel dim (h' ω) (c' ω)) ∧ Chain P dim ids o (endContact l k) h' c' (teamTruth dim l x) more := by
  induction l generalizing h c x k with
  | nil =>
    have : h' = h := by
      funext ω
      have := hrun ω
      simp only [teamScript, List.map_nil] at this
      generalize h' ω = a at this
      generalize h ω = b at this
      cases this
      rfl
    rw [this]
    exact ⟨c, hrel, hk⟩
  | cons s l ih =>
    have hex : ∀ ω, ∃ h1, Wf dim (h ω) (s.call dim x ω) ∧ Hdl.run fp near pred (h ω) (s.call dim x ω) = .ok (h1, true) ∧
        Runs fp near pred dim h1 ((teamScript dim l (s.truth dim x) ω).map (·, true)) (h' ω) := by
      intro ω
      have := hrun ω
      simp only [teamScript, List.map_cons] at this
      cases this with
      | step hw hs r => exact ⟨_, hw, hs, r⟩
    choose h1 hw hs hr using hex
    have hv' : ∀ s' ∈ l, s'.Told P dim ids := fun s' hs' => hv s' (List.mem_cons_of_mem _ hs')
    obtain ⟨ok, ho'⟩ := ho.cons
    choose c1 st hr1 using fun ω => Hdl.accepted hnear (hrel ω) _ (hw ω) (hs ω)
    have hreg1 : ∀ ω, ∀ p ∈ ids, ((h1 ω).find p).isSome := fun ω p hp => sameDom_isSome (step_dom (hrel ω) _ (hw ω) (hs ω)) (hreg ω p hp)
    rw [List.map_cons, List.cons_append] at hk
    rw [List.map_cons, List.cons_append, List.pairwise_cons] at hu
    have hlater : ∀ μ ∈ l.map (·.noise dim) ++ more, (∀ k < μ.1, (fun ω => μ.2 ω k) ∈ sq2 P) ∧ Uncorr P (s.noise dim) μ := by
      intro μ hμ
      refine ⟨?_, hu.1 μ hμ⟩
      rcases List.mem_append.mp hμ with h1 | h1
      · obtain ⟨s', hs', rfl⟩ := List.mem_map.mp h1
        have := hv' s' hs'
        cases s' with
        | move id F Q ta tb w => exact this.2.2.1
        | priv id H R t cfg v => exact this.2.2.1
        | joint dH R t cfg v => exact this.2.2.2.2.1
      · exact hm μ h1
    have k1 := Chain.step hn hself hk (hv s List.mem_cons_self) ok hlater hw hr1 hreg1 st
    exact ih (self_step hself s) hr1 hreg1 k1 hv' ho' hu.2 hr

/-- The answer of an instance of the handler to a measurement of its own with the outlier gate on. -/
theorem inst_gate {h : Hdl} {c : Central} (hr : Rel dim h c) {p : ℕ} {t : Int} (hN : Newest h p t) {H R z : Mat} {cfg : Cfg} {m : ℕ}
    (hH : H.Shape m (dim p)) (hR : R.Shape m m) (hz : z.Shape m 1) (hP : ((c.cov p p).toM (dim p) (dim p)).PosSemidef) (hRp : (R.toM m m).PosSemidef)
    (hg : cfg.outlier = true) (hc : 0 < cfg.conf) {row : List ℤ} (hrow : nisTable.lookup (round (cfg.conf * 1000)) = some row) :
    ∃ h' a, Hdl.run fp near pred h (.privKF p H R z t cfg) = .ok (h', a) ∧
      (a = true ↔ surprise (expected H R cfg ((c.cov p p).toM (dim p) (dim p))) (z.toM m 1 - H.toM m (dim p) * (c.mu p).toM (dim p) 1) ≤ thresholdInUse row m) := by
  obtain ⟨hid, htm⟩ := hN.rel hr
  obtain ⟨i, hi⟩ := Option.isSome_iff_exists.mp hid
  obtain ⟨b, hb, -⟩ := hr.bel p hid
  obtain ⟨b1, b2, b3, -, -, hmn, hS, -⟩ := hr.stored hid hb
  have ho := hr.ok.ord p i hi
  have hF : ∀ J M, i.fac J t = some M → M.rows = dim p := by
    intro J M hM; exact hr.rows p hid J M (by rw [htm, fc_of_find hi]; exact hM)
  rw [htm, bl_of_find hi] at hb
  rw [htm] at b3
  have sr : (z - H * b.mean).Shape m 1 := hz.sub
  have hO : ObsShape H R (z - H * b.mean) b.Sigma (dim p) m := ⟨hH, hR, sr, hS⟩
  rw [← b2] at hP
  have hv : nisValue (innov H R b.Sigma cfg.eps) (z - H * b.mean) m =
      surprise (expected H R cfg ((c.cov p p).toM (dim p) (dim p))) (z.toM m 1 - H.toM m (dim p) * (c.mu p).toM (dim p) 1) := by
    unfold nisValue surprise expected
    rw [toM_innov hO hP hRp, hz.toM_sub (hH.mul hmn), hH.toM_mul, ← b1, ← b2, add_assoc]
  obtain ⟨a, ha, hiff⟩ := (c20_gate_partial _ _ (innov_shape hO cfg.eps) sr cfg.conf).2 hc row hrow
  rw [hv] at hiff
  simp only [Hdl.run, get_ok hi, Res.bind_ok]
  unfold Inst.privKF
  rw [hb]
  simp only
  rw [hH.mulC hmn, Res.bind_ok, hz.subC (hH.mul hmn), Res.bind_ok]
  unfold Inst.privEKF
  rw [correctionStep_eq hO, if_pos hg, ha, Res.bind_ok, Res.bind_ok, Res.bind_ok]
  cases a with
  | false => exact ⟨_, false, by simp only [Bool.not_false, Bool.not_true, Bool.false_eq_true, if_false, Res.bind_ok]; rfl, hiff⟩
  | true =>
    simp only [Bool.not_true, Bool.not_false, if_true]
    have hU := updM_shape hO cfg.eps
    rw [b3, Inst.applyCorrection_ok ho t _ (fun J M hM => by rw [hU.2, hF J M hM]), Res.bind_ok]
    unfold Belief.correct
    rw [hmn.addC ((gainM_shape hO cfg.eps).mul sr), Res.bind_ok, Res.bind_ok, Res.bind_ok]
    exact ⟨_, true, rfl, hiff⟩

/-- C140 for isolated filters: a team as in C116 after an orderly run, of which one instance gets one more measurement of its own, taken with the outlier test switched on at a
listed confidence, of at most 49 components. The call is answered, and the probability that the answer is false is at most the number of components divided
by the threshold in use, whatever the distributions of the states and the noises. -/
theorem c140_isolated [IsProbabilityMeasure P] (hnear : NearOk near) (hn : NearCov near) {h h' : Ω → Hdl} {t : Int} {C : ℕ → ℕ → Mat} {m : Ω → ℕ → Mat}
    {x : ℕ → RVec Ω} {l : List (NStp Ω)} {p : ℕ} {H R : Mat} {t' : Int} {cfg : Cfg} {v : RVec Ω}
    (hs : Start P fp near pred dim grp ids h t C m x (l ++ [.priv p H R t' cfg v])) (hv : ∀ s ∈ l ++ [.priv p H R t' cfg v], s.Told P dim ids)
    (ho : Orderly l (groups grp)) (hrun : ∀ ω, Runs fp near pred dim (h ω) ((teamScript dim l x ω).map (·, true)) (h' ω)) (hN : ∀ ω, Newest (h' ω) p t')
    (hH : H.Shape R.rows (dim p)) (hg : cfg.outlier = true) (hc : 0 < cfg.conf) (row : List ℤ)
    (hrow : nisTable.lookup (round (cfg.conf * 1000)) = some row) (hm : R.rows < 50) :
    ∃ answer : Ω → Bool,
      (∀ ω, ∃ h2, Hdl.run fp near pred (h' ω) ((NStp.priv p H R t' cfg v).call dim (teamTruth dim l x) ω) = .ok (h2, answer ω)) ∧
      P.real {ω | answer ω = false} ≤ R.rows / tableQuantile row (R.rows + 1) := by
  obtain ⟨o⟩ := nonempty_of_isProbabilityMeasure P
  obtain ⟨c, hrel, hreg, hk, -⟩ := hs.chain hnear o
  rw [List.map_append] at hk
  have hu := hs.noises
  rw [List.map_append] at hu
  obtain ⟨hp, hno, hat⟩ := hv (.priv p H R t' cfg v) (List.mem_append_right _ (List.mem_singleton.mpr rfl))
  obtain ⟨c', hrel', hk'⟩ := hk.runs_more hnear hn (groups_self grp) hrel hreg (fun s hs' => hv s (List.mem_append_left _ hs')) ho
    (fun μ hμ => by
      rw [List.map_cons, List.map_nil, List.mem_singleton] at hμ
      subst hμ
      exact hat.1) hu hrun
  have k1 := hk'.single (self_end (groups_self grp) l) hp
  set n := dim p with hn'
  set S := (c' o).cov p p with hSdef
  set e : RVec Ω := errs (teamTruth dim l x) (fun ω => (c' ω).mu) p with he
  have hsame : ∀ ω, (c' ω).cov p p = S := fun ω => k1.same ω p (Finset.mem_singleton_self p) p (Finset.mem_singleton_self p)
  have hcovAt : AtMost P n e S := by
    refine ⟨k1.inv.cov.1 p (Finset.mem_singleton_self p), fun y => ?_⟩
    have := k1.inv.cov.2 fun _ => y
    simpa only [meanSq, Finset.sum_singleton] using this
  have hid : ((h' o).find p).isSome := ((hN o).rel (hrel' o)).1
  have hsym : (S.toM n n).transpose = S.toM n n := by
    rw [← toM_tr, hSdef, ← (hrel' o).symm p p hid hid]
  obtain ⟨hRs, hRp0⟩ := hno.1.psd rfl
  obtain ⟨hRp, -⟩ := hno.pd rfl
  obtain ⟨ce, pe⟩ := colOf_psd hcovAt hsym
  obtain ⟨cv, pv⟩ := colOf_psd hat (Alg.psd_symm hRp)
  have h0 : mom P (colOf n e) (colOf R.rows v) = 0 :=
    colOf_mom (k1.inv.later (R.rows, v) (by simp [NStp.noise]) p (Finset.mem_singleton_self p))
  have hSp : (S.toM n n).PosSemidef := psd_of_sub pe (mom_psd ce)
  set r := resid H (colOf R.rows v) (colOf n e) fun _ => 0 with hr
  have hex : ∀ ω, ∃ h2 a, Hdl.run fp near pred (h' ω) ((NStp.priv p H R t' cfg v).call dim (teamTruth dim l x) ω) = .ok (h2, a) ∧
      (a = true ↔ surprise (expected H R cfg (S.toM n n)) (r ω) ≤ tableQuantile row (R.rows + 1)) := by
    intro ω
    obtain ⟨h2, a, e1, e2⟩ := inst_gate (fp := fp) (near := near) (pred := pred) (hrel' ω) (hN ω) hH hRs
      (z := Mat.of R.rows 1 fun i _ => app H (dim p) (teamTruth dim l x p ω) i + v ω i) ⟨rfl, rfl⟩ (by rw [hsame]; exact hSp) hRp hg hc hrow
    refine ⟨h2, a, e1, ?_⟩
    rw [e2, hsame, thresholdInUse, if_pos hm]
    have : (Mat.of R.rows 1 fun i _ => app H (dim p) (teamTruth dim l x p ω) i + v ω i).toM R.rows 1 - H.toM R.rows n * ((c' ω).mu p).toM n 1 = r ω := by
      ext i j
      obtain rfl : j = 0 := Subsingleton.elim _ _
      simp only [hr, resid, Matrix.sub_apply, Matrix.add_apply, Matrix.mul_apply, toM_apply, colOf, Matrix.of_apply, he, errs, of_e, Matrix.zero_apply, app]
      simp only [Fin.is_lt, Fin.val_zero, if_true, zero_lt_one, and_self, Finset.sum_range, MulZeroClass.mul_zero, Finset.sum_const_zero, _root_.mul_sub,
        Finset.sum_sub_distrib]
      ring
    rw [this]
  choose h2 a e1 e2 using hex
  exact ⟨a, fun ω => ⟨h2 ω, e1 ω⟩, refused ce pe hno rfl cv pv h0 (row_pos hrow hm) e2⟩

/-- The answer of the handler to a joint measurement with the outlier gate on. -/
theorem joint_gate (hnear : NearOk near) {h : Hdl} {c : Central} (hr : Rel dim h c) {dH : SMap Mat} {t : Int} (hd : dH.Sorted) (hN : ∀ p ∈ dH.keys, Newest h p t)
    (hne : dH ≠ []) {m : ℕ} (he : ∀ e ∈ dH, e.2.Shape m (dim e.1) ∧ fixedAt h t e.1 = false) {R z : Mat} {cfg : Cfg} (hR : R.Shape m m) (hz : z.Shape m 1)
    (hg : cfg.outlier = true) (hc : 0 < cfg.conf) {row : List ℤ} (hrow : nisTable.lookup (round (cfg.conf * 1000)) = some row) :
    ∃ H S M, SideBySide dH H ∧ H.Shape m (tot (hcols dH)) ∧ StackedCov (hcols dH) c.cov S ∧ StackedMean (hcols dH) c.mu M ∧
      ∃ h' a, Hdl.run fp near pred h (.jointZ dH z R t cfg) = .ok (h', a) ∧
        (a = true ↔ nisValue (innov H R (stabM S (1 / 10 ^ 12)) cfg.eps) (z - H * M) m ≤ thresholdInUse row m) := by
  have hp : Parts dim h c dH t := ⟨hd, fun p hpm => ((hN p hpm).rel hr).1, fun p hpm => ((hN p hpm).rel hr).2⟩
  obtain ⟨H, hH, hHs⟩ := stackH_ok dH m (fun e hem => (he e hem).1.1) hne
  have hpe := joint_sizes hr hN he
  have hpne : participants dim c dH ≠ [] := by rw [hpe]; unfold hcols; simpa using hne
  obtain ⟨S, hSe, hSC⟩ := stackSigma_spec (dict h dH t) (dict_sorted hp) (covOf hr hp)
  obtain ⟨M, hme, hmC⟩ := stackMean_spec (dict h dH t) (dict_sorted hp) c.mu
    (fun e he => (mem_dict hr hp (mem_unfixed.mp he).1).2.2.2.2.1)
    (fun e he => (mem_dict hr hp (mem_unfixed.mp he).1).2.2.2.2.2.2.2.2.2.1)
  rw [← participants_eq hr hp] at hSC hmC
  have hHs' := hHs
  rw [← hpe] at hHs'
  refine ⟨H, S, M, stackH_spec dH hd H hH, hHs, by rw [← hpe]; exact hSC, by rw [← hpe]; exact hmC, ?_⟩
  simp only [Hdl.run, applyObsZ]
  rw [hH, Res.bind_ok, getDictBel_rel pred hr hp, Res.bind_ok]
  simp only
  rw [if_neg (by simpa [dict, SMap.keys] using hne)]
  rw [hme, Res.bind_ok, hSe, Res.bind_ok, hHs'.mulC hmC.1, Res.bind_ok, hz.subC (hHs'.mul hmC.1), Res.bind_ok, stabilize_ok hSC.1, Res.bind_ok]
  have sr : (z - H * M).Shape m 1 := hz.sub
  have hO : ObsShape H R (z - H * M) (stabM S (1 / 10 ^ 12)) (tot (participants dim c dH)) m := ⟨hHs', hR, sr, hSC.1.stabM _⟩
  obtain ⟨a, ha, hiff⟩ := (c20_gate_partial _ _ (innov_shape hO cfg.eps) sr cfg.conf).2 hc row hrow
  unfold correctJoint
  rw [correctionStep_eq hO, if_pos hg, ha, Res.bind_ok, Res.bind_ok, Res.bind_ok]
  cases a with
  | false => exact ⟨_, false, rfl, hiff⟩
  | true =>
    simp only [Bool.not_true, Bool.not_false, if_true]
    obtain ⟨hP1, hP2⟩ := fixPsd_facts hnear (postM_shape hO cfg) (postM_symm hO cfg)
    obtain ⟨h1, e, -⟩ := commit_rel hr hp hpne hP1 hP2 ((gainM_shape hO cfg.eps).mul hO.r)
    rw [e, Res.bind_ok]
    exact ⟨_, true, rfl, hiff⟩

omit [MeasurableSpace Ω] in
theorem orderly_last {l : List (NStp Ω)} {s : NStp Ω} {k : Contact} (h : Orderly (l ++ [s]) k) : Orderly l k ∧ StepOk s (endContact l k) := by
  induction l generalizing k with
  | nil => exact ⟨trivial, h.cons.1⟩
  | cons d r ih =>
    obtain ⟨h1, h2⟩ := Orderly.cons h
    obtain ⟨h3, h4⟩ := ih h2
    refine ⟨?_, h4⟩
    cases d with
    | move id F Q ta tb w => exact h3
    | priv id H R t cfg v => exact h3
    | joint dH R t cfg v => exact ⟨h1, h3⟩

/-- ... and the same for a joint measurement of instances that know nothing of each other yet or that were last measured together, taken with the outlier
test switched on. -/
theorem c140_isolated_joint [IsProbabilityMeasure P] (hnear : NearOk near) (hn : NearCov near) {h h' : Ω → Hdl} {t : Int} {C : ℕ → ℕ → Mat} {m : Ω → ℕ → Mat}
    {x : ℕ → RVec Ω} {l : List (NStp Ω)} {dH : SMap Mat} {R : Mat} {t' : Int} {cfg : Cfg} {v : RVec Ω}
    (hs : Start P fp near pred dim grp ids h t C m x (l ++ [.joint dH R t' cfg v])) (hv : ∀ s ∈ l ++ [.joint dH R t' cfg v], s.Told P dim ids)
    (ho : Orderly (l ++ [.joint dH R t' cfg v]) (groups grp)) (hrun : ∀ ω, Runs fp near pred dim (h ω) ((teamScript dim l x ω).map (·, true)) (h' ω))
    (hN : ∀ ω, ∀ p ∈ dH.keys, Newest (h' ω) p t') (hd : dH.Sorted) (hrows : ∀ e ∈ dH, e.2.rows = R.rows)
    (hg : cfg.outlier = true) (hc : 0 < cfg.conf) (row : List ℤ) (hrow : nisTable.lookup (round (cfg.conf * 1000)) = some row) (hm : R.rows < 50) :
    ∃ answer : Ω → Bool,
      (∀ ω, ∃ h2, Hdl.run fp near pred (h' ω) ((NStp.joint dH R t' cfg v).call dim (teamTruth dim l x) ω) = .ok (h2, answer ω)) ∧
      P.real {ω | answer ω = false} ≤ R.rows / tableQuantile row (R.rows + 1) := by
  obtain ⟨o⟩ := nonempty_of_isProbabilityMeasure P
  obtain ⟨c, hrel, hreg, hk, -⟩ := hs.chain hnear o
  rw [List.map_append] at hk
  have hu := hs.noises
  rw [List.map_append] at hu
  obtain ⟨hne, hcl, hin0, hno, hat⟩ := hv (.joint dH R t' cfg v) (List.mem_append_right _ (List.mem_singleton.mpr rfl))
  obtain ⟨ho1, ho2⟩ := orderly_last ho
  obtain ⟨c', hrel', hk'⟩ := hk.runs_more hnear hn (groups_self grp) hrel hreg (fun s hs' => hv s (List.mem_append_left _ hs')) ho1
    (fun μ hμ => by
      rw [List.map_cons, List.map_nil, List.mem_singleton] at hμ
      subst hμ
      exact hat.1) hu hrun
  have k1 : Kept P dim (fun _ => 0) dH.keys.toFinset o h' c' (teamTruth dim l x) _ :=
    hk' dH.keys.toFinset (fun p hp => hin0 p (List.mem_toFinset.mp hp)) (fun _ => 0)
      (fun p hp q hq => ho2 p (List.mem_toFinset.mp hp) q (List.mem_toFinset.mp hq)) fun _ _ _ _ _ => rfl
  set bs := hcols dH with hbs
  have hbs' : bs = dH.map fun e => (e.1, dim e.1) := List.map_congr_left fun e he => by rw [hcl e he]
  have hkeys : bs.map (·.1) = dH.keys := by
    rw [hbs', List.map_map]
    rfl
  have hb : ∀ b ∈ bs, b.2 = dim b.1 := by
    intro b hb
    rw [hbs'] at hb
    obtain ⟨e, -, rfl⟩ := List.mem_map.mp hb
    rfl
  have hnd : (bs.map (·.1)).Nodup := by
    rw [hkeys]
    exact Hdl.Sorted.nodup hd
  have hin : ∀ p ∈ bs.map (·.1), p ∈ dH.keys.toFinset := fun p hp => by rw [List.mem_toFinset, ← hkeys]; exact hp
  have fixd : ∀ ω, ∀ p ∈ dH.keys, fixedAt (h' ω) t' p = false := by
    intro ω p hp
    obtain ⟨h1, h2⟩ := (hN ω p hp).rel (hrel' ω)
    obtain ⟨b, hb, -, -, -, h5⟩ := (hrel' ω).bel p h1
    have hb' : belief (h' ω) p t' = some b := by rw [← h2]; exact hb
    unfold fixedAt
    rw [hb', ← (k1.team ω).free p (List.mem_toFinset.mpr hp), ← h5]
  obtain ⟨hRs, -⟩ := hno.1.psd rfl
  obtain ⟨hRp, -⟩ := hno.pd rfl
  have hex := fun ω => joint_gate (fp := fp) (pred := pred) hnear (hrel' ω) hd (hN ω) hne
    (fun e he => ⟨⟨hrows e he, hcl e he⟩, fixd ω e.1 (List.mem_map.mpr ⟨e, he, rfl⟩)⟩) hRs
    (z := Mat.of R.rows 1 fun i _ => (dH.map fun e => app e.2 (dim e.1) (teamTruth dim l x e.1 ω) i).sum + v ω i) ⟨rfl, rfl⟩ hg hc hrow
  obtain ⟨H, S, -, hH, hHs, hS, -, -⟩ := hex o
  set e : ℕ → RVec Ω := errs (teamTruth dim l x) (fun ω => (c' ω).mu) with hedef
  set w : RVec Ω := fun ω k => stackV bs (fun p i => e p ω i) k with hw
  obtain ⟨s1, s2⟩ := k1.inv.stacked hb hnd hin hS
  have hcovAt : AtMost P (tot bs) w S := ⟨s1, s2⟩
  have hsym : (S.toM (tot bs) (tot bs)).transpose = S.toM (tot bs) (tot bs) := by
    ext i j
    rw [Matrix.transpose_apply, toM_apply, toM_apply]
    obtain ⟨a, ha, i', hi', ei⟩ := off_cover hnd i.2
    obtain ⟨b, hb', j', hj', ej⟩ := off_cover hnd j.2
    have ka := k1.reg o a.1 (hin _ (List.mem_map.mpr ⟨a, ha, rfl⟩))
    have kb := k1.reg o b.1 (hin _ (List.mem_map.mpr ⟨b, hb', rfl⟩))
    rw [ei, ej, hS.2 a ha b hb' i' hi' j' hj', hS.2 b hb' a ha j' hj' i' hi', (hrel' o).symm a.1 b.1 ka kb, tr_e]
  obtain ⟨ce, pe0⟩ := colOf_psd hcovAt hsym
  obtain ⟨cv, pv⟩ := colOf_psd hat (Alg.psd_symm hRp)
  set T := (stabM S (1 / 10 ^ 12)).toM (tot bs) (tot bs) with hT
  have pe : (T - mom P (colOf (tot bs) w) (colOf (tot bs) w)).PosSemidef := by
    rw [hT, toM_stabM_symm hS.1 _ hsym, add_sub_right_comm]
    exact pe0.add (Alg.smul_one_psd (by norm_num))
  have hTp : T.PosSemidef := psd_of_sub pe (mom_psd ce)
  have h0 : mom P (colOf (tot bs) w) (colOf R.rows v) = 0 := by
    refine colOf_mom fun k hk j hj => ?_
    obtain ⟨d, hdm, i, hi, -, hx⟩ := stackV_cover hnd hk
    have := k1.inv.later (R.rows, v) (by simp [NStp.noise]) d.1 (hin _ (List.mem_map.mpr ⟨d, hdm, rfl⟩)) i (by rw [← hb d hdm]; exact hi) j hj
    refine (integral_congr_ae (Filter.Eventually.of_forall fun ω => ?_)).trans this
    simp only [hw]
    rw [hx]
  set r := resid H (colOf R.rows v) (colOf (tot bs) w) fun _ => 0 with hr
  have hex2 : ∀ ω, ∃ h2 a, Hdl.run fp near pred (h' ω) ((NStp.joint dH R t' cfg v).call dim (teamTruth dim l x) ω) = .ok (h2, a) ∧
      (a = true ↔ surprise (expected H R cfg T) (r ω) ≤ tableQuantile row (R.rows + 1)) := by
    intro ω
    obtain ⟨H', S', M, hH', -, hS', hM, h2, a, e1, e2⟩ := hex ω
    obtain rfl := sideBySide_unique hd hne hH' hH
    have hS2 : StackedCov bs (c' o).cov S' := by
      refine ⟨hS'.1, fun p hp q hq i hi j hj => ?_⟩
      rw [hS'.2 p hp q hq i hi j hj, k1.same ω p.1 (hin _ (List.mem_map.mpr ⟨p, hp, rfl⟩)) q.1 (hin _ (List.mem_map.mpr ⟨q, hq, rfl⟩))]
    obtain rfl := stacked_unique hnd hS2 hS
    refine ⟨h2, a, e1, ?_⟩
    rw [e2, thresholdInUse, if_pos hm]
    set z : Mat := Mat.of R.rows 1 fun i _ => (dH.map fun e => app e.2 (dim e.1) (teamTruth dim l x e.1 ω) i).sum + v ω i with hz
    have hzs : z.Shape R.rows 1 := ⟨rfl, rfl⟩
    have hO : ObsShape H' R (z - H' * M) (stabM S' (1 / 10 ^ 12)) (tot bs) R.rows := ⟨hHs, hRs, hzs.sub, hS.1.stabM _⟩
    have hres : (z - H' * M).toM R.rows 1 = r ω := by
      ext i j
      obtain rfl : j = 0 := Subsingleton.elim _ _
      have hMe : ∀ k < tot bs, M.e k 0 = stackV bs (fun p i => ((c' ω).mu p).e i 0) k := by
        intro k hkk
        obtain ⟨b, hbm, i, hi, e1, hx⟩ := stackV_cover hnd hkk
        rw [hx, e1, hM.2 b hbm i hi]
      have hzi : z.e i 0 = app H' (tot bs) (stackV bs fun p => teamTruth dim l x p ω) i + v ω i := by
        rw [hz, of_e, if_pos ⟨i.2, Nat.one_pos⟩, hbs', sideBySide_app hd hcl hH']
      have hHM : (H' * M).e i 0 = app H' (tot bs) (stackV bs fun p i => ((c' ω).mu p).e i 0) i := by
        rw [app_mul hM.1]
        exact Finset.sum_congr rfl fun k hkk => by simp only [hMe k (Finset.mem_range.mp hkk)]
      rw [toM_apply]
      show (z - H' * M).e i 0 = _
      rw [sub_e z (H' * M) (hHs.mul hM.1).1 (hHs.mul hM.1).2, hzi, hHM]
      simp only [hr, resid, Matrix.sub_apply, Matrix.add_apply, Matrix.mul_apply, toM_apply, colOf, Matrix.of_apply, hw, hedef, errs, Matrix.zero_apply, app,
        stackV_sub]
      simp only [Finset.sum_range, MulZeroClass.mul_zero, Finset.sum_const_zero, _root_.mul_sub, Finset.sum_sub_distrib]
      ring
    unfold nisValue surprise
    rw [toM_innov hO hTp hRp, hres]
    unfold expected
    rw [← add_assoc]
  choose h2 a e1 e2 using hex2
  exact ⟨a, fun ω => ⟨h2 ω, e1 ω⟩, refused ce pe hno rfl cv pv h0 (row_pos hrow hm) e2⟩

end

/-! ## Example -/

open Hdl.Example (s near nearOk pred cfg dim)
open Hdl.TeamEx (h3 c3)

/-- The difference of the states of 1 and 2 is measured with the fourth number as error, then the state of 2 with the fifth and with the outlier test switched on. -/
noncomputable def pair5 : List (NStp (Fin 5 → ℝ)) := [.joint [(1, s 1), (2, s (-1))] (s 1) 0 cfg (draw5 3)]

theorem pair5_start : Start gauss5 FP.exact near pred dim (fun p => p) {1, 2, 3} (fun _ => h3) 0 c3.cov (fun _ _ => s 0) start5
    (pair5 ++ [.priv 2 (s 1) (s 1) 0 {} (draw5 4)]) := by
  refine ⟨chain5_start.reach, chain5_start.newest, chain5_start.free, chain5_start.cov, chain5_start.mean, chain5_start.covers, chain5_start.apart, ?_, chain5_start.noises⟩
  intro st hst p hp
  simp only [pair5, List.cons_append, List.nil_append, List.mem_cons, List.not_mem_nil, or_false] at hst
  rcases hst with rfl | rfl
  · exact chain5_start.later _ List.mem_cons_self p hp
  · exact chain5_start.later (.joint [(2, s 1), (3, s (-1))] (s 1) 0 cfg (draw5 4)) (List.mem_cons_of_mem _ List.mem_cons_self) p hp

/-- The premises are met: after the joint measurement the answer to the measurement of 2 alone is false with probability at most 9 percent. -/
example : ∃ (h' : (Fin 5 → ℝ) → Hdl) (answer : (Fin 5 → ℝ) → Bool),
    (∀ ω, Runs FP.exact near pred dim h3 ((teamScript dim pair5 start5 ω).map (·, true)) (h' ω) ∧
      ∃ h2, Hdl.run FP.exact near pred (h' ω) (.privKF 2 (s 1) (s 1)
        (Mat.of 1 1 fun i _ => app (s 1) 1 (teamTruth dim pair5 start5 2 ω) i + draw5 4 ω i) 0 {}) = .ok (h2, answer ω)) ∧
    gauss5.real {ω | answer ω = false} ≤ 9 / 100 := by
  have told : ∀ st ∈ pair5, st.Told gauss5 dim {1, 2, 3} := fun st hst => chain5_told.1 st (by
    rw [List.mem_singleton.mp hst]; exact List.mem_cons_self)
  have fit : ∀ st ∈ pair5, st.Fit dim := fun st hst => chain5_told.2 st (by
    rw [List.mem_singleton.mp hst]; exact List.mem_cons_self)
  have st1 : Start gauss5 FP.exact near pred dim (fun p => p) {1, 2, 3} (fun _ => h3) 0 c3.cov (fun _ _ => s 0) start5 pair5 :=
    ⟨chain5_start.reach, chain5_start.newest, chain5_start.free, chain5_start.cov, chain5_start.mean, chain5_start.covers, chain5_start.apart,
      fun st hst => pair5_start.later st (List.mem_append_left _ hst), List.pairwise_singleton _ _⟩
  have ord : Orderly pair5 (groups fun p => p) := ⟨chain5_orderly.1, trivial⟩
  obtain ⟨h', hr⟩ := c116_orderly_accepts nearOk Hdl.Example.near_cov st1 told fit ord ⟨fun _ _ => rfl, trivial⟩
  obtain ⟨a, h1, h2⟩ := c140_isolated nearOk Hdl.Example.near_cov pair5_start (fun st hst => by
    rcases List.mem_append.mp hst with h1 | h1
    · exact told st h1
    · rw [List.mem_singleton.mp h1]
      exact ⟨by simp, noise5, draw5_atMost _⟩) ord (fun ω => (hr ω).1) (fun ω => (hr ω).2 2 (by simp)) ⟨rfl, rfl⟩ rfl (by norm_num) _
      (by norm_num [round_eq]; rfl) (by show 1 < 50; norm_num)
  refine ⟨h', a, fun ω => ⟨(hr ω).1, h1 ω⟩, h2.trans ?_⟩
  norm_num [tableQuantile, s]

/-- The difference of the states of 2 and 3 is measured with the fifth number as error and with the outlier test switched on. -/
noncomputable def gated5 : NStp (Fin 5 → ℝ) := .joint [(2, s 1), (3, s (-1))] (s 1) 0 {} (draw5 4)

/-- The premises are met: after the joint measurement of 1 and 2 the answer to that of 2 and 3 is false with probability at most 9 percent. -/
example : ∃ (h' : (Fin 5 → ℝ) → Hdl) (answer : (Fin 5 → ℝ) → Bool),
    (∀ ω, Runs FP.exact near pred dim h3 ((teamScript dim pair5 start5 ω).map (·, true)) (h' ω) ∧
      ∃ h2, Hdl.run FP.exact near pred (h' ω) (gated5.call dim (teamTruth dim pair5 start5) ω) = .ok (h2, answer ω)) ∧
    gauss5.real {ω | answer ω = false} ≤ 9 / 100 := by
  have told : ∀ st ∈ pair5, st.Told gauss5 dim {1, 2, 3} := fun st hst => chain5_told.1 st (by
    rw [List.mem_singleton.mp hst]; exact List.mem_cons_self)
  have fit : ∀ st ∈ pair5, st.Fit dim := fun st hst => chain5_told.2 st (by
    rw [List.mem_singleton.mp hst]; exact List.mem_cons_self)
  have st2 : Start gauss5 FP.exact near pred dim (fun p => p) {1, 2, 3} (fun _ => h3) 0 c3.cov (fun _ _ => s 0) start5 (pair5 ++ [gated5]) := by
    refine ⟨chain5_start.reach, chain5_start.newest, chain5_start.free, chain5_start.cov, chain5_start.mean, chain5_start.covers, chain5_start.apart, ?_, chain5_start.noises⟩
    intro st hst p hp
    simp only [pair5, gated5, List.cons_append, List.nil_append, List.mem_cons, List.not_mem_nil, or_false] at hst
    rcases hst with rfl | rfl
    · exact chain5_start.later _ List.mem_cons_self p hp
    · exact chain5_start.later (.joint [(2, s 1), (3, s (-1))] (s 1) 0 cfg (draw5 4)) (List.mem_cons_of_mem _ List.mem_cons_self) p hp
  have st1 : Start gauss5 FP.exact near pred dim (fun p => p) {1, 2, 3} (fun _ => h3) 0 c3.cov (fun _ _ => s 0) start5 pair5 :=
    ⟨chain5_start.reach, chain5_start.newest, chain5_start.free, chain5_start.cov, chain5_start.mean, chain5_start.covers, chain5_start.apart,
      fun st hst => st2.later st (List.mem_append_left _ hst), List.pairwise_singleton _ _⟩
  have ord : Orderly (pair5 ++ [gated5]) (groups fun p => p) := chain5_orderly
  obtain ⟨h', hr⟩ := c116_orderly_accepts nearOk Hdl.Example.near_cov st1 told fit (orderly_last ord).1 ⟨fun _ _ => rfl, trivial⟩
  obtain ⟨a, h1, h2⟩ := c140_isolated_joint nearOk Hdl.Example.near_cov st2 (fun st hst => by
    rcases List.mem_append.mp hst with h1 | h1
    · exact told st h1
    · rw [List.mem_singleton.mp h1]
      exact chain5_told.1 (.joint [(2, s 1), (3, s (-1))] (s 1) 0 cfg (draw5 4)) (List.mem_cons_of_mem _ List.mem_cons_self)) ord (fun ω => (hr ω).1)
      (fun ω p hp => (hr ω).2 p (by
        simp only [SMap.keys, List.map_cons, List.map_nil, List.mem_cons, List.not_mem_nil, or_false] at hp
        rcases hp with rfl | rfl <;> simp))
      (by simp [SMap.Sorted]) (fun e he => by
        simp only [List.mem_cons, List.not_mem_nil, or_false] at he
        rcases he with rfl | rfl <;> rfl) rfl (by norm_num) _
      (by norm_num [round_eq]; rfl) (by show 1 < 50; norm_num)
  refine ⟨h', a, fun ω => ⟨(hr ω).1, h1 ω⟩, h2.trans ?_⟩
  norm_num [tableQuantile, s]

end Honest
end Ikf
