import Verif.Spec.TeamStd
import Verif.Lemmas.TeamSlack
import Verif.Props.Team
import Verif.Props.StdProgress
import Verif.Props.CovarianceNet

/-!
# Filters without buffers in fixed pairs: the covariances stay a covariance and no joint update throws (C106)
-/

namespace Ikf
open Mat

theorem StackedCov.cov {dim : ℕ → ℕ} {bs : List (ℕ × ℕ)} (hb : ∀ b ∈ bs, b.2 = dim b.1) (hn : (bs.map (·.1)).Nodup) {C : ℕ → ℕ → Mat} {S : Mat} (hS : StackedCov bs C S)
    (hsym : ∀ a ∈ bs.map (·.1), ∀ b ∈ bs.map (·.1), C b a = (C a b).tr) (hteam : TeamCov dim (bs.map (·.1)).toFinset C) : IsCovMat S := by
  have blkS : ∀ a ∈ bs.map (·.1), ∀ b ∈ bs.map (·.1), ∀ i < dim a, ∀ j < dim b, S.e (off bs a + i) (off bs b + j) = (C a b).e i j := by
    intro a ha b hbm i hi j hj
    obtain ⟨x, hx, rfl⟩ := List.mem_map.mp ha
    obtain ⟨y, hy, rfl⟩ := List.mem_map.mp hbm
    exact hS.2 x hx y hy i (by rw [hb x hx]; exact hi) j (by rw [hb y hy]; exact hj)
  have symS : ∀ i j, S.e i j = S.e j i := by
    intro i j
    by_cases hij : i < tot bs ∧ j < tot bs
    · obtain ⟨a, ha, i', hi', rfl⟩ := off_cover hn hij.1
      obtain ⟨b, hb', j', hj', rfl⟩ := off_cover hn hij.2
      rw [hS.2 a ha b hb' i' hi' j' hj', hS.2 b hb' a ha j' hj' i' hi',
        hsym a.1 (List.mem_map.mpr ⟨a, ha, rfl⟩) b.1 (List.mem_map.mpr ⟨b, hb', rfl⟩), tr_e]
    · rw [S.out i j (by rw [hS.1.1, hS.1.2]; omega), S.out j i (by rw [hS.1.1, hS.1.2]; omega)]
  have bilS : ∀ x : ℕ → ℕ → ℝ, bil S (tot bs) (tot bs) (stackV bs x) (stackV bs x) =
      ∑ a ∈ (bs.map (·.1)).toFinset, ∑ b ∈ (bs.map (·.1)).toFinset, bil (C a b) (dim a) (dim b) (x a) (x b) := by
    intro x
    rw [bil_stack' hb hn]
    refine Finset.sum_congr rfl fun a ha => Finset.sum_congr rfl fun b hb' => bil_congr (fun i hi j hj => ?_) _ _
    rw [block_e, if_pos ⟨hi, hj⟩, blkS a (List.mem_toFinset.mp ha) b (List.mem_toFinset.mp hb') i hi j hj]
  have unstack : ∀ y : ℕ → ℝ, ∃ x : ℕ → ℕ → ℝ, ∀ k < tot bs, stackV bs x k = y k := by
    intro y
    have : ∀ (l : List (ℕ × ℕ)) (o : ℕ), (l.map (·.1)).Nodup → ∃ x : ℕ → ℕ → ℝ, ∀ k < tot l, stackV l x k = y (o + k) := by
      intro l
      induction l with
      | nil => intro o _; exact ⟨fun _ _ => 0, fun k hk => absurd hk (by simp [tot])⟩
      | cons b r ih =>
        intro o hn
        rw [List.map_cons, List.nodup_cons] at hn
        obtain ⟨x, hx⟩ := ih (o + b.2) hn.2
        have congr : ∀ (l : List (ℕ × ℕ)) (x x' : ℕ → ℕ → ℝ), (∀ a ∈ l, x a.1 = x' a.1) → ∀ k, stackV l x k = stackV l x' k := by
          intro l x x' h
          induction l with
          | nil => intro k; rfl
          | cons b r ih =>
            intro k
            rw [stackV, stackV, h b List.mem_cons_self, ih (fun a ha => h a (List.mem_cons_of_mem _ ha))]
        refine ⟨fun a => if a = b.1 then fun i => y (o + i) else x a, fun k hk => ?_⟩
        rw [tot] at hk
        rw [stackV]
        split
        · rw [if_pos rfl]
        · rw [congr r _ x (fun a ha => if_neg (fun e => hn.1 (by rw [← e]; exact List.mem_map.mpr ⟨a, ha, rfl⟩))), hx (k - b.2) (by omega)]
          congr 1; omega
    obtain ⟨x, hx⟩ := this bs 0 hn
    exact ⟨x, fun k hk => by rw [hx k hk, Nat.zero_add]⟩
  refine ⟨by rw [hS.1.1, hS.1.2], symS, fun y => ?_⟩
  obtain ⟨x, hx⟩ := unstack y
  have h1 := hteam x
  rw [← bilS x] at h1
  refine h1.trans (le_of_eq ?_)
  rw [hS.1.1]
  unfold bil
  refine Finset.sum_congr rfl fun i hi => Finset.sum_congr rfl fun j hj => ?_
  rw [hx i (Finset.mem_range.mp hi), hx j (Finset.mem_range.mp hj)]

namespace StdHdl
open StdTeam

variable {g1 g2 g3 : ℕ → ℕ → ℝ} {dim : ℕ → ℕ} {h h' : StdHdl} {c c' : Central} {mate : ℕ → ℕ} {ids : Finset ℕ} {fresh fresh' : ℕ → Prop}

theorem margin_nonneg : 0 ≤ margin := by unfold margin; positivity

open Classical in
/-- The margins. -/
noncomputable def mrg (fresh : ℕ → Prop) (p : ℕ) : ℝ := if fresh p then margin else 0

theorem mrg_nonneg (fresh : ℕ → Prop) (p : ℕ) : 0 ≤ mrg fresh p := by
  unfold mrg
  split
  · exact margin_nonneg
  · exact le_rfl

theorem mrg_congr {f g : ℕ → Prop} {p q : ℕ} (h : f p = g q) : mrg f p = mrg g q := by unfold mrg; rw [h]

/-- What is kept. -/
structure PairInv (dim mate : ℕ → ℕ) (ids : Finset ℕ) (fresh : ℕ → Prop) (c : Central) : Prop where
  slack : TeamSlack dim ids (mrg fresh) c.cov
  apart : ∀ p ∈ ids, ∀ q ∈ ids, p ≠ q → ¬ (mate p = q ∧ mate q = p) → ∀ i j, (c.cov p q).e i j = 0

theorem apart_transform (ha : ∀ p ∈ ids, ∀ q ∈ ids, p ≠ q → ¬ (mate p = q ∧ mate q = p) → ∀ i j, (c.cov p q).e i j = 0) {id : ℕ} {F m P : Mat} {t : Int} {fx : Bool} :
    ∀ p ∈ ids, ∀ q ∈ ids, p ≠ q → ¬ (mate p = q ∧ mate q = p) → ∀ i j, ((c.transform id F m P t fx).cov p q).e i j = 0 := by
  intro p hp q hq hne hm i j
  simp only [Central.transform]
  split
  · rename_i e; exact absurd (e.1.trans e.2.symm) hne
  · split
    · rw [mul_e]; exact Finset.sum_eq_zero fun k _ => by rw [ha p hp q hq hne hm, mul_zero]
    · split
      · rw [mul_e]; exact Finset.sum_eq_zero fun k _ => by rw [ha p hp q hq hne hm, zero_mul]
      · exact ha p hp q hq hne hm i j

theorem joint_registered {me I J : ℕ} {HI HJ R z : Mat} {a : Bool} (he : run g1 g2 g3 h (.joint me I J HI HJ R z) = .ok (h', a)) : (h.find I).isSome ∧ (h.find J).isSome := by
  simp only [run, joint] at he
  obtain ⟨_, x1, -⟩ := Hdl.bind_eq_ok he
  exact expect_inv x1

theorem propU_shape (hr : StdView.Rel dim (view h) c) {id : ℕ} {Phi Q : Mat} {t : Int} {G u var : Mat} (hv : var.cols = 1)
    (he : run g1 g2 g3 h (.propU id Phi Q t G u var) = .ok (h', true)) : G.Shape (dim id) 1 ∧ var.Shape 1 1 ∧ Q.Shape (dim id) (dim id) := by
  obtain ⟨i, j, hi, hf, rfl⟩ := onInst_inv he
  obtain ⟨b, hb, b1, b2, b3, b4, b5, b6⟩ := Rel.stored hr hi
  unfold StdInst.propU at hf
  obtain ⟨⟨k, a⟩, h1, h2⟩ := Hdl.bind_eq_ok hf
  obtain ⟨e, -, g⟩ := StdInst.thenFactors_inv h2
  simp only at e g
  subst e
  rcases StdInst.basePropU_inv hb b4 b5 h1 with ⟨hh, -⟩ | ⟨-, hP, hQ, ht, hG, e1, e2, hvs, rfl⟩
  · simp at hh
  · have hG1 : G.cols = 1 := by rw [← hvs.2, hv]
    exact ⟨⟨hG, hG1⟩, by rw [hG1] at hvs; exact hvs, hQ⟩

/-- The share of the input noise. -/
theorem input_bil {G var Q : Mat} {n : ℕ} (hn : 0 < n) (hG : G.Shape n 1) (hv : var.Shape 1 1) (hc : IsCovMat var) (x : ℕ → ℝ) :
    bil Q n n x x ≤ bil (G * var * G.tr + Q) n n x x := by
  rw [Hdl.bil_add (A := G * var * G.tr) ((hG.mul hv).mul hG.tr), Mat.mul_assoc, bil_mul_left _ _ _ _ (by rw [mul_rows, hv.1]; omega),
    bil_mul_right _ _ _ _ (by rw [hv.2]; omega)]
  linarith [hc.bil n (pull G n x)]

theorem default_eps : ({} : Cfg).eps = margin := by unfold margin; norm_num

/-- A private update with the factor posterior times inverse prior loses at most the margin. -/
theorem priv_slack {H R r S : Mat} {n m : ℕ} {res : CorrRes} (hO : ObsShape H R r S n m) (hS : IsCovMat S) (hm : ∀ x, margin * sqn n x ≤ bil S n n x x) (hR : IsCovMat R)
    (h : correctionStep H R r S {} = .ok res) (x : ℕ → ℝ) :
    bil ((res.Sapos * S.inv) * S * (res.Sapos * S.inv).tr) n n x x ≤ bil res.Sapos n n x x + margin * sqn n (pull (res.Sapos * S.inv) n x) := by
  obtain ⟨-, pS⟩ := hS.psd hO.S.1
  obtain ⟨pR, he, pRe⟩ := (noiseOk_default hR).pd hO.R.1
  obtain ⟨q1, -, -, -, -, -, -, q8, q9, -, q11, -⟩ := c18_kalman_update H R r S {} hO pS pR he pRe res h
  have pd : (S.toM n n).PosDef := by
    refine Matrix.PosDef.of_dotProduct_mulVec_pos pS.1 ?_
    intro v hv
    obtain ⟨k, hk⟩ := Function.ne_iff.mp hv
    have h1 := hm fun i => if hi : i < n then v ⟨i, hi⟩ else 0
    have h2 : 0 < sqn n (fun i => if hi : i < n then v ⟨i, hi⟩ else 0) := by
      unfold sqn
      refine Finset.sum_pos' (fun i _ => mul_self_nonneg _) ⟨k, Finset.mem_range.mpr k.2, ?_⟩
      simp only [dif_pos k.2]
      exact mul_self_pos.mpr hk
    have h3 : 0 < margin := by unfold margin; positivity
    rw [Hdl.bil_toM] at h1
    have := lt_of_lt_of_le (mul_pos h3 h2) h1
    simpa using this
  have hF : (res.Sapos * S.inv).Shape n n := q1.mul hO.S.inv
  have hw : (fun k : Fin n => pull (res.Sapos * S.inv) n x k) = ((S.toM n n)⁻¹ * res.Sapos.toM n n).mulVec (fun i => x i) := by
    ext k
    have e1 : ((S.toM n n)⁻¹ * res.Sapos.toM n n) = ((res.Sapos * S.inv).toM n n).transpose := by
      rw [q1.toM_mul, toM_inv _ _ hO.S.1, Matrix.transpose_mul, Matrix.transpose_nonsing_inv, Alg.psd_symm pS, Alg.psd_symm q9]
    rw [e1]
    simp only [pull, Matrix.mulVec, dotProduct, Matrix.transpose_apply, toM_apply]
    rw [Finset.sum_range]
    exact Finset.sum_congr rfl fun i _ => mul_comm _ _
  rw [Mat.mul_assoc, bil_mul_left _ _ _ _ (by rw [mul_rows, hO.S.1]), bil_mul_right _ _ _ _ (by rw [hO.S.2]), Hdl.bil_toM, Hdl.bil_toM, hw]
  have es : sqn n (pull (res.Sapos * S.inv) n x) = (((S.toM n n)⁻¹ * res.Sapos.toM n n).mulVec (fun i => x i)) ⬝ᵥ (((S.toM n n)⁻¹ * res.Sapos.toM n n).mulVec (fun i => x i)) := by
    rw [← hw]
    unfold sqn
    rw [Finset.sum_range]
    rfl
  rw [es]
  refine std_alg pd q9 (fun u => ?_) _
  have hδ : (if ({} : Cfg).stab = true then ({} : Cfg).eps • (1 : Matrix (Fin n) (Fin n) ℝ) else 0) = margin • 1 := by rw [if_pos rfl, default_eps]
  rw [hδ] at q11
  have := q11.dotProduct_mulVec_nonneg u
  simp only [star_trivial] at this
  rw [Matrix.sub_mulVec, Matrix.sub_mulVec, Matrix.smul_mulVec, Matrix.one_mulVec, dotProduct_sub, dotProduct_sub, dotProduct_smul, smul_eq_mul] at this
  linarith

/-- One accepted call. -/
theorem PairInv.step (hr : StdView.Rel dim (view h) c) (hr' : StdView.Rel dim (view h') c') (hreg : ∀ p, p ∈ ids ↔ (h.find p).isSome)
    (hreg' : ∀ p ∈ ids, (h'.find p).isSome) {ev : StdEv} (hw : Wf dim ev) (he : run g1 g2 g3 h ev = .ok (h', true)) (ok : Allowed mate fresh ev)
    (st : StdStep dim c ev c') (hi : PairInv dim mate ids fresh c) : PairInv dim mate ids (after dim fresh ev) c' := by
  have hs : ∀ p ∈ ids, ∀ q ∈ ids, (c.cov p q).Shape (dim p) (dim q) := fun p hp q hq => hr.covS p q ((hreg p).mp hp) ((hreg q).mp hq)
  have hteam : TeamCov dim ids c.cov := hi.slack.cov fun p _ => mrg_nonneg _ _
  have prop : ∀ (id : ℕ) (Phi Q0 Q m : Mat) (t : Int), (∀ x, bil Q0 (dim id) (dim id) x x ≤ bil Q (dim id) (dim id) x x) → IsCovMat Q0 →
      StdView.Rel dim (view h') (c.transform id Phi m (Phi * c.cov id id * Phi.tr + Q) t (c.fix id)) →
      PairInv dim mate ids (fun p => if p = id then AtLeast (dim id) Q0 else fresh p) (c.transform id Phi m (Phi * c.cov id id * Phi.tr + Q) t (c.fix id)) := by
    intro id Phi Q0 Q m t hQ hQ0 hr'
    refine ⟨?_, apart_transform hi.apart⟩
    have : TeamSlack dim ids (fun p => if p = id then mrg (fun _ => AtLeast (dim id) Q0) id else mrg fresh p) (c.transform id Phi m (Phi * c.cov id id * Phi.tr + Q) t (c.fix id)).cov := by
      refine hi.slack.transform hs fun hid x => ?_
      have h1 := hr'.covS id id (hreg' id hid) (hreg' id hid)
      simp only [Central.transform] at h1
      rw [if_pos ⟨trivial, trivial⟩] at h1
      rw [Hdl.bil_add (A := Phi * c.cov id id * Phi.tr) ⟨h1.1, h1.2⟩]
      have h2 : mrg (fun _ => AtLeast (dim id) Q0) id * sqn (dim id) x ≤ bil Q0 (dim id) (dim id) x x := by
        unfold mrg
        split
        · rename_i hb; exact hb x
        · rw [zero_mul]; exact hQ0.bil _ _
      have h3 : 0 ≤ mrg fresh id * sqn (dim id) (pull Phi (dim id) x) := mul_nonneg (mrg_nonneg _ _) (sqn_nonneg _ _)
      linarith [hQ x]
    refine this.mono fun p _ => le_of_eq ?_
    by_cases hp : p = id
    · subst hp; rw [if_pos rfl]; exact mrg_congr (if_pos rfl)
    · rw [if_neg hp]; exact mrg_congr (if_neg hp)
  cases st with
  | prop id Phi Q t => exact prop id Phi Q Q _ t (fun _ => le_rfl) ok hr'
  | propU id Phi Q t G u var =>
    obtain ⟨k1, k2, -⟩ := propU_shape hr hw.2 he
    obtain ⟨i, j, hf, -⟩ := onInst_inv he
    exact prop id Phi Q _ _ t (input_bil (hr.pos id (by show (h.find id).isSome; rw [hf]; rfl)) k1 k2 ok.2) ok.1 hr'
  | priv id H R z res hc hrj =>
    refine ⟨?_, apart_transform hi.apart⟩
    have : TeamSlack dim ids (fun p => if p = id then 0 else mrg fresh p)
        (c.transform id (res.Sapos * (c.cov id id).inv) (c.mu id + res.dx) res.Sapos (c.tm id) (c.fix id)).cov := by
      refine hi.slack.transform hs fun hid x => ?_
      obtain ⟨hO, -⟩ := Inst.correctionStep_accept (hs id hid id hid) {} res hc hrj
      have hfr : mrg fresh id = margin := by unfold mrg; rw [if_pos ok.1]
      have hown : IsCovMat (c.cov id id) := hteam.own hid (hs id hid id hid) (hr.symm id id ((hreg id).mp hid) ((hreg id).mp hid))
      have hm : ∀ x, margin * sqn (dim id) x ≤ bil (c.cov id id) (dim id) (dim id) x x := by
        intro x
        have := hi.slack fun p => if p = id then x else fun _ => 0
        rw [Finset.sum_eq_single_of_mem id hid, Finset.sum_eq_single_of_mem id hid, Finset.sum_eq_single_of_mem id hid, if_pos rfl, hfr] at this
        · exact this
        · intro q _ hq; rw [if_neg hq]; exact bil_zero_right _ _ _ _ fun _ => rfl
        · intro q _ hq; rw [if_neg hq]; exact Finset.sum_eq_zero fun a _ => bil_zero_left _ _ _ (fun _ => rfl) _
        · intro q _ hq; rw [if_neg hq]; simp [sqn]
      rw [hfr, zero_mul, zero_add]
      exact priv_slack hO hown hm ok.2 hc x
    refine this.mono fun p _ => le_of_eq ?_
    by_cases hp : p = id
    · subst hp; rw [if_pos rfl]; exact if_neg (fun e => by rw [after, if_pos rfl] at e; exact e)
    · rw [if_neg hp]; exact mrg_congr (if_neg hp)
  | joint I J HI HJ R z H S m res ht hH hS hm hc hrj =>
    have hIJ := hw.1
    obtain ⟨rI, rJ⟩ := joint_registered he
    have mI := (hreg I).mpr rI
    have mJ := (hreg J).mpr rJ
    have hb : ∀ b ∈ [(I, dim I), (J, dim J)], b.2 = dim b.1 := by intro b hb; simp at hb; rcases hb with rfl | rfl <;> rfl
    have hn : ([(I, dim I), (J, dim J)].map (·.1)).Nodup := by simp [hIJ]
    have mem : ∀ p, p ∈ [(I, dim I), (J, dim J)].map (·.1) ↔ p = I ∨ p = J := by intro p; simp
    have hcS : IsCovMat S := by
      refine hS.cov hb hn ?_ (hteam.subset ?_)
      · intro a ha b hb'
        have key : ∀ p, p ∈ [(I, dim I), (J, dim J)].map (·.1) → (h.find p).isSome := by
          intro p hp; rcases (mem p).mp hp with rfl | rfl <;> assumption
        exact hr.symm a b (key a ha) (key b hb')
      · intro p hp
        rcases (mem p).mp (List.mem_toFinset.mp hp) with rfl | rfl <;> assumption
    obtain ⟨hO, -⟩ := Inst.correctionStep_accept (hS.1.stabM _) {} res hc hrj
    obtain ⟨-, pS⟩ := hcS.psd hS.1.1
    set n := tot [(I, dim I), (J, dim J)]
    have eS : (stabM S (1 / 10^12)).toM n n = S.toM n n + (1 / 10^12 : ℝ) • 1 := toM_stabM_symm hS.1 _ (Alg.psd_symm pS)
    have pS1 : ((stabM S (1 / 10^12)).toM n n).PosSemidef := by
      rw [eS]; exact pS.add (Alg.smul_one_psd (by norm_num))
    obtain ⟨pR, he', pRe⟩ := (noiseOk_default ok.2.2).pd hO.R.1
    obtain ⟨q1, -, -, -, -, -, -, -, -, q10, -, -⟩ := c18_kalman_update H R _ (stabM S (1 / 10^12)) {} hO pS1 pR he' pRe res hc
    have hP : ∀ x, margin * sqn n x ≤ bil res.Sapos n n x x := by
      intro x
      have hδ : (if ({} : Cfg).stab = true then ({} : Cfg).eps • (1 : Matrix (Fin n) (Fin n) ℝ) else 0) = margin • 1 := by rw [if_pos rfl, default_eps]
      rw [hδ] at q10
      have := q10.dotProduct_mulVec_nonneg (fun i : Fin n => x i)
      simp only [star_trivial] at this
      rw [Matrix.sub_mulVec, Matrix.smul_mulVec, Matrix.one_mulVec, dotProduct_sub, dotProduct_smul, smul_eq_mul, ← Hdl.bil_toM] at this
      have es : sqn n x = (fun i : Fin n => x i) ⬝ᵥ (fun i : Fin n => x i) := by unfold sqn; rw [Finset.sum_range]; rfl
      rw [es]; linarith
    have hz : ∀ p ∈ ids, ∀ q ∈ ids, p ∈ [(I, dim I), (J, dim J)].map (·.1) → q ∉ [(I, dim I), (J, dim J)].map (·.1) →
        ∀ i j, (c.cov p q).e i j = 0 ∧ (c.cov q p).e i j = 0 := by
      intro p hp q hq h1 h2 i j
      have h3 : q ≠ I ∧ q ≠ J := by rw [mem] at h2; tauto
      have h4 : p ≠ q := by rintro rfl; exact h2 h1
      have h5 : mate p ≠ q := by
        rcases (mem p).mp h1 with rfl | rfl
        · rw [ok.1]; exact h3.2.symm
        · rw [ok.2.1]; exact h3.1.symm
      exact ⟨hi.apart p hp q hq h4 (fun e => h5 e.1) i j, hi.apart q hq p hp h4.symm (fun e => h5 e.2) i j⟩
    refine ⟨(hi.slack.joint hb hn hP hz (dx := res.dx)).mono fun p _ => le_of_eq ?_, fun p hp q hq hne hnm i j => ?_⟩
    · by_cases hp : p = I ∨ p = J
      · rw [if_pos ((mem p).mpr hp)]; exact if_pos (by rw [after, if_pos hp]; trivial)
      · rw [if_neg (fun e => hp ((mem p).mp e))]; exact mrg_congr (if_neg hp)
    · simp only [Central.joint]
      split
      · rename_i e
        exfalso
        rcases (mem p).mp e.1 with rfl | rfl <;> rcases (mem q).mp e.2 with rfl | rfl
        · exact hne rfl
        · exact hnm ⟨ok.1, ok.2.1⟩
        · exact hnm ⟨ok.2.1, ok.1⟩
        · exact hne rfl
      · split
        · rw [mul_e]; exact Finset.sum_eq_zero fun k _ => by rw [hi.apart p hp q hq hne hnm, mul_zero]
        · split
          · rw [mul_e]; exact Finset.sum_eq_zero fun k _ => by rw [hi.apart p hp q hq hne hnm, zero_mul]
          · exact hi.apart p hp q hq hne hnm i j

/-- A joint update of two filters at the same time returns. -/
theorem PairInv.joint_returns (hr : StdView.Rel dim (view h) c) (hs : Srt h) (hreg : ∀ p, p ∈ ids ↔ (h.find p).isSome) (hi : PairInv dim mate ids fresh c)
    {I J : ℕ} {HI HJ R z : Mat} (hf : Fits dim (.joint I I J HI HJ R z)) (hR : IsCovMat R) (mI : I ∈ ids) (mJ : J ∈ ids) (ht : stamp h I = stamp h J) :
    ∃ h' ans, run g1 g2 g3 h (.joint I I J HI HJ R z) = .ok (h', ans) := by
  obtain ⟨hIJ, m, hm, sI, sJ, sR, sz⟩ := hf
  have hteam : TeamCov dim ids c.cov := hi.slack.cov fun p _ => mrg_nonneg _ _
  obtain ⟨h', ans, e, -⟩ := joint_progress (g1 := g1) (g2 := g2) (g3 := g3) hr hs hIJ hm sI sJ sR sz (hR.psd sR.1).2 ((hreg I).mp mI) ((hreg J).mp mJ) ht (by
    intro S hS
    have hb : ∀ b ∈ [(I, dim I), (J, dim J)], b.2 = dim b.1 := by intro b hb; simp at hb; rcases hb with rfl | rfl <;> rfl
    have hn : ([(I, dim I), (J, dim J)].map (·.1)).Nodup := by simp [hIJ]
    have mem : ∀ p, p ∈ [(I, dim I), (J, dim J)].map (·.1) → p ∈ ids := by
      intro p hp; simp at hp; rcases hp with rfl | rfl <;> assumption
    have := hS.cov hb hn (fun a ha b hb' => hr.symm a b ((hreg a).mp (mem a ha)) ((hreg b).mp (mem b hb'))) (hteam.subset fun p hp => mem p (List.mem_toFinset.mp hp))
    have e : tot [(I, dim I), (J, dim J)] = dim I + dim J := by simp [tot]
    rw [← e]
    exact (this.psd hS.1.1).2)
  exact ⟨h', ans, e⟩

/-- The filters stay registered. -/
theorem run_registered (hr : StdView.Rel dim (view h) c) (hr' : StdView.Rel dim (view h') c') {ev : StdEv} {a : Bool} (he : run g1 g2 g3 h ev = .ok (h', a)) (p : ℕ) :
    (h.find p).isSome ↔ (h'.find p).isSome := by
  have key : ∀ {k : StdHdl}, (stamp k p).isSome → (k.find p).isSome := by
    intro k hk
    unfold stamp at hk
    cases hf : k.find p with
    | none => rw [hf] at hk; simp at hk
    | some i => rfl
  have back : ∀ {k : StdHdl} {e : Central}, StdView.Rel dim (view k) e → (k.find p).isSome → (stamp k p).isSome := by
    intro k e hk ho
    obtain ⟨i, hi⟩ := Option.isSome_iff_exists.mp ho
    obtain ⟨b, hb, -⟩ := Rel.stored hk hi
    unfold stamp
    rw [hi]
    simp [hb]
  constructor
  · intro ho
    rcases step_stamp ev he p with ⟨-, e⟩ | ⟨-, t, s, -, -, -, e⟩
    · exact key (by rw [e]; exact back hr ho)
    · exact key (by rw [e]; rfl)
  · intro ho
    rcases step_stamp ev he p with ⟨-, e⟩ | ⟨-, t, s, -, e, -, -⟩
    · exact key (by rw [← e]; exact back hr' ho)
    · exact key (by rw [e]; rfl)

theorem reads_cov (h1 : Reads dim h c) (h2 : Reads dim h c') {p q : ℕ} (hp : (h.find p).isSome) (hq : (h.find q).isSome) : c'.cov p q = c.cov p q := by
  by_cases hpq : p = q
  · subst hpq
    obtain ⟨b, e1, -, e2, -⟩ := h1.1 p hp
    obtain ⟨b', e3, -, e4, -⟩ := h2.1 p hp
    rw [e1] at e3
    obtain rfl := Option.some.inj e3
    rw [← e2, ← e4]
  · obtain ⟨S, e1, e2⟩ := h1.2 p q hp hq hpq
    obtain ⟨S', e3, e4⟩ := h2.2 p q hp hq hpq
    rw [e1] at e3
    obtain rfl := Res.ok.inj e3
    rw [← e2, ← e4]

/-- The registered filters are `ids`, and what they hold is kept. -/
def PairH (dim mate : ℕ → ℕ) (ids : Finset ℕ) (fresh : ℕ → Prop) (h : StdHdl) : Prop :=
  ∃ c, StdView.Rel dim (view h) c ∧ Srt h ∧ (∀ p, p ∈ ids ↔ (h.find p).isSome) ∧ PairInv dim mate ids fresh c

theorem PairH.accept (hp : PairH dim mate ids fresh h) {ev : StdEv} (hw : Wf dim ev) (ok : Allowed mate fresh ev) (he : run g1 g2 g3 h ev = .ok (h', true)) :
    PairH dim mate ids (after dim fresh ev) h' := by
  obtain ⟨c, hr, hs, hreg, hi⟩ := hp
  obtain ⟨⟨c', st, r'⟩, s'⟩ := accepted hr hs ev hw he
  have hreg' : ∀ p, p ∈ ids ↔ (h'.find p).isSome := fun p => (hreg p).trans (run_registered hr r' he p)
  exact ⟨c', r', s', hreg', hi.step hr r' hreg (fun p hp => (hreg' p).mp hp) hw he ok st⟩

theorem PairH.runs {l : List (StdEv × Bool)} (hw : ∀ x ∈ l, Wf dim x.1) (hx : Runs g1 g2 g3 h l h') (hpc : Paced dim mate fresh l fresh') (hp : PairH dim mate ids fresh h) :
    PairH dim mate ids fresh' h' := by
  induction hx generalizing fresh with
  | nil h => cases hpc; exact hp
  | @step h h1 h2 ev ans l he r ih =>
    cases hpc with
    | accept ok rest => exact ih (fun x hx => hw x (List.mem_cons_of_mem _ hx)) rest (hp.accept (hw _ List.mem_cons_self) ok he)
    | reject rest =>
      obtain ⟨c, hr, hs, hreg, hi⟩ := hp
      have : h1 = h := c54_unchanged hs.1 ev he
      subst this
      exact ih (fun x hx => hw x (List.mem_cons_of_mem _ hx)) rest ⟨c, hr, hs, hreg, hi⟩

theorem Init.pairH (hi : Init dim h c) (hreg : ∀ p, p ∈ ids ↔ (h.find p).isSome) (hc : ∀ p ∈ ids, IsCovMat (c.cov p p)) (hm : ∀ p ∈ ids, fresh p → AtLeast (dim p) (c.cov p p)) :
    PairH dim mate ids fresh h := by
  refine ⟨c, hi.rel, hi.srt, hreg, fun x => ?_, fun p _ q _ hne _ i j => by rw [hi.uncorrelated p q hne]; simp [Mat.zero, Mat.of]⟩
  refine Finset.sum_le_sum fun p hp => ?_
  rw [Finset.sum_eq_single_of_mem p hp fun q _ hq => by rw [hi.uncorrelated p q (Ne.symm hq)]; simp [bil, Mat.zero, Mat.of]]
  unfold mrg
  split
  · rename_i hf; exact hm p hp hf _
  · rw [zero_mul]; exact (hc p hp).bil _ _

/-- C106, filters without buffers that are observed jointly in fixed pairs. Fresh filters whose covariances are covariance
matrices; a sequence of calls in which each private update of a filter comes after an accepted propagation with process noise
of at least `margin` or an accepted joint update of it (`Paced`). What can be read from the filters, taken together, is a
covariance, and every joint update of two of them at the same time returns. -/
theorem c106_std_pairs_partial {h0 : StdHdl} {c0 : Central} (hi : Init dim h0 c0) (hreg : ∀ p, p ∈ ids ↔ (h0.find p).isSome) (hc : ∀ p ∈ ids, IsCovMat (c0.cov p p))
    (hm : ∀ p ∈ ids, fresh p → AtLeast (dim p) (c0.cov p p)) {l : List (StdEv × Bool)} (hw : ∀ x ∈ l, Wf dim x.1) (hx : Runs g1 g2 g3 h0 l h) (hpc : Paced dim mate fresh l fresh') :
    (∀ c, Reads dim h c → TeamCov dim ids c.cov) ∧
    ∀ I J HI HJ R z, I ∈ ids → J ∈ ids → stamp h I = stamp h J → Fits dim (.joint I I J HI HJ R z) → IsCovMat R →
      ∃ h' ans, run g1 g2 g3 h (.joint I I J HI HJ R z) = .ok (h', ans) := by
  obtain ⟨c, hr, hs, hreg', hinv⟩ := PairH.runs hw hx hpc (hi.pairH (mate := mate) hreg hc hm)
  have hteam : TeamCov dim ids c.cov := hinv.slack.cov fun p _ => mrg_nonneg _ _
  refine ⟨fun e he => hteam.congr fun p hp q hq => reads_cov (reads hr) he ((hreg' p).mp hp) ((hreg' q).mp hq), ?_⟩
  intro I J HI HJ R z mI mJ ht hf hR
  exact hinv.joint_returns hr hs hreg' hf hR mI mJ ht

namespace Example
open Hdl.Example (s s_shape)

/-- The premises are met: the two filters of the example, an accepted joint update, a private update of the first with any
measurement; then any joint update of the two with one row returns. -/
example (z : ℝ) : ∃ l h', Runs g0 g0 g0 h0 l h' ∧ l.map (·.1) = [.joint 1 1 2 (s 1) (s (-1)) (s 1) (s 0), .priv 1 (s 1) (s 1) (s z)] ∧
    ∀ a b y : ℝ, ∃ h'' ans, run g0 g0 g0 h' (.joint 1 1 2 (s a) (s b) (s 1) (s y)) = .ok (h'', ans) := by
  obtain ⟨h1, e0⟩ := joint_accepted
  have e1 : run g0 g0 g0 h0 (.joint 1 1 2 (s 1) (s (-1)) (s 1) (s 0)) = .ok (h1, true) := e0
  have hc1 : ∀ x : ℝ, 0 ≤ x → IsCovMat (s x) := fun x hx => ⟨rfl, fun i j => by simp only [s, Mat.of]; by_cases h : i < 1 ∧ j < 1 <;> simp [h, and_comm], fun y => by
    simp [s, Mat.of, bil]; nlinarith [mul_self_nonneg (y 0)]⟩
  have wj : Wf Hdl.Example.dim (.joint 1 1 2 (s 1) (s (-1)) (s 1) (s 0)) := ⟨by decide, 1, Nat.one_pos, s_shape 1, s_shape (-1)⟩
  have hr1 : Runs g0 g0 g0 h0 [(.joint 1 1 2 (s 1) (s (-1)) (s 1) (s 0), true)] h1 := .step e1 (.nil _)
  have reg0 : ∀ p, p ∈ ({1, 2} : Finset ℕ) ↔ (h0.find p).isSome := by
    intro p
    simp only [h0, SMap.find, Finset.mem_insert, Finset.mem_singleton]
    split_ifs <;> simp_all [eq_comm]
  obtain ⟨⟨c1, st, r1⟩, s1⟩ := accepted init.rel init.srt _ wj e1
  obtain ⟨h2, a, e2⟩ := own_returns (g1 := g0) (g2 := g0) (g3 := g0) r1 s1 (.priv 1 (s 1) (s 1) (s z))
    ((run_registered init.rel r1 e1 1).mp ((reg0 1).mp (by simp))) ⟨rfl, s_shape 1, s_shape z⟩ trivial
  have hr2 := Runs.step e1 (Runs.step e2 (.nil _))
  refine ⟨_, h2, hr2, rfl, fun x b y => ?_⟩
  have paced : ∃ f', Paced Hdl.Example.dim (fun p => 3 - p) (fun _ => False) [(.joint 1 1 2 (s 1) (s (-1)) (s 1) (s 0), true), (.priv 1 (s 1) (s 1) (s z), a)] f' := by
    cases a with
    | true => exact ⟨_, .accept ⟨rfl, rfl, hc1 1 zero_le_one⟩ (.accept ⟨by simp [after], hc1 1 zero_le_one⟩ (.nil _))⟩
    | false => exact ⟨_, .accept ⟨rfl, rfl, hc1 1 zero_le_one⟩ (.reject (.nil _))⟩
  obtain ⟨f', hp⟩ := paced
  have hst : stamp h2 1 = stamp h2 2 := by
    have k : ∀ p, stamp h2 p = stamp h0 p := by
      intro p
      rw [(c54_increasing hr2 p).2.2]
      cases a <;> rfl
    rw [k, k]; rfl
  exact (c106_std_pairs_partial (ids := {1, 2}) init reg0 (fun p _ => by simp only [Hdl.Example.c0]; rw [if_pos trivial]; exact hc1 2 (by norm_num)) (fun p _ hf => hf.elim)
    (by intro x hx; simp only [List.mem_cons, List.not_mem_nil, or_false] at hx; rcases hx with rfl | rfl; exacts [wj, trivial]) hr2 hp).2 1 2 _ _ _ _ (by simp) (by simp) hst
    ⟨by decide, 1, Nat.one_pos, s_shape x, s_shape b, s_shape 1, s_shape y⟩ (hc1 1 zero_le_one)

end Example
end StdHdl
end Ikf
