import Verif.Model.DciHandler
import Verif.Spec.Dci
import Verif.Props.CovInt
import Verif.Props.CollabNonlinear

/-!
# Covariance intersection between agents: lemmas
-/

namespace Ikf
open Mat

/-! ## The correction -/

theorem ciPost_symm {Hi Hj R r Si Sj : Mat} {n p m : ℕ} (hi : ObsShape Hi R r Si n m) (hj : ObsShape Hj R r Sj p m) (hs : Si.tr = Si) (wi eps : ℝ) :
    (ciPost Hi Hj R Si Sj wi eps).tr = ciPost Hi Hj R Si Sj wi eps := by
  have hP := ciPost_shape (Hj := Hj) (Sj := Sj) hi wi eps
  have hI : ((ciInnov Hj R Sj wi eps).toM m m).transpose = (ciInnov Hj R Sj wi eps).toM m m := by
    have h0 : (smul (1 / (1 - wi)) Hj * Sj * Hj.tr + R).Shape m m := (((hj.H.smul _).mul hj.S).mul hj.H.tr).add
    have := Collab.stabM_tr' h0 eps
    rw [← toM_tr]
    exact congrArg (fun M : Mat => M.toM m m) this
  have hSi : (Si.toM n n).transpose = Si.toM n n := by rw [← toM_tr, hs]
  apply toM_inj (n := n) (m := n) hP.tr.1 hP.tr.2 hP.1 hP.2
  rw [toM_tr, toM_ciPost hi hj]
  simp only [Matrix.transpose_sub, Matrix.transpose_smul, Matrix.transpose_mul, Matrix.transpose_nonsing_inv, hI, hSi, Matrix.transpose_transpose,
    Matrix.mul_assoc]

theorem ciCorrection_accept {Hi Hj R r Si Sj : Mat} {n p : ℕ} (hSi : Si.Shape n n) (hSj : Sj.Shape p p) (hs : Si.tr = Si) {wi : ℝ} {cfg : Cfg} {res : CorrRes}
    (h : ciCorrection Hi Hj R r Si Sj wi cfg = .ok res) (hr : res.rejected = false) :
    res.Sapos.Shape n n ∧ res.Sapos.tr = res.Sapos ∧ res.dx.Shape n 1 := by
  by_cases hd : (checkDimObs Hi R r Si && checkDimObs Hj R r Sj) = true
  · have hd0 := hd
    rw [Bool.and_eq_true] at hd0
    have hd' := (checkDimObs_iff _ _ _ _).mp hd0.1
    have hd'' := (checkDimObs_iff _ _ _ _).mp hd0.2
    have hi : ObsShape Hi R r Si n Hi.rows := ⟨⟨rfl, by rw [hd'.1, hSi.1]⟩, ⟨hd'.2.2.2.1, hd'.2.2.2.2⟩, ⟨hd'.2.1, hd'.2.2.1⟩, hSi⟩
    have hrr : Hj.rows = Hi.rows := by have := hd'.2.1; have := hd''.2.1; omega
    have hj : ObsShape Hj R r Sj p Hi.rows := ⟨⟨hrr, by rw [hd''.1, hSj.1]⟩, hi.R, hi.r, hSj⟩
    rw [ciCorrection_eq hi hj] at h
    generalize (if cfg.outlier then do
        let good ← checkNIS (ciInnov Hj R Sj wi cfg.eps) r cfg.conf
        .ok (!good)
      else .ok false : Res Bool) = x at h
    cases x with
    | throws => simp at h
    | ub => simp at h
    | ok b =>
      simp only [Res.bind_ok, Res.ok.injEq] at h
      rw [← h]
      have hP := ciPost_shape (Hj := Hj) (Sj := Sj) hi wi cfg.eps
      refine ⟨?_, ?_, ?_⟩
      · simp only; split
        · exact hP.stabM _
        · exact hP
      · simp only; split
        · exact Collab.stabM_tr' hP _
        · exact ciPost_symm hi hj hs wi cfg.eps
      · have hI := ciInnov_shape hj wi cfg.eps
        have hG := (hi.S.smul (1 / wi)).mul hi.H.tr
        exact (hG.mul hI.inv).mul hi.r
  · unfold ciCorrection at h
    rw [if_neg hd] at h
    rw [← Res.ok.inj h] at hr
    simp [CorrRes.dflt] at hr

/-- Fitting sizes: the correction yields a result. -/
theorem ciCorrection_progress {Hi Hj R r Si Sj : Mat} {n p m : ℕ} (hi : ObsShape Hi R r Si n m) (hj : ObsShape Hj R r Sj p m) (wi : ℝ) {cfg : Cfg}
    (hg : GateOk cfg) : ∃ res, ciCorrection Hi Hj R r Si Sj wi cfg = .ok res ∧ (cfg.outlier = false → res.rejected = false) := by
  rw [ciCorrection_eq hi hj]
  cases ho : cfg.outlier with
  | false =>
    rw [if_neg (by simp), Res.bind_ok]
    exact ⟨_, rfl, fun _ => rfl⟩
  | true =>
    rw [if_pos rfl]
    have hg' : cfg.conf ≤ 0 ∨ ∃ row, nisTable.lookup (round (cfg.conf * 1000)) = some row := by
      rcases hg with hg | hg
      · rw [hg] at ho; simp at ho
      · exact hg
    obtain ⟨b, hb⟩ := checkNIS_ok (ciInnov_shape hj wi cfg.eps) hi.r hg'
    rw [hb, Res.bind_ok, Res.bind_ok]
    exact ⟨_, rfl, fun h => by simp at h⟩

namespace Collab

variable {dim : ℕ → ℕ} {h : Hdl} {c : Central} {t : Int} {ids ks : List ℕ}

/-! ## One side -/

theorem find_pickJac (J : SMap Mat) (ids : List ℕ) (p : ℕ) : (pickJac J ids).find p = if p ∈ ids then J.find p else none := by
  unfold pickJac
  have gen : ∀ (l : List ℕ) (m : SMap Mat), SMap.find (l.foldl (fun m p => match J.find p with | some M => m.set p M | none => m) m) p =
      if p ∈ l ∧ (J.find p).isSome then J.find p else m.find p := by
    intro l
    induction l with
    | nil => intro m; simp
    | cons a r ih =>
      intro m
      rw [List.foldl_cons, ih]
      by_cases hp : p ∈ r ∧ (J.find p).isSome
      · rw [if_pos hp, if_pos ⟨List.mem_cons_of_mem _ hp.1, hp.2⟩]
      · rw [if_neg hp]
        by_cases hap : a = p
        · subst hap
          cases hf : SMap.find J a with
          | none => simp
          | some M => simp [SMap.find_set_self]
        · have hpa : p ≠ a := fun e => hap e.symm
          have hmem : (p ∈ a :: r ∧ (J.find p).isSome) ↔ (p ∈ r ∧ (J.find p).isSome) := by
            rw [List.mem_cons]; simp [hpa]
          rw [if_neg (fun e => hp (hmem.mp e))]
          cases hf : SMap.find J a with
          | none => rfl
          | some M => simp only; rw [SMap.find_set, if_neg hap]
  refine Eq.trans (gen ids []) ?_
  by_cases hp : p ∈ ids
  · cases hf : SMap.find J p with
    | none => simp [hp, SMap.find_nil]
    | some M => simp [hp]
  · simp [hp, SMap.find_nil]

theorem sorted_pickJac (J : SMap Mat) (ids : List ℕ) : (pickJac J ids).Sorted := by
  unfold pickJac
  have gen : ∀ (l : List ℕ) (m : SMap Mat), SMap.Sorted m → SMap.Sorted (l.foldl (fun m p => match J.find p with | some M => m.set p M | none => m) m) := by
    intro l
    induction l with
    | nil => intro m hm; exact hm
    | cons a r ih =>
      intro m hm
      rw [List.foldl_cons]
      apply ih
      cases SMap.find J a with
      | none => exact hm
      | some M => exact SMap.Sorted.set hm _ _
  exact gen ids [] List.Pairwise.nil

/-- The participants of one side. -/
theorem side_parts (hr : Hdl.Rel dim h c) (hN : ∀ p ∈ ids, (h.find p).isSome ∧ c.tm p = t) (hks : ks.Pairwise (· < ·)) (hperm : ks.Perm ids) :
    Hdl.Parts dim h c (keysMap ks) t ∧ participants dim c (keysMap ks) = freeOf dim c ks := by
  refine ⟨⟨?_, ?_, ?_⟩, by unfold participants freeOf; rw [keysMap_keys]⟩
  · rw [SMap.sorted_iff_keys, keysMap_keys]; exact hks
  · intro p hpm; rw [keysMap_keys] at hpm; exact (hN p (hperm.mem_iff.mp hpm)).1
  · intro p hpm; rw [keysMap_keys] at hpm; exact (hN p (hperm.mem_iff.mp hpm)).2

theorem mem_free (hr : Hdl.Rel dim h c) (hp : Hdl.Parts dim h c (keysMap ks) t) {p : ℕ} :
    p ∈ (Hdl.unfixed (Hdl.dict h (keysMap ks) t)).map (·.1) ↔ p ∈ ks ∧ c.fix p = false := by
  constructor
  · intro hm
    obtain ⟨e, he, rfl⟩ := List.mem_map.mp hm
    obtain ⟨h1, h2⟩ := Hdl.mem_unfixed.mp he
    have := Hdl.mem_dict hr hp h1
    rw [keysMap_keys] at this
    exact ⟨this.1, by rw [← this.2.2.2.2.2.2.2.1]; exact h2⟩
  · rintro ⟨h1, h2⟩
    have he : (p, Hdl.blD h t p) ∈ Hdl.dict h (keysMap ks) t := List.mem_map.mpr ⟨p, by rw [keysMap_keys]; exact h1, rfl⟩
    refine List.mem_map.mpr ⟨_, Hdl.mem_unfixed.mpr ⟨he, ?_⟩, rfl⟩
    rw [(Hdl.mem_dict hr hp he).2.2.2.2.2.2.2.1]; exact h2

theorem stored_here (hr : Hdl.Rel dim h c) {p : ℕ} (hp : (h.find p).isSome) (ht : c.tm p = t) :
    ∃ i, h.find p = some i ∧ i.bel.existAt t = true ∧ i.beliefAt t = some (Hdl.blD h t p) := by
  obtain ⟨i, hi⟩ := Option.isSome_iff_exists.mp hp
  have hb := hr.blD hp ht
  rw [Hdl.bl_of_find hi] at hb
  refine ⟨i, hi, ?_, hb⟩
  rw [Inst.beliefAt_eq, Buf.absMap_eq_some _ (hr.ok.ord p i hi).bel] at hb
  exact (Buf.existAt_iff _ _).mpr ⟨_, hb, rfl⟩

/-- Beliefs of one side, in any case. -/
theorem side_bels (hr : Hdl.Rel dim h c) (hN : ∀ p ∈ ids, (h.find p).isSome ∧ c.tm p = t) (hks : ks.Pairwise (· < ·)) (hperm : ks.Perm ids)
    (pred : ℕ → Inst → Int → Inst × Bool) : getBels pred t ids h [] = .ok (h, some (Hdl.dict h (keysMap ks) t)) := by
  obtain ⟨bs, e1, e2, e3⟩ := getBels_any pred t (Hdl.blD h t) h ids [] List.Pairwise.nil (fun p hpm => stored_here hr (hN p hpm).1 (hN p hpm).2)
  obtain ⟨hp, -⟩ := side_parts hr hN hks hperm
  rw [e1]
  congr 3
  refine SMap.ext_find e2 (Hdl.dict_sorted hp) fun p => ?_
  rw [e3, SMap.find_nil]
  unfold Hdl.dict
  rw [SMap.find_map (Hdl.blD h t), keysMap_keys]
  simp only [hperm.mem_iff]

/-- Two or more participants on a side: beliefs, factors and covariance are delivered. -/
theorem side_prior (hr : Hdl.Rel dim h c) (hN : ∀ p ∈ ids, (h.find p).isSome ∧ c.tm p = t) (hks : ks.Pairwise (· < ·)) (hperm : ks.Perm ids)
    (h2 : 2 ≤ ids.length) (pred : ℕ → Inst → Int → Inst × Bool) :
    ∃ lF S, getBF pred h ids ids t = .ok (h, some (Hdl.dict h (keysMap ks) t, lF)) ∧ StackedCov (freeOf dim c ks) c.cov S ∧
      ∀ near, (stackSigmaL (Hdl.unfixed (Hdl.dict h (keysMap ks) t)) (dropFixed (Hdl.dict h (keysMap ks) t) lF) >>= correctCov near) =
        .ok (Hdl.fixPsd near (stabM S (1 / 10^12))) := by
  obtain ⟨hp, hpart⟩ := side_parts hr hN hks hperm
  have hksn : ks.Nodup := hks.imp fun h => h.ne
  have hnd : ids.Nodup := hperm.nodup_iff.mp hksn
  have hother : ∀ I ∈ ids, ∃ P ∈ ids, I ≠ P := by
    intro I hI
    match ids, h2, hnd with
    | x :: y :: r, _, hnd =>
      by_cases hx : I = x
      · exact ⟨y, by simp, fun e => by rw [← e, hx] at hnd; simp at hnd⟩
      · exact ⟨x, by simp, hx⟩
  obtain ⟨lb, lF, e1, hlb, hlbf, hlF, hlFf⟩ := getBF_any pred t (Hdl.blD h t) h ids ids hnd hother
    (fun p hpm => stored_here hr (hN p hpm).1 (hN p hpm).2)
  have hdict : lb = Hdl.dict h (keysMap ks) t := by
    refine SMap.ext_find hlb (Hdl.dict_sorted hp) fun p => ?_
    rw [hlbf]
    unfold Hdl.dict
    rw [SMap.find_map (Hdl.blD h t), keysMap_keys]
    simp only [hperm.mem_iff]
  subst hdict
  set d := Hdl.dict h (keysMap ks) t with hddef
  have hds := Hdl.unfixed_sorted (Hdl.dict_sorted (h := h) hp)
  have hu : ∀ e ∈ Hdl.unfixed d, e.2.fixed = false := fun e he => (Hdl.mem_unfixed.mp he).2
  obtain ⟨S, hSe, hSC⟩ := Hdl.stackSigma_spec d (Hdl.dict_sorted hp) (Hdl.covOf hr hp)
  rw [← Hdl.participants_eq hr hp, hpart] at hSC
  have hF : dropFixed d lF = ((Hdl.unfixed d).map (·.1)).map (fun p => (p, sendRow (instD h p) t p ids [])) := by
    refine SMap.ext_find (sorted_dropFixed _ hlF)
      (SMap.sorted_map (fun p => sendRow (instD h p) t p ids []) (List.pairwise_map.mpr hds)) fun p => ?_
    rw [find_dropFixed, hlFf, SMap.find_map (fun p => sendRow (instD h p) t p ids [])]
    have hmf := mem_free hr hp (p := p)
    by_cases h1 : p ∈ ks
    · have he : (p, Hdl.blD h t p) ∈ d := List.mem_map.mpr ⟨p, by rw [keysMap_keys]; exact h1, rfl⟩
      have hfx := (Hdl.mem_dict hr hp he).2.2.2.2.2.2.2.1
      simp only at hfx
      cases hc : c.fix p with
      | true =>
        rw [if_pos ⟨_, he, rfl, by rw [hfx]; exact hc⟩, if_neg]
        intro hm
        have := (hmf.mp hm).2
        rw [hc] at this; simp at this
      | false =>
        rw [if_neg, if_pos (hmf.mpr ⟨h1, hc⟩), if_pos (hperm.mem_iff.mp h1)]
        rintro ⟨e, he', hk', hf'⟩
        have := (Hdl.mem_dict hr hp he').2.2.2.2.2.2.2.1
        rw [hf', hk', hc] at this
        simp at this
    · rw [if_neg, if_neg (fun hm => h1 (hperm.mem_iff.mpr hm)), if_neg (fun hm => h1 (hmf.mp hm).1)]
      rintro ⟨e, he', hk', hf'⟩
      have := (Hdl.mem_dict hr hp he').1
      rw [keysMap_keys, hk'] at this
      exact h1 this
  refine ⟨lF, S, e1, hSC, ?_⟩
  have hprior : (stackSigmaL (Hdl.unfixed d) (dropFixed d lF) >>= fun S0 => stabilize S0 (1 / 10^12)) = .ok (stabM S (1 / 10^12)) := by
    rw [hF]
    unfold stackSigmaL
    rw [if_pos (by rw [List.length_map, List.length_map])]
    have hkd : ∀ e ∈ Hdl.unfixed d, e.1 ∈ (Hdl.unfixed d).map (·.1) := fun e he => List.mem_map.mpr ⟨e, he, rfl⟩
    have hkk : ∀ p ∈ (Hdl.unfixed d).map (·.1), p ∈ ids := fun p hm => hperm.mem_iff.mp ((mem_free hr hp).mp hm).1
    rw [dims_eq _ hu, stackRowsL_eq h t _ ((Hdl.unfixed d).map (·.1)) ?_ (fun I hI => (hN I (hkk I hI)).1) _ hkd hu ?_ _ hkd hu]
    · rw [Hdl.stackSigma_unfixed] at hSe
      unfold Hdl.stackSigma at hSe
      obtain ⟨M, hM, hS2⟩ := Hdl.bind_eq_ok hSe
      rw [hM, Res.bind_ok]
      have := stabilize_symm M (1 / 10^12)
      rw [hS2, Res.bind_ok] at this
      rw [← this, stabilize_ok hSC.1]
    · intro I hI
      refine ⟨sendRow (instD h I) t I ids [], ?_, ?_⟩
      · rw [SMap.find_map (fun p => sendRow (instD h p) t p ids []), if_pos hI]
      · intro J hJ hne
        rw [find_sendRow, SMap.find_nil]
        simp only
        rw [if_pos ⟨hkk J hJ, hne⟩]
    · intro I hI
      rw [SMap.find_map (fun p => sendRow (instD h p) t p ids []), if_pos hI, Option.getD_some, length_sendRow _ _ _ _ hnd (hkk I hI)]
      have : (Hdl.unfixed d).length ≤ d.length := List.length_filter_le _ _
      have h3 : d.length = ids.length := by rw [hddef]; unfold Hdl.dict; rw [List.length_map, keysMap_keys, hperm.length_eq]
      omega
  intro near
  obtain ⟨S0, hS0, hS1⟩ := Hdl.bind_eq_ok hprior
  rw [hS0, Res.bind_ok]
  unfold correctCov
  rw [hS1, Res.bind_ok]

/-- One participant on a side: no factors are delivered. -/
theorem side_single (hr : Hdl.Rel dim h c) {p : ℕ} (hp : (h.find p).isSome) (ht : c.tm p = t) (pred : ℕ → Inst → Int → Inst × Bool) :
    getBF pred h [p] [p] t = .ok (h, some ([(p, Hdl.blD h t p)], [])) := by
  have hN : ∀ q ∈ [p], (h.find q).isSome ∧ c.tm q = t := fun q hq => by rw [List.mem_singleton] at hq; subst hq; exact ⟨hp, ht⟩
  have := side_bels hr hN (ks := [p]) (by simp) (List.Perm.refl _) pred
  obtain ⟨i, hi⟩ := Option.isSome_iff_exists.mp hp
  unfold getBF
  rw [this, Res.bind_ok]
  simp only
  rw [fccLoop, Hdl.get_ok hi, Res.bind_ok]
  simp only [List.foldl_cons, List.foldl_nil, fccCell, ne_eq, not_true, if_false, fccLoop, Res.bind_ok]
  rfl

/-- The Jacobians of the free participants of one side. -/
theorem side_jac (hr : Hdl.Rel dim h c) (hp : Hdl.Parts dim h c (keysMap ks) t) (hperm : ks.Perm ids) {J : SMap Mat} (hJ : J.Sorted) :
    dropFixed (Hdl.dict h (keysMap ks) t) (pickJac J ids) = J.filter (fun e => decide (e.1 ∈ ks.filter (fun p => !c.fix p))) := by
  have hs : SMap.Sorted (J.filter (fun e => decide (e.1 ∈ ks.filter (fun p => !c.fix p)))) := List.Pairwise.filter _ hJ
  refine SMap.ext_find (sorted_dropFixed _ (sorted_pickJac J ids)) hs fun p => ?_
  rw [find_dropFixed, find_pickJac]
  have hex : (∃ e ∈ Hdl.dict h (keysMap ks) t, e.1 = p ∧ e.2.fixed = true) ↔ p ∈ ks ∧ c.fix p = true := by
    constructor
    · rintro ⟨e, he, rfl, hx⟩
      have := Hdl.mem_dict hr hp he
      rw [keysMap_keys] at this
      exact ⟨this.1, by rw [← this.2.2.2.2.2.2.2.1]; exact hx⟩
    · rintro ⟨h1, h2⟩
      have he : (p, Hdl.blD h t p) ∈ Hdl.dict h (keysMap ks) t := List.mem_map.mpr ⟨p, by rw [keysMap_keys]; exact h1, rfl⟩
      exact ⟨_, he, rfl, by rw [(Hdl.mem_dict hr hp he).2.2.2.2.2.2.2.1]; exact h2⟩
  rw [if_congr hex rfl rfl]
  ext v
  rw [SMap.find_eq_some hs, List.mem_filter, ← SMap.find_eq_some hJ, decide_eq_true_eq, List.mem_filter]
  simp only [← hperm.mem_iff]
  by_cases h1 : p ∈ ks
  · cases hc : c.fix p <;> simp [h1]
  · simp [h1]

end Collab
end Ikf
