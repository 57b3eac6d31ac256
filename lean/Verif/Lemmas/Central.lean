import Verif.Lemmas.Joint

/-! # The isolated filters simulate the centralised filter -/

namespace Ikf
open Mat

namespace Hdl

/-- The isolated filters hold the state `c` in factored form. -/
structure Rel (dim : ℕ → ℕ) (h : Hdl) (c : Central) : Prop where
  ok : HOk c.tm h
  bel : ∀ p, (h.find p).isSome → ∃ b, bl h p (c.tm p) = some b ∧ b.mean = c.mu p ∧ b.Sigma = c.cov p p ∧
    b.stamp = c.tm p ∧ b.fixed = c.fix p
  pos : ∀ p, (h.find p).isSome → 0 < dim p
  muS : ∀ p, (h.find p).isSome → (c.mu p).Shape (dim p) 1
  covS : ∀ p q, (h.find p).isSome → (h.find q).isSome → (c.cov p q).Shape (dim p) (dim q)
  symm : ∀ p q, (h.find p).isSome → (h.find q).isSome → c.cov q p = (c.cov p q).tr
  rows : ∀ p, (h.find p).isSome → ∀ q M, fc h p q (c.tm p) = some M → M.rows = dim p
  pair : ∀ p q, (h.find p).isSome → (h.find q).isSome → p ≠ q →
    (∃ F G, fc h p q (c.tm p) = some F ∧ fc h q p (c.tm q) = some G ∧ 0 < F.cols ∧ G.cols = F.cols ∧ c.cov p q = F * G.tr) ∨
    (fc h p q (c.tm p) = none ∧ fc h q p (c.tm q) = none ∧ c.cov p q = Mat.zero (dim p) (dim q))

theorem mul_zero_mat {A : Mat} {n k m : ℕ} (hA : A.Shape n k) : A * Mat.zero k m = Mat.zero n m := by
  refine Mat.ext' hA.1 rfl ?_
  intro i j _ _
  rw [mul_e, zero_e]
  exact Finset.sum_eq_zero (fun x _ => by rw [zero_e, MulZeroClass.mul_zero])

theorem tr_zero (n m : ℕ) : (Mat.zero n m).tr = Mat.zero m n := by
  refine Mat.ext' rfl rfl ?_
  intro i j _ _
  rw [tr_e, zero_e, zero_e]

theorem zero_mul_mat {A : Mat} {n k m : ℕ} (hA : A.Shape k m) : Mat.zero n k * A = Mat.zero n m := by
  have := mul_zero_mat (m := n) hA.tr
  have h2 := congrArg Mat.tr this
  rw [tr_mul, tr_tr, tr_zero, tr_zero] at h2
  exact h2

theorem symM_tr {S : Mat} {n : ℕ} (h : S.Shape n n) : (symM S).tr = symM S := by
  apply toM_inj (n := n) (m := n) h.symM.tr.1 h.symM.tr.2 h.symM.1 h.symM.2
  rw [toM_tr, toM_symM h, Matrix.transpose_smul, Matrix.transpose_add, Matrix.transpose_transpose, add_comm]

theorem block_tr {P : Mat} (hP : P.tr = P) (a b r c : ℕ) : (P.block a b r c).tr = P.block b a c r := by
  refine Mat.ext' rfl rfl ?_
  intro i j _ _
  rw [tr_e, block_e, block_e]
  have : P.e (a + j) (b + i) = P.e (b + i) (a + j) := (congrFun (congrFun (congrArg Mat.e hP) (a + j)) (b + i)).symm
  rw [this]
  by_cases hc : j < r ∧ i < c
  · rw [if_pos hc, if_pos ⟨hc.2, hc.1⟩]
  · rw [if_neg hc, if_neg (fun hh => hc ⟨hh.2, hh.1⟩)]

theorem postM_symm {H R r S : Mat} {n m : ℕ} (h : ObsShape H R r S n m) (cfg : Cfg) : (postM H R S cfg).tr = postM H R S cfg := by
  unfold postM
  apply symM_tr (n := n)
  split
  · exact (post0_shape h cfg).stabM _
  · exact post0_shape h cfg

/-- Reading a cross-covariance of two instances that are at the same time. -/
theorem Rel.getSigma {dim : ℕ → ℕ} {h : Hdl} {c : Central} (hr : Rel dim h c) {p q : ℕ} (hp : (h.find p).isSome) (hq : (h.find q).isSome)
    (hpq : p ≠ q) {t : Int} (htp : c.tm p = t) (htq : c.tm q = t) :
    (Hdl.getSigma h p q t = .ok (c.cov p q) ∧ (c.cov p q).size ≠ 0 ∧ fc h p q t ≠ none) ∨
      (Hdl.getSigma h p q t = .ok Mat.empty ∧ fc h p q t = none ∧ c.cov p q = Mat.zero (dim p) (dim q)) := by
  obtain ⟨i, hi⟩ := Option.isSome_iff_exists.mp hp
  obtain ⟨j, hj⟩ := Option.isSome_iff_exists.mp hq
  unfold Hdl.getSigma
  rw [get_ok hi, Res.bind_ok, get_ok hj, Res.bind_ok, Inst.getCCF_eq, Inst.getCCF_eq, ← fc_of_find hi, ← fc_of_find hj]
  have hsize : (c.cov p q).size ≠ 0 := by
    have := hr.covS p q hp hq
    unfold Mat.size
    rw [this.1, this.2]
    exact Nat.mul_ne_zero (hr.pos p hp).ne' (hr.pos q hq).ne'
  rcases hr.pair p q hp hq hpq with ⟨F, G, hF, hG, hk, hGF, hc⟩ | ⟨hF, hG, hc⟩
  · rw [htp] at hF; rw [htq] at hG
    left
    have hFr := hr.rows p hp q F (by rw [htp]; exact hF)
    have hGr := hr.rows q hq p G (by rw [htq]; exact hG)
    rw [hF, hG]
    simp only [Option.getD_some]
    refine ⟨?_, hsize, by simp⟩
    have hs1 : F.size ≠ 0 := by unfold Mat.size; rw [hFr]; exact Nat.mul_ne_zero (hr.pos p hp).ne' hk.ne'
    have hs2 : G.size ≠ 0 := by unfold Mat.size; rw [hGr, hGF]; exact Nat.mul_ne_zero (hr.pos q hq).ne' hk.ne'
    rw [if_pos ⟨hs1, hs2⟩]
    split
    · rw [mulC_ok (by rw [tr_rows, hGF]), hc]
    · rw [mulC_ok (by rw [tr_rows, hGF]), Res.bind_ok, tr_mul, tr_tr, hc]
  · rw [htp] at hF; rw [htq] at hG
    right
    rw [hF, hG]
    simp only [Option.getD_none]
    refine ⟨?_, trivial, hc⟩
    rw [if_neg]
    rintro ⟨h1, -⟩
    exact h1 (by simp [Mat.size])

/-! ## One instance moves -/

/-- Replacing one instance by one whose factors were multiplied by `F`. -/
theorem Rel.transform {dim : ℕ → ℕ} {h : Hdl} {c : Central} (hr : Rel dim h c) {id : ℕ} {i j : Inst} (hi : h.find id = some i)
    {F : Mat} {b : Belief} {t : Int} (ho : j.Ord) (hu : j.UpTo t) (hb : j.beliefAt t = some b) (hst : b.stamp = t)
    (hF : F.Shape (dim id) (dim id)) (hm : b.mean.Shape (dim id) 1) (hS : b.Sigma.Shape (dim id) (dim id)) (hsym : b.Sigma.tr = b.Sigma)
    (hf : ∀ J, j.fac J t = (i.fac J (c.tm id)).map (F * ·)) :
    Rel dim (h.set id j) (c.transform id F b.mean b.Sigma t b.fixed) := by
  have hid : (h.find id).isSome := by rw [hi]; rfl
  have hd := sameDom_set1 (j := j) hi
  have hreg : ∀ {p}, ((h.set id j).find p).isSome → (h.find p).isSome := fun {p} hp => by rw [← hd p]; exact hp
  have hfc : ∀ p q, fc (h.set id j) p q ((c.transform id F b.mean b.Sigma t b.fixed).tm p) =
      if p = id then (fc h p q (c.tm p)).map (F * ·) else fc h p q (c.tm p) := by
    intro p q
    rw [fc_set1]
    by_cases hp : p = id
    · subst hp
      simp only [Central.transform, if_true]
      rw [hf, fc_of_find hi]
    · rw [if_neg (fun hh => hp hh.symm), if_neg hp]
      simp only [Central.transform, if_neg hp]
  constructor
  · refine ⟨hr.ok.sorted.set _ _, ?_, ?_⟩
    · intro q x hx
      rw [SMap.find_set] at hx
      split at hx
      · rw [← Option.some.inj hx]; exact ho
      · exact hr.ok.ord q x hx
    · intro q x hx
      rw [SMap.find_set] at hx
      split at hx
      · rename_i hq
        rw [← Option.some.inj hx, ← hq]
        simp only [Central.transform, if_true]; exact hu
      · rename_i hq
        simp only [Central.transform, if_neg (fun hh : q = id => hq hh.symm)]
        exact hr.ok.upTo q x hx
  · intro p hp
    rw [bl_set1]
    by_cases hpi : p = id
    · subst hpi
      simp only [Central.transform, if_true]
      exact ⟨b, hb, rfl, by simp, hst, rfl⟩
    · simp only [Central.transform, if_neg hpi, if_neg (fun hh : id = p => hpi hh.symm)]
      obtain ⟨x, h1, h2, h3, h4⟩ := hr.bel p (hreg hp)
      exact ⟨x, h1, h2, by simpa [hpi] using h3, h4⟩
  · exact fun p hp => hr.pos p (hreg hp)
  · intro p hp
    simp only [Central.transform]
    split
    · rename_i hpi; rw [hpi]; exact hm
    · exact hr.muS p (hreg hp)
  · intro p q hp hq
    have hc := hr.covS p q (hreg hp) (hreg hq)
    simp only [Central.transform]
    by_cases hpi : p = id
    · by_cases hqi : q = id
      · rw [if_pos ⟨hpi, hqi⟩, hpi, hqi]; exact hS
      · rw [if_neg (fun hh => hqi hh.2), if_pos hpi]
        rw [hpi] at hc ⊢
        exact hF.mul hc
    · rw [if_neg (fun hh => hpi hh.1), if_neg hpi]
      split
      · rename_i hqi
        rw [hqi] at hc ⊢
        exact hc.mul hF.tr
      · exact hc
  · intro p q hp hq
    have hc := hr.symm p q (hreg hp) (hreg hq)
    simp only [Central.transform]
    by_cases hpi : p = id
    · by_cases hqi : q = id
      · rw [if_pos ⟨hqi, hpi⟩, if_pos ⟨hpi, hqi⟩, hsym]
      · rw [if_neg (fun hh => hqi hh.1), if_neg hqi, if_pos hpi, if_neg (fun hh => hqi hh.2), if_pos hpi, tr_mul, hc]
    · by_cases hqi : q = id
      · rw [if_neg (fun hh => hpi hh.2), if_pos hqi, if_neg (fun hh => hpi hh.1), if_neg hpi, if_pos hqi, tr_mul, tr_tr, hc]
      · rw [if_neg (fun hh => hqi hh.1), if_neg hqi, if_neg hpi, if_neg (fun hh => hpi hh.1), if_neg hpi, if_neg hqi, hc]
  · intro p hp q M hM
    rw [hfc] at hM
    split at hM
    · rename_i hpi
      obtain ⟨M0, h0, rfl⟩ := Option.map_eq_some_iff.mp hM
      rw [mul_rows, hF.1, hpi]
    · exact hr.rows p (hreg hp) q M hM
  · intro p q hp hq hpq
    rw [hfc, hfc]
    have hp' := hreg hp
    have hq' := hreg hq
    by_cases hpi : p = id
    · have hqi : q ≠ id := fun hh => hpq (hpi.trans hh.symm)
      rw [if_pos hpi, if_neg hqi]
      have hcov : (c.transform id F b.mean b.Sigma t b.fixed).cov p q = F * c.cov p q := by
        simp only [Central.transform]; rw [if_neg (fun hh => hqi hh.2), if_pos hpi]
      rw [hcov]
      rcases hr.pair p q hp' hq' hpq with ⟨A, B, h1, h2, h3, h4, h5⟩ | ⟨h1, h2, h3⟩
      · left; rw [h1, h2]
        exact ⟨F * A, B, rfl, rfl, h3, h4, by rw [h5, Mat.mul_assoc]⟩
      · right; rw [h1, h2]
        refine ⟨rfl, rfl, ?_⟩
        rw [h3, hpi]; exact mul_zero_mat hF
    · rw [if_neg hpi]
      by_cases hqi : q = id
      · rw [if_pos hqi]
        have hcov : (c.transform id F b.mean b.Sigma t b.fixed).cov p q = c.cov p q * F.tr := by
          simp only [Central.transform]; rw [if_neg (fun hh => hpi hh.1), if_neg hpi, if_pos hqi]
        rw [hcov]
        rcases hr.pair p q hp' hq' hpq with ⟨A, B, h1, h2, h3, h4, h5⟩ | ⟨h1, h2, h3⟩
        · left; rw [h1, h2]
          exact ⟨A, F * B, rfl, rfl, h3, h4, by rw [h5, Mat.mul_assoc, tr_mul]⟩
        · right; rw [h1, h2]
          refine ⟨rfl, rfl, ?_⟩
          rw [h3, hqi]; exact zero_mul_mat hF.tr
      · rw [if_neg hqi]
        have hcov : (c.transform id F b.mean b.Sigma t b.fixed).cov p q = c.cov p q := by
          simp only [Central.transform]; rw [if_neg (fun hh => hpi hh.1), if_neg hpi, if_neg hqi]
        rw [hcov]
        exact hr.pair p q hp' hq' hpq

/-! ## A cross-covariance is stored -/

theorem Rel.setSigma {dim : ℕ → ℕ} {h : Hdl} {c : Central} (hr : Rel dim h c) {a b : ℕ} (ha : (h.find a).isSome) (hb : (h.find b).isSome)
    (hab : a ≠ b) {t : Int} (hta : c.tm a = t) (htb : c.tm b = t) {S : Mat} (hS : S.Shape (dim a) (dim b)) :
    ∃ h', Hdl.setSigma h a b S t = .ok h' ∧ Rel dim h' (c.setCov a b S) := by
  have key : ∃ h', Hdl.setSigma h a b S t = .ok h' ∧ HOk c.tm h' ∧ SameDom h h' ∧ (∀ a t', bl h' a t' = bl h a t') ∧
      ∃ A B, fc h' a b t = some A ∧ fc h' b a t = some B ∧ A.rows = dim a ∧ B.rows = dim b ∧ 0 < A.cols ∧ B.cols = A.cols ∧ S = A * B.tr ∧
      ∀ x y t', ¬ (x = a ∧ y = b ∧ t' = t) → ¬ (x = b ∧ y = a ∧ t' = t) → fc h' x y t' = fc h x y t' := by
    rcases lt_or_gt_of_ne hab with hlt | hlt
    · obtain ⟨h', e, k, d, bb, f⟩ := setSigma_lt hr.ok hlt S t ha hb hta.ge htb.ge
      refine ⟨h', e, k, d, bb, S, one S.cols, ?_, ?_, hS.1, hS.2, ?_, rfl, ?_, ?_⟩
      · rw [f, if_pos ⟨rfl, rfl, rfl⟩]
      · rw [f, if_neg (by omega), if_pos ⟨rfl, rfl, rfl⟩]
      · rw [hS.2]; exact hr.pos b hb
      · rw [tr_one, Mat.mul_one _ _ rfl]
      · intro x y t' h1 h2; rw [f, if_neg h1, if_neg h2]
    · obtain ⟨h', e, k, d, bb, f⟩ := setSigma_gt hr.ok hlt S t ha hb hta.ge htb.ge
      refine ⟨h', e, k, d, bb, one S.rows, S.tr, ?_, ?_, hS.1, hS.2, ?_, rfl, ?_, ?_⟩
      · rw [f, if_neg (by omega), if_pos ⟨rfl, rfl, rfl⟩]
      · rw [f, if_pos ⟨rfl, rfl, rfl⟩]
      · show 0 < S.rows; rw [hS.1]; exact hr.pos a ha
      · rw [tr_tr, Mat.one_mul _ _ rfl]
      · intro x y t' h1 h2; rw [f, if_neg h2, if_neg h1]
  obtain ⟨h', e, k, hd, hbl, A, B, fA, fB, rA, rB, pA, cB, hSAB, hfc⟩ := key
  refine ⟨h', e, ?_⟩
  have hreg : ∀ {p}, (h'.find p).isSome → (h.find p).isSome := fun {p} hp => by rw [← hd p]; exact hp
  constructor
  · exact k
  · intro p hp
    rw [hbl]
    obtain ⟨x, h1, h2, h3, h4⟩ := hr.bel p (hreg hp)
    refine ⟨x, h1, h2, ?_, h4⟩
    rw [h3]
    simp only [Central.setCov]
    rw [if_neg (by rintro ⟨h1, h2⟩; exact hab (h1.symm.trans h2)), if_neg (by rintro ⟨h1, h2⟩; exact hab (h2.symm.trans h1))]
  · exact fun p hp => hr.pos p (hreg hp)
  · exact fun p hp => hr.muS p (hreg hp)
  · intro p q hp hq
    simp only [Central.setCov]
    split
    · rename_i hc; rw [hc.1, hc.2]; exact hS
    · split
      · rename_i hc; rw [hc.1, hc.2]; exact hS.tr
      · exact hr.covS p q (hreg hp) (hreg hq)
  · intro p q hp hq
    simp only [Central.setCov]
    by_cases h1 : p = a ∧ q = b
    · rw [if_pos h1, if_neg (by rintro ⟨x, y⟩; exact hab (h1.1.symm.trans y)), if_pos ⟨h1.2, h1.1⟩]
    · by_cases h2 : p = b ∧ q = a
      · rw [if_pos ⟨h2.2, h2.1⟩, if_neg h1, if_pos h2, tr_tr]
      · rw [if_neg (fun hh => h2 ⟨hh.2, hh.1⟩), if_neg (fun hh => h1 ⟨hh.2, hh.1⟩), if_neg h1, if_neg h2]
        exact hr.symm p q (hreg hp) (hreg hq)
  · intro p hp q M hM
    change fc h' p q (c.tm p) = some M at hM
    by_cases h1 : p = a ∧ q = b
    · rw [h1.1, h1.2, hta, fA] at hM; rw [← Option.some.inj hM, rA, h1.1]
    · by_cases h2 : p = b ∧ q = a
      · rw [h2.1, h2.2, htb, fB] at hM; rw [← Option.some.inj hM, rB, h2.1]
      · rw [hfc p q _ (fun hh => h1 ⟨hh.1, hh.2.1⟩) (fun hh => h2 ⟨hh.1, hh.2.1⟩)] at hM
        exact hr.rows p (hreg hp) q M hM
  · intro p q hp hq hpq
    show (∃ F G, fc h' p q (c.tm p) = some F ∧ fc h' q p (c.tm q) = some G ∧ _) ∨ (fc h' p q (c.tm p) = none ∧ fc h' q p (c.tm q) = none ∧ _)
    by_cases h1 : p = a ∧ q = b
    · left
      rw [h1.1, h1.2, hta, htb]
      exact ⟨A, B, fA, fB, pA, cB, by simp [Central.setCov, hSAB]⟩
    · by_cases h2 : p = b ∧ q = a
      · left
        rw [h2.1, h2.2, hta, htb]
        refine ⟨B, A, fB, fA, by omega, cB.symm, ?_⟩
        simp [Central.setCov, hab, hSAB, tr_mul]
      · rw [hfc p q _ (fun hh => h1 ⟨hh.1, hh.2.1⟩) (fun hh => h2 ⟨hh.1, hh.2.1⟩),
          hfc q p _ (fun hh => h2 ⟨hh.2.1, hh.1⟩) (fun hh => h1 ⟨hh.2.1, hh.1⟩)]
        have : (c.setCov a b S).cov p q = c.cov p q := by
          simp only [Central.setCov]; rw [if_neg h1, if_neg h2]
        rw [this]
        exact hr.pair p q (hreg hp) (hreg hq) hpq

/-! ## The joint update -/

/-- The belief of an instance at its own time. -/
theorem Rel.stored {dim : ℕ → ℕ} {h : Hdl} {c : Central} (hr : Rel dim h c) {p : ℕ} (hp : (h.find p).isSome) {b : Belief}
    (hb : bl h p (c.tm p) = some b) :
    b.mean = c.mu p ∧ b.Sigma = c.cov p p ∧ b.stamp = c.tm p ∧ b.fixed = c.fix p ∧ b.dim = dim p ∧
      b.mean.Shape (dim p) 1 ∧ b.Sigma.Shape (dim p) (dim p) ∧ b.Sigma.tr = b.Sigma := by
  obtain ⟨x, h1, h2, h3, h4, h5⟩ := hr.bel p hp
  rw [hb] at h1
  rw [Option.some.inj h1]
  have hc := hr.covS p p hp hp
  refine ⟨h2, h3, h4, h5, ?_, ?_, ?_, ?_⟩
  · unfold Belief.dim; rw [h3]; exact hc.1
  · rw [h2]; exact hr.muS p hp
  · rw [h3]; exact hc
  · rw [h3, ← hr.symm p p hp hp]

/-- `nearest_covariance` returns, for a symmetric matrix, a symmetric matrix of the same size (eigen_utils.cpp:236-272; `c24_near`). -/
def NearOk (near : Mat → Mat) : Prop := ∀ n P, P.Shape n n → P.tr = P → (near P).Shape n n ∧ (near P).tr = near P

theorem fixPsd_facts {near : Mat → Mat} (hn : NearOk near) {P : Mat} {n : ℕ} (hP : P.Shape n n) (hs : P.tr = P) :
    (fixPsd near P).Shape n n ∧ (fixPsd near P).tr = fixPsd near P := by
  unfold fixPsd
  split
  · exact ⟨hP, hs⟩
  · exact hn n P hP hs

/-- The participants of a joint observation at `t` and their stored beliefs. -/
structure Parts (dim : ℕ → ℕ) (h : Hdl) (c : Central) (dH : SMap Mat) (t : Int) : Prop where
  sorted : dH.Sorted
  reg : ∀ p ∈ dH.keys, (h.find p).isSome
  tm : ∀ p ∈ dH.keys, c.tm p = t

/-- The stored belief (total version). -/
noncomputable def blD (h : Hdl) (t : Int) (p : ℕ) : Belief := (bl h p t).getD ⟨Mat.empty, Mat.empty, 0, false, true⟩

/-- The dictionary `get_dict_bel` returns. -/
noncomputable def dict (h : Hdl) (dH : SMap Mat) (t : Int) : SMap Belief := dH.keys.map (fun p => (p, blD h t p))

section joint
variable {dim : ℕ → ℕ} {h : Hdl} {c : Central} {dH : SMap Mat} {t : Int}

theorem Rel.blD (hr : Rel dim h c) {p : ℕ} (hp : (h.find p).isSome) (ht : c.tm p = t) : bl h p t = some (Hdl.blD h t p) := by
  obtain ⟨x, h1, -⟩ := hr.bel p hp
  rw [ht] at h1
  unfold Hdl.blD; rw [h1]; rfl

theorem getDictBel_rel (pred) (hr : Rel dim h c) (hp : Parts dim h c dH t) : getDictBel pred h dH.keys t [] = .ok (h, dict h dH t) := by
  have := getDictBel_spec pred hr.ok t (Hdl.blD h t) dH.keys [] ((SMap.sorted_iff_keys dH).mp hp.sorted) (by simp)
    (fun p hpm => hr.blD (hp.reg p hpm) (hp.tm p hpm))
  exact this

theorem dict_sorted (hp : Parts dim h c dH t) : (dict h dH t).Sorted := by
  unfold dict SMap.Sorted
  rw [List.pairwise_map]
  exact (SMap.sorted_iff_keys dH).mp hp.sorted

theorem mem_dict (hr : Rel dim h c) (hp : Parts dim h c dH t) {e : ℕ × Belief} (he : e ∈ dict h dH t) :
    e.1 ∈ dH.keys ∧ (h.find e.1).isSome ∧ c.tm e.1 = t ∧ bl h e.1 t = some e.2 ∧
    e.2.mean = c.mu e.1 ∧ e.2.Sigma = c.cov e.1 e.1 ∧ e.2.stamp = t ∧ e.2.fixed = c.fix e.1 ∧ e.2.dim = dim e.1 ∧
      e.2.mean.Shape e.2.dim 1 ∧ e.2.Sigma.Shape e.2.dim e.2.dim := by
  obtain ⟨p, hpm, rfl⟩ := List.mem_map.mp he
  have hreg := hp.reg p hpm
  have htm := hp.tm p hpm
  have hb := hr.blD hreg htm
  obtain ⟨h1, h2, h3, h4, h5, h6, h7, -⟩ := hr.stored hreg (by rw [htm]; exact hb)
  exact ⟨hpm, hreg, htm, hb, h1, h2, by rw [h3, htm], h4, h5, by rw [h5]; exact h6, by rw [h5]; exact h7⟩

theorem participants_eq (hr : Rel dim h c) (hp : Parts dim h c dH t) : participants dim c dH = bdims (unfixed (dict h dH t)) := by
  have hall : ∀ p ∈ dH.keys, (Hdl.blD h t p).fixed = c.fix p ∧ (Hdl.blD h t p).dim = dim p := by
    intro p hpm
    have := mem_dict hr hp (e := (p, Hdl.blD h t p)) (List.mem_map.mpr ⟨p, hpm, rfl⟩)
    exact ⟨this.2.2.2.2.2.2.2.1, this.2.2.2.2.2.2.2.2.1⟩
  unfold participants bdims unfixed dict
  generalize dH.keys = ks at hall
  induction ks with
  | nil => rfl
  | cons k r ih =>
    have hk := hall k List.mem_cons_self
    have := ih (fun p hpm => hall p (List.mem_cons_of_mem _ hpm))
    simp only [List.map_cons, List.filter_cons, hk.1]
    cases c.fix k with
    | true => simpa using this
    | false => simpa [hk.2] using this

theorem covOf (hr : Rel dim h c) (hp : Parts dim h c dH t) : CovOf h t (unfixed (dict h dH t)) c.cov where
  own e he := (mem_dict hr hp (mem_unfixed.mp he).1).2.2.2.2.2.1
  shape a ha b hb := by
    have h1 := mem_dict hr hp (mem_unfixed.mp ha).1
    have h2 := mem_dict hr hp (mem_unfixed.mp hb).1
    rw [h1.2.2.2.2.2.2.2.2.1, h2.2.2.2.2.2.2.2.2.1]
    exact hr.covS _ _ h1.2.1 h2.2.1
  symm a ha b hb := by
    have h1 := mem_dict hr hp (mem_unfixed.mp ha).1
    have h2 := mem_dict hr hp (mem_unfixed.mp hb).1
    exact hr.symm _ _ h1.2.1 h2.2.1
  cross a ha b hb hlt := by
    have h1 := mem_dict hr hp (mem_unfixed.mp ha).1
    have h2 := mem_dict hr hp (mem_unfixed.mp hb).1
    rcases hr.getSigma h1.2.1 h2.2.1 (by omega) h1.2.2.1 h2.2.2.1 with ⟨g1, g2, -⟩ | ⟨g1, -, g2⟩
    · exact ⟨_, g1, Or.inl ⟨g2, rfl⟩⟩
    · exact ⟨_, g1, Or.inr ⟨by simp [Mat.size], fun i j => by rw [g2, zero_e]⟩⟩

/-- Committing a joint correction gives the state of the centralised filter. -/
theorem commit_rel (hr : Rel dim h c) (hp : Parts dim h c dH t) (hne : participants dim c dH ≠ []) {P dx : Mat}
    (hP : P.Shape (tot (participants dim c dH)) (tot (participants dim c dH))) (hsym : P.tr = P)
    (hx : dx.Shape (tot (participants dim c dH)) 1) :
    ∃ h', commit h (dict h dH t) P dx t = .ok h' ∧ Rel dim h' (c.joint (participants dim c dH) P dx) := by
  rw [participants_eq hr hp] at hne hP hx ⊢
  rw [commit_unfixed]
  have hDs := unfixed_sorted (dict_sorted (h := h) hp)
  have hmem : ∀ e ∈ unfixed (dict h dH t), _ := fun e he => mem_dict hr hp (mem_unfixed.mp he).1
  have hu : ∀ e ∈ unfixed (dict h dH t), e.2.fixed = false := fun e he => (mem_unfixed.mp he).2
  generalize unfixed (dict h dH t) = D at hne hP hx hDs hmem hu
  have hD := Sorted.nodup hDs
  have hbn : ((bdims D).map (·.1)).Nodup := by rw [bdims_keys]; exact hD
  have hDne : D ≠ [] := by rintro rfl; exact hne rfl
  -- the sizes
  have hdim : ∀ p, p ∈ (bdims D).map (·.1) → ((bdims D).lookup p).getD 0 = dim p := by
    intro p hpm
    rw [bdims_keys] at hpm
    obtain ⟨e, he, rfl⟩ := List.mem_map.mp hpm
    have := lookup_of_mem hbn (List.mem_map.mpr ⟨e, he, rfl⟩ : (e.1, e.2.dim) ∈ bdims D)
    simp only at this
    rw [this, Option.getD_some, (hmem e he).2.2.2.2.2.2.2.2.1]
  set L : ℕ → Mat := fun p => P.block (off (bdims D) p) (off (bdims D) p) (dim p) (dim p) * (c.cov p p).inv with hLdef
  obtain ⟨h', e1, k1, hd, hb1, hb2, f1, f2, f3⟩ := commit_spec (T := c.tm) (P := P) (dx := dx) (t := t) hDs hDne hu hP hx
    (fun e he => (hmem e he).2.2.2.2.2.2.2.2.2.1) (fun e he => (hmem e he).2.2.2.2.2.2.2.2.2.2) (fun e he => (hmem e he).2.2.1.ge) L
    (fun e he => by rw [hLdef]; simp only; rw [(hmem e he).2.2.2.2.2.1, (hmem e he).2.2.2.2.2.2.2.2.1]) h hr.ok (fun e he => (hmem e he).2.1)
    (fun e he q M hM => by
      rw [(hmem e he).2.2.2.2.2.2.2.2.1]
      exact hr.rows e.1 (hmem e he).2.1 q M (by rw [(hmem e he).2.2.1]; exact hM))
  refine ⟨h', e1, ?_⟩
  have hreg : ∀ {p}, (h'.find p).isSome → (h.find p).isSome := fun {p} hp => by rw [← hd p]; exact hp
  -- membership
  have hin : ∀ {p}, p ∈ (bdims D).map (·.1) → ∃ e ∈ D, e.1 = p ∧ c.tm p = t ∧ e.2.dim = dim p := by
    intro p hpm
    rw [bdims_keys] at hpm
    obtain ⟨e, he, rfl⟩ := List.mem_map.mp hpm
    exact ⟨e, he, rfl, (hmem e he).2.2.1, (hmem e he).2.2.2.2.2.2.2.2.1⟩
  have hLs : ∀ {p}, (h.find p).isSome → (L p).Shape (dim p) (dim p) := fun {p} hp =>
    Shape.mul (k := dim p) ⟨rfl, rfl⟩ (hr.covS p p hp hp).inv
  -- components of the specification
  have cmu : ∀ p, (c.joint (bdims D) P dx).mu p = if p ∈ (bdims D).map (·.1) then c.mu p + dx.block (off (bdims D) p) 0 (dim p) 1 else c.mu p := by
    intro p
    simp only [Central.joint]
    by_cases hpm : p ∈ (bdims D).map (·.1)
    · rw [if_pos hpm, if_pos hpm, hdim p hpm]
    · rw [if_neg hpm, if_neg hpm]
  have ccov2 : ∀ p q, p ∈ (bdims D).map (·.1) → q ∈ (bdims D).map (·.1) →
      (c.joint (bdims D) P dx).cov p q = P.block (off (bdims D) p) (off (bdims D) q) (dim p) (dim q) := by
    intro p q h1 h2
    simp only [Central.joint]
    rw [if_pos ⟨h1, h2⟩, hdim p h1, hdim q h2]
  have ccovl : ∀ p q, p ∈ (bdims D).map (·.1) → q ∉ (bdims D).map (·.1) → (c.joint (bdims D) P dx).cov p q = L p * c.cov p q := by
    intro p q h1 h2
    simp only [Central.joint]
    rw [if_neg (fun hh => h2 hh.2), if_pos h1, hdim p h1]
  have ccovr : ∀ p q, p ∉ (bdims D).map (·.1) → q ∈ (bdims D).map (·.1) → (c.joint (bdims D) P dx).cov p q = c.cov p q * (L q).tr := by
    intro p q h1 h2
    simp only [Central.joint]
    rw [if_neg (fun hh => h1 hh.1), if_neg h1, if_pos h2, hdim q h2]
  have ccov0 : ∀ p q, p ∉ (bdims D).map (·.1) → q ∉ (bdims D).map (·.1) → (c.joint (bdims D) P dx).cov p q = c.cov p q := by
    intro p q h1 h2
    simp only [Central.joint]
    rw [if_neg (fun hh => h1 hh.1), if_neg h1, if_neg h2]
  clear_value L
  have ctm : (c.joint (bdims D) P dx).tm = c.tm := rfl
  have cfix : (c.joint (bdims D) P dx).fix = c.fix := rfl
  constructor
  · exact k1
  · intro p hpr
    rw [ctm, cfix, cmu]
    by_cases hpm : p ∈ (bdims D).map (·.1)
    · obtain ⟨e, he, rfl, htm, hde⟩ := hin hpm
      rw [if_pos hpm, htm, hb1 e he, ccov2 _ _ hpm hpm]
      refine ⟨_, rfl, ?_, ?_, (hmem e he).2.2.2.2.2.2.1, ?_⟩
      · simp only; rw [(hmem e he).2.2.2.2.1, hde]
      · simp only; rw [hde]
      · exact (hmem e he).2.2.2.2.2.2.2.1
    · rw [if_neg hpm, ccov0 p p hpm hpm, hb2 p _ (fun hh => hpm (by rw [bdims_keys]; exact hh.2))]
      exact hr.bel p (hreg hpr)
  · exact fun p hpr => hr.pos p (hreg hpr)
  · intro p hpr
    rw [cmu]
    split
    · exact (hr.muS p (hreg hpr)).add
    · exact hr.muS p (hreg hpr)
  · intro p q hpr hqr
    have hc := hr.covS p q (hreg hpr) (hreg hqr)
    by_cases h1 : p ∈ (bdims D).map (·.1)
    · by_cases h2 : q ∈ (bdims D).map (·.1)
      · rw [ccov2 p q h1 h2]; exact ⟨rfl, rfl⟩
      · rw [ccovl p q h1 h2]; exact (hLs (hreg hpr)).mul hc
    · by_cases h2 : q ∈ (bdims D).map (·.1)
      · rw [ccovr p q h1 h2]; exact hc.mul (hLs (hreg hqr)).tr
      · rw [ccov0 p q h1 h2]; exact hc
  · intro p q hpr hqr
    have hc := hr.symm p q (hreg hpr) (hreg hqr)
    by_cases h1 : p ∈ (bdims D).map (·.1)
    · by_cases h2 : q ∈ (bdims D).map (·.1)
      · rw [ccov2 p q h1 h2, ccov2 q p h2 h1, block_tr hsym]
      · rw [ccovl p q h1 h2, ccovr q p h2 h1, tr_mul, hc]
    · by_cases h2 : q ∈ (bdims D).map (·.1)
      · rw [ccovr p q h1 h2, ccovl q p h2 h1, tr_mul, tr_tr, hc]
      · rw [ccov0 p q h1 h2, ccov0 q p h2 h1, hc]
  · intro p hpr q M hM
    rw [ctm] at hM
    by_cases h1 : p ∈ (bdims D).map (·.1)
    · obtain ⟨e, he, rfl, htm, hde⟩ := hin h1
      rw [htm] at hM
      by_cases h2 : e.1 ≠ q ∧ q ∈ (bdims D).map (·.1)
      · obtain ⟨x, hx', rfl, -, hdx⟩ := hin h2.2
        rcases lt_or_gt_of_ne h2.1 with hlt | hlt
        · rw [f1 e he x hx' hlt] at hM
          rw [← Option.some.inj hM]; exact hde
        · rw [f2 x hx' e he hlt] at hM
          rw [← Option.some.inj hM]; exact hde
      · rw [f3 _ _ _ (fun hh => h2 ⟨hh.2.1, by rw [bdims_keys]; exact hh.2.2.2⟩), if_pos ⟨rfl, by rw [← bdims_keys]; exact h1⟩] at hM
        obtain ⟨M0, h0, rfl⟩ := Option.map_eq_some_iff.mp hM
        rw [mul_rows]; exact (hLs (hreg hpr)).1
    · have h1' : p ∉ D.map (·.1) := by rw [← bdims_keys]; exact h1
      rw [f3 _ _ _ (fun hh => h1' hh.2.2.1), if_neg (fun hh => h1' hh.2)] at hM
      exact hr.rows p (hreg hpr) q M hM
  · intro p q hpr hqr hpq
    rw [ctm]
    have hold := hr.pair p q (hreg hpr) (hreg hqr) hpq
    by_cases h1 : p ∈ (bdims D).map (·.1)
    · obtain ⟨e, he, rfl, htm, hde⟩ := hin h1
      have h1' : e.1 ∈ D.map (·.1) := List.mem_map_of_mem he
      by_cases h2 : q ∈ (bdims D).map (·.1)
      · obtain ⟨x, hx', rfl, htx, hdx⟩ := hin h2
        rw [htm, htx, ccov2 _ _ h1 h2]
        left
        rcases lt_or_gt_of_ne hpq with hlt | hlt
        · refine ⟨_, _, f1 e he x hx' hlt, f2 e he x hx' hlt, ?_, rfl, ?_⟩
          · show 0 < x.2.dim; rw [hdx]; exact hr.pos _ (hreg hqr)
          · rw [tr_one, Mat.mul_one _ x.2.dim rfl, hde, hdx]
        · refine ⟨_, _, f2 x hx' e he hlt, f1 x hx' e he hlt, ?_, rfl, ?_⟩
          · show 0 < e.2.dim; rw [hde]; exact hr.pos _ (hreg hpr)
          · rw [block_tr hsym, Mat.one_mul (P.block (off (bdims D) e.1) (off (bdims D) x.1) e.2.dim x.2.dim) e.2.dim rfl, hde, hdx]
      · have h2' : q ∉ D.map (·.1) := by rw [← bdims_keys]; exact h2
        rw [f3 e.1 q _ (fun hh => h2' hh.2.2.2), f3 q e.1 _ (fun hh => h2' hh.2.2.1), if_pos ⟨htm, h1'⟩, if_neg (fun hh => h2' hh.2), ccovl _ _ h1 h2]
        rw [htm] at hold
        rcases hold with ⟨A, B, g1, g2, g3, g4, g5⟩ | ⟨g1, g2, g3⟩
        · left; rw [g1, g2]
          exact ⟨_, _, rfl, rfl, g3, g4, by rw [g5, Mat.mul_assoc]⟩
        · right; rw [g1, g2]
          exact ⟨rfl, rfl, by rw [g3]; exact mul_zero_mat (hLs (hreg hpr))⟩
    · have h1' : p ∉ D.map (·.1) := by rw [← bdims_keys]; exact h1
      by_cases h2 : q ∈ (bdims D).map (·.1)
      · obtain ⟨x, hx', rfl, htx, hdx⟩ := hin h2
        have h2' : x.1 ∈ D.map (·.1) := List.mem_map_of_mem hx'
        rw [f3 p x.1 _ (fun hh => h1' hh.2.2.1), f3 x.1 p _ (fun hh => h1' hh.2.2.2), if_neg (fun hh => h1' hh.2), if_pos ⟨htx, h2'⟩, ccovr _ _ h1 h2]
        rw [htx] at hold
        rcases hold with ⟨A, B, g1, g2, g3, g4, g5⟩ | ⟨g1, g2, g3⟩
        · left; rw [g1, g2]
          exact ⟨_, _, rfl, rfl, g3, g4, by rw [g5, Mat.mul_assoc, tr_mul]⟩
        · right; rw [g1, g2]
          exact ⟨rfl, rfl, by rw [g3]; exact zero_mul_mat (hLs (hreg hqr)).tr⟩
      · have h2' : q ∉ D.map (·.1) := by rw [← bdims_keys]; exact h2
        rw [f3 p q _ (fun hh => h1' hh.2.2.1), f3 q p _ (fun hh => h2' hh.2.2.1), if_neg (fun hh => h1' hh.2), if_neg (fun hh => h2' hh.2), ccov0 _ _ h1 h2]
        exact hold

end joint
end Hdl
end Ikf
