import Verif.Lemmas.StdFilters

/-! # The joint update of the filters without buffers -/

namespace Ikf
open Mat
namespace StdHdl

variable {dim : ℕ → ℕ} {h : StdHdl} {c : Central}

theorem fc_of_find {p : ℕ} {i : StdInst} (hi : h.find p = some i) (q : ℕ) : (view h).fc p q = i.ccf.find q := by
  show (h.find p).bind _ = _
  rw [hi]; rfl

theorem bl_of_find {p : ℕ} {i : StdInst} (hi : h.find p = some i) : (view h).bl p = i.bel := by
  show (h.find p).bind _ = _
  rw [hi]; rfl

theorem getCCF_eq (i : StdInst) (J : ℕ) : i.getCCF J = (i.ccf.find J).getD Mat.empty := by
  unfold StdInst.getCCF
  cases i.ccf.find J <;> rfl

/-- The belief of a registered filter. -/
theorem Rel.stored (hr : StdView.Rel dim (view h) c) {p : ℕ} {i : StdInst} (hi : h.find p = some i) :
    ∃ b, i.bel = some b ∧ b.mean = c.mu p ∧ b.Sigma = c.cov p p ∧ b.stamp = c.tm p ∧ b.mean.Shape (dim p) 1 ∧
      b.Sigma.Shape (dim p) (dim p) ∧ b.Sigma.tr = b.Sigma := by
  have hp : (view h).has p := by show (h.find p).isSome; rw [hi]; rfl
  obtain ⟨b, h1, h2, h3, h4⟩ := hr.bel p hp
  rw [bl_of_find hi] at h1
  refine ⟨b, h1, h2, h3, h4, ?_, ?_, ?_⟩
  · rw [h2]; exact hr.muS p hp
  · rw [h3]; exact hr.covS p p hp hp
  · rw [h3, ← hr.symm p p hp hp]

/-- Reading a cross-covariance. -/
theorem Rel.getSigma (hr : StdView.Rel dim (view h) c) {p q : ℕ} (hp : (h.find p).isSome) (hq : (h.find q).isSome) (hpq : p ≠ q) :
    (StdHdl.getSigma h p q = .ok (c.cov p q) ∧ (c.cov p q).size ≠ 0) ∨
      (StdHdl.getSigma h p q = .ok Mat.empty ∧ c.cov p q = Mat.zero (dim p) (dim q)) := by
  obtain ⟨i, hi⟩ := Option.isSome_iff_exists.mp hp
  obtain ⟨j, hj⟩ := Option.isSome_iff_exists.mp hq
  unfold StdHdl.getSigma
  rw [get_ok hi, Res.bind_ok, get_ok hj, Res.bind_ok, getCCF_eq, getCCF_eq, ← fc_of_find hi, ← fc_of_find hj]
  have hsize : (c.cov p q).size ≠ 0 := by
    have := hr.covS p q hp hq
    unfold Mat.size
    rw [this.1, this.2]
    exact Nat.mul_ne_zero (hr.pos p hp).ne' (hr.pos q hq).ne'
  rcases hr.pair p q hp hq hpq with ⟨F, G, hF, hG, hk, hGF, hc⟩ | ⟨hF, hG, hc⟩
  · left
    have hFr := hr.rows p hp q F hF
    have hGr := hr.rows q hq p G hG
    rw [hF, hG]
    simp only [Option.getD_some]
    refine ⟨?_, hsize⟩
    have hs1 : F.size ≠ 0 := by unfold Mat.size; rw [hFr]; exact Nat.mul_ne_zero (hr.pos p hp).ne' hk.ne'
    have hs2 : G.size ≠ 0 := by unfold Mat.size; rw [hGr, hGF]; exact Nat.mul_ne_zero (hr.pos q hq).ne' hk.ne'
    rw [if_pos ⟨hs1, hs2⟩]
    split
    · rw [mulC_ok (by rw [tr_rows, hGF]), hc]
    · rw [mulC_ok (by rw [tr_rows, hGF]), Res.bind_ok, tr_mul, tr_tr, hc]
  · right
    rw [hF, hG]
    simp only [Option.getD_none]
    refine ⟨?_, hc⟩
    rw [if_neg]
    rintro ⟨h1, -⟩
    exact h1 (by simp [Mat.size])

section
variable {I J : ℕ} (hIJ : I ≠ J)
include hIJ

theorem off2 (a b : ℕ) : off [(I, a), (J, b)] I = 0 ∧ off [(I, a), (J, b)] J = a := by
  simp [off, hIJ]

theorem horcat_side (g : ℕ → ℕ → ℝ) {HI HJ : Mat} {m a b : ℕ} (h1 : HI.Shape m a) (h2 : HJ.Shape m b) (hm : 0 < m) (ha : 0 < a) (hb : 0 < b) :
    ∃ H, MatU.horcat g HI HJ = .ok H ∧ SideBySide [(I, HI), (J, HJ)] H ∧ H.Shape m (a + b) := by
  obtain ⟨-, -, h3⟩ := MatU.c50_horcat g HI HJ
  obtain ⟨-, h4⟩ := h3 (by unfold Mat.size; rw [h1.1, h1.2]; exact Nat.mul_ne_zero hm.ne' ha.ne')
    (by unfold Mat.size; rw [h2.1, h2.2]; exact Nat.mul_ne_zero hm.ne' hb.ne')
  obtain ⟨H, e, hr, hc, b1, b2⟩ := h4 (by rw [h1.1, h2.1])
  refine ⟨H, e, ⟨?_, ?_⟩, by rw [hr, h1.1], by rw [hc, h1.2, h2.2]⟩
  · simp [tot, hc]
  · intro e he
    have hrows : ∀ i, H.rows ≤ i → ∀ j, H.e i j = 0 := fun i hi j => H.out i j (Or.inl hi)
    simp only [List.mem_cons, List.not_mem_nil, or_false] at he
    rcases he with rfl | rfl
    · refine ⟨hr.symm, fun i j hj => ?_⟩
      simp only [List.map_cons, List.map_nil, (off2 hIJ HI.cols HJ.cols).1, Nat.zero_add]
      by_cases hi : i < HI.rows
      · simpa using b1.he i j hi hj
      · rw [hrows i (by omega), HI.out i j (Or.inl (by omega))]
    · refine ⟨by rw [hr, h1.1, h2.1], fun i j hj => ?_⟩
      simp only [List.map_cons, List.map_nil, (off2 hIJ HI.cols HJ.cols).2]
      by_cases hi : i < HJ.rows
      · simpa using b2.he i j hi hj
      · rw [hrows i (by rw [hr, h1.1]; rw [h2.1] at hi; omega), HJ.out i j (Or.inl (by omega))]

theorem vertcat_mean (g : ℕ → ℕ → ℝ) {mI mJ : Mat} {mu : ℕ → Mat} {a b : ℕ} (h1 : mI.Shape a 1) (h2 : mJ.Shape b 1) (ha : 0 < a) (hb : 0 < b)
    (e1 : mI = mu I) (e2 : mJ = mu J) :
    ∃ x, MatU.vertcat g mI mJ = .ok x ∧ StackedMean [(I, a), (J, b)] mu x ∧ x.Shape (a + b) 1 := by
  obtain ⟨-, -, h3⟩ := MatU.c50_vertcat g mI mJ
  obtain ⟨-, h4⟩ := h3 (by unfold Mat.size; rw [h1.1, h1.2]; omega) (by unfold Mat.size; rw [h2.1, h2.2]; omega)
  obtain ⟨x, e, hr, hc, b1, b2⟩ := h4 (by rw [h1.2, h2.2])
  have hsh : x.Shape (a + b) 1 := ⟨by rw [hr, h1.1, h2.1], by rw [hc, h1.2]⟩
  refine ⟨x, e, ⟨by simpa [tot] using hsh, ?_⟩, hsh⟩
  intro p hp i hi
  simp only [List.mem_cons, List.not_mem_nil, or_false] at hp
  rcases hp with rfl | rfl
  · rw [(off2 hIJ a b).1, ← e1]
    simpa using b1.he i 0 (by rw [h1.1]; exact hi) (by rw [h1.2]; omega)
  · rw [(off2 hIJ a b).2, ← e2]
    have := b2.he i 0 (by rw [h2.1]; exact hi) (by rw [h2.2]; omega)
    rw [h1.1] at this
    simpa using this

theorem stackPrior_cov (hr : StdView.Rel dim (view h) c) (g : ℕ → ℕ → ℝ) (hI : (h.find I).isSome) (hJ : (h.find J).isSome) :
    ∃ S, stackPrior g h I J (c.cov I I) (c.cov J J) = .ok S ∧ StackedCov [(I, dim I), (J, dim J)] c.cov S ∧
      S.Shape (dim I + dim J) (dim I + dim J) := by
  have pI := hr.pos I hI
  have pJ := hr.pos J hJ
  have sI := hr.covS I I hI hI
  have sJ := hr.covS J J hJ hJ
  have sX := hr.covS I J hI hJ
  have hsz : (c.cov I J).size ≠ 0 := by
    unfold Mat.size; rw [sX.1, sX.2]; exact Nat.mul_ne_zero pI.ne' pJ.ne'
  have key : stackPrior g h I J (c.cov I I) (c.cov J J) = MatU.stackSigma2 g (c.cov I I) (c.cov J J) (c.cov I J) := by
    unfold stackPrior
    rcases Rel.getSigma hr hI hJ hIJ with ⟨e, hs⟩ | ⟨e, hz⟩
    · rw [e, Res.bind_ok, if_pos hs]
    · rw [e, Res.bind_ok, if_neg (by simp [Mat.size]), sI.1, sJ.2, hz]
  obtain ⟨-, hst⟩ := MatU.c50_stack_sigma g (c.cov I I) (c.cov J J) (c.cov I J) (by rw [sI.1, sI.2]) (by rw [sJ.1, sJ.2])
  obtain ⟨S, e, hrw, hcl, b1, b2, b3, b4⟩ := hst hsz (by rw [sX.1, sI.1]) (by rw [sX.2, sJ.2])
  have hsh : S.Shape (dim I + dim J) (dim I + dim J) := ⟨by rw [hrw, sI.1, sJ.1], by rw [hcl, sI.1, sJ.1]⟩
  rw [sI.1] at b2 b3 b4
  refine ⟨S, by rw [key, e], ⟨by simpa [tot] using hsh, ?_⟩, hsh⟩
  intro p hp q hq i hi j hj
  simp only [List.mem_cons, List.not_mem_nil, or_false] at hp hq
  have o := off2 hIJ (dim I) (dim J)
  rcases hp with rfl | rfl <;> rcases hq with rfl | rfl
  · simp only [o.1]
    exact b1.he i j (by rw [sI.1]; exact hi) (by rw [sI.2]; exact hj)
  · simp only [o.1, o.2]
    exact b2.he i j (by rw [sX.1]; exact hi) (by rw [sX.2]; exact hj)
  · simp only [o.1, o.2]
    have := b3.he i j (by rw [tr_rows, sX.2]; exact hi) (by rw [tr_cols, sX.1]; exact hj)
    rw [this, hr.symm I J hI hJ]
  · simp only [o.2]
    exact b4.he i j (by rw [sJ.1]; exact hi) (by rw [sJ.2]; exact hj)

/-- The state of the centralised filter after a joint update of two, in three steps. -/
theorem joint_steps {P dx : Mat} {a b : ℕ} (hP : P.tr = P) {t : Int} (tI : c.tm I = t) (tJ : c.tm J = t) :
    c.joint [(I, a), (J, b)] P dx =
      (((c.transform I (P.block 0 0 a a * (c.cov I I).inv) (c.mu I + dx.block 0 0 a 1) (P.block 0 0 a a) t (c.fix I)).transform J
        (P.block a a b b * (c.cov J J).inv) (c.mu J + dx.block a 0 b 1) (P.block a a b b) t (c.fix J)).setCov I J (P.block 0 a a b)) := by
  have o := off2 hIJ a b
  have hJI := Ne.symm hIJ
  have l1 : ([(I, a), (J, b)].lookup I).getD 0 = a := by simp [List.lookup]
  have l2 : ([(I, a), (J, b)].lookup J).getD 0 = b := by
    have : (J == I) = false := by simpa using hJI
    simp [List.lookup, this]
  have hbt : (P.block 0 a a b).tr = P.block a 0 b a := Hdl.block_tr hP _ _ _ _
  have hin : ∀ p, p ∈ ([(I, a), (J, b)] : List (ℕ × ℕ)).map (·.1) ↔ p = I ∨ p = J := by intro p; simp
  unfold Central.joint Central.setCov Central.transform
  simp only [hin]
  congr 1
  · funext p
    by_cases h1 : p = I
    · subst h1; simp [hIJ, tI]
    · by_cases h2 : p = J
      · subst h2; simp [tJ]
      · simp [h1, h2]
  · funext p
    by_cases h1 : p = I
    · subst h1; simp only [true_or, if_true, o.1, l1, if_neg hIJ]
    · by_cases h2 : p = J
      · subst h2; simp only [or_true, if_true, o.2, l2]
      · simp [h1, h2]
  · funext p q
    by_cases h1 : p = I
    · subst h1
      by_cases h2 : q = p
      · subst h2; simp only [true_or, and_self, if_true, o.1, l1, hIJ, hJI, and_false, false_and, if_false]
      · by_cases h3 : q = J
        · subst h3; simp only [true_or, or_true, and_self, if_true, o.1, o.2, l1, l2]
        · simp only [true_or, h2, h3, or_self, and_false, if_false, if_true, o.1, l1, hIJ, false_and]
    · by_cases h4 : p = J
      · subst h4
        by_cases h2 : q = I
        · subst h2; simp only [true_or, or_true, and_self, if_true, o.1, o.2, l1, l2, hbt, hJI, false_and, if_false]
        · by_cases h3 : q = p
          · subst h3; simp only [or_true, and_self, if_true, o.2, l2, hJI, hIJ, false_and, and_false, if_false]
          · simp only [or_true, h2, h3, or_self, and_false, if_false, if_true, o.2, l2, hJI, false_and]
      · by_cases h2 : q = I
        · subst h2; simp only [h1, h4, or_self, false_and, if_false, true_or, if_true, o.1, l1, hIJ]
        · by_cases h3 : q = J
          · subst h3; simp only [h1, h4, or_self, false_and, if_false, or_true, if_true, o.2, l2, h2]
          · simp only [h1, h4, h2, h3, or_self, false_and, if_false]
  · funext p
    by_cases h1 : p = I
    · subst h1; simp [hIJ]
    · by_cases h2 : p = J
      · subst h2; simp
      · simp [h1, h2]

end
/-- Maps are maps. -/
structure Srt (h : StdHdl) : Prop where
  reg : h.Sorted
  ccf : ∀ p i, h.find p = some i → i.ccf.Sorted

theorem Srt.set (hs : Srt h) {p : ℕ} {i : StdInst} (hi : i.ccf.Sorted) : Srt (h.set p i) := by
  refine ⟨hs.reg.set _ _, fun q j hj => ?_⟩
  rw [SMap.find_set] at hj
  split at hj
  · rw [← Option.some.inj hj]; exact hi
  · exact hs.ccf q j hj

theorem Rel.rows (hr : StdView.Rel dim (view h) c) (hs : Srt h) {p : ℕ} {i : StdInst} (hi : h.find p = some i) :
    ∀ e ∈ i.ccf, e.2.rows = dim p := by
  intro e he
  refine hr.rows p (by show (h.find p).isSome; rw [hi]; rfl) e.1 e.2 ?_
  rw [fc_of_find hi, SMap.find_eq_some (hs.ccf p i hi)]
  exact he

section
variable {I J : ℕ} {i j : StdInst} {bI bJ : Belief}

theorem setSigma_spec (hIJ : I ≠ J) (hs : Srt h) (hi : h.find I = some i) (hj : h.find J = some j) (S : Mat) :
    ∃ h' A B, setSigma h I J S = .ok h' ∧ view h' = (view h).setFac I J A B ∧ Srt h' ∧ A * B.tr = S ∧ A.rows = S.rows ∧ B.rows = S.cols ∧
      B.cols = A.cols ∧ (A.cols = S.cols ∨ A.cols = S.rows) ∧
      h'.find I = some (i.setCCF J A) ∧ h'.find J = some (j.setCCF I B) ∧ ∀ p, p ≠ I → p ≠ J → h'.find p = h.find p := by
  have hJI := Ne.symm hIJ
  have hv : ∀ (h' : StdHdl) (A B : Mat), h'.find I = some (i.setCCF J A) → h'.find J = some (j.setCCF I B) →
      (∀ p, p ≠ I → p ≠ J → h'.find p = h.find p) → view h' = (view h).setFac I J A B := by
    intro h' A B e1 e2 e3
    unfold view StdView.setFac
    congr 1
    · funext p
      by_cases h1 : p = I
      · subst h1; simp [e1, hi]
      · by_cases h2 : p = J
        · subst h2; simp [e2, hj]
        · simp [e3 p h1 h2]
    · funext p
      by_cases h1 : p = I
      · subst h1; simp [e1, hi, StdInst.setCCF]
      · by_cases h2 : p = J
        · subst h2; simp [e2, hj, StdInst.setCCF]
        · simp [e3 p h1 h2]
    · funext p q
      by_cases h1 : p = I
      · subst h1
        simp only [e1, hi, Option.bind_some, StdInst.setCCF, SMap.find_set, hIJ, false_and, if_false, true_and]
        by_cases hq : J = q
        · subst hq; simp
        · simp [hq, Ne.symm hq]
      · by_cases h2 : p = J
        · subst h2
          simp only [e2, hj, Option.bind_some, StdInst.setCCF, SMap.find_set, hJI, false_and, if_false, true_and]
          by_cases hq : I = q
          · subst hq; simp
          · simp [hq, Ne.symm hq]
        · simp [e3 p h1 h2, h1, h2]
  unfold setSigma
  by_cases hlt : I < J
  · rw [if_pos hlt, get_ok hi, Res.bind_ok]
    have hj' : (h.set I (i.setCCF J S)).find J = some j := by rw [SMap.find_set_ne _ hIJ]; exact hj
    dsimp only
    rw [get_ok hj', Res.bind_ok]
    refine ⟨_, S, one S.cols, rfl, ?_, (hs.set ((hs.ccf I i hi).set _ _)).set ((hs.ccf J j hj).set _ _), ?_, rfl, rfl, rfl, Or.inl rfl, ?_, ?_, ?_⟩
    · apply hv
      · rw [SMap.find_set_ne _ hJI, SMap.find_set_self]
      · rw [SMap.find_set_self]
      · intro p h1 h2; rw [SMap.find_set_ne _ (Ne.symm h2), SMap.find_set_ne _ (Ne.symm h1)]
    · rw [tr_one, Mat.mul_one _ _ rfl]
    · rw [SMap.find_set_ne _ hJI, SMap.find_set_self]
    · rw [SMap.find_set_self]
    · intro p h1 h2; rw [SMap.find_set_ne _ (Ne.symm h2), SMap.find_set_ne _ (Ne.symm h1)]
  · rw [if_neg hlt, get_ok hj, Res.bind_ok]
    have hi' : (h.set J (j.setCCF I S.tr)).find I = some i := by rw [SMap.find_set_ne _ hJI]; exact hi
    dsimp only
    rw [get_ok hi', Res.bind_ok]
    refine ⟨_, one S.rows, S.tr, rfl, ?_, (hs.set ((hs.ccf J j hj).set _ _)).set ((hs.ccf I i hi).set _ _), ?_, rfl, rfl, rfl, Or.inr rfl, ?_, ?_, ?_⟩
    · apply hv
      · rw [SMap.find_set_self]; rfl
      · rw [SMap.find_set_ne _ hIJ, SMap.find_set_self]
      · intro p h1 h2; rw [SMap.find_set_ne _ (Ne.symm h1), SMap.find_set_ne _ (Ne.symm h2)]
    · rw [tr_tr, Mat.one_mul _ _ rfl]
    · rw [SMap.find_set_self]; rfl
    · rw [SMap.find_set_ne _ hIJ, SMap.find_set_self]
    · intro p h1 h2; rw [SMap.find_set_ne _ (Ne.symm h1), SMap.find_set_ne _ (Ne.symm h2)]

theorem correctBel_ok {p : ℕ} {i : StdInst} {b : Belief} {n : ℕ} {dx P : Mat} (hi : h.find p = some i) (hb : i.bel = some b) (hm : b.mean.Shape n 1)
    (hx : dx.Shape n 1) : correctBel h p dx P = .ok (h.set p { i with bel := some { b with mean := b.mean + dx, Sigma := P } }) := by
  unfold correctBel
  rw [get_ok hi, Res.bind_ok, StdInst.deref_ok hb, Res.bind_ok, StdInst.correct_eq hm hx, Res.bind_ok]

/-- The exact test of IS:85. -/
def Psd (P : Mat) : Prop := P.rows = P.cols ∧ (P.toM P.rows P.rows).PosSemidef

theorem commit_throws {SI SJ : Mat} {res : CorrRes} (hp : ¬ Psd res.Sapos) : commit h I J SI SJ res = .throws := by
  unfold commit expectPsd expect
  rw [Psd] at hp
  rw [if_neg hp]; rfl

theorem commit_spec (hIJ : I ≠ J) (hs : Srt h) (hi : h.find I = some i) (hj : h.find J = some j) (hbI : i.bel = some bI) (hbJ : j.bel = some bJ)
    {a b : ℕ} (ha : 0 < a) (hb : 0 < b) (mI : bI.mean.Shape a 1) (mJ : bJ.mean.Shape b 1) (sI : bI.Sigma.Shape a a) (sJ : bJ.Sigma.Shape b b)
    (cI : ∀ e ∈ i.ccf, e.2.rows = a) (cJ : ∀ e ∈ j.ccf, e.2.rows = b) {res : CorrRes} (hP : res.Sapos.Shape (a + b) (a + b)) (hx : res.dx.Shape (a + b) 1)
    (hp : Psd res.Sapos) :
    ∃ h' A B, commit h I J bI.Sigma bJ.Sigma res = .ok h' ∧ Srt h' ∧ A * B.tr = res.Sapos.block 0 a a b ∧ A.rows = a ∧ B.rows = b ∧ B.cols = A.cols ∧
      0 < A.cols ∧
      view h' = (((view h).transform I (res.Sapos.block 0 0 a a * bI.Sigma.inv)
          { bI with mean := bI.mean + res.dx.block 0 0 a 1, Sigma := res.Sapos.block 0 0 a a }).transform J (res.Sapos.block a a b b * bJ.Sigma.inv)
          { bJ with mean := bJ.mean + res.dx.block a 0 b 1, Sigma := res.Sapos.block a a b b }).setFac I J A B := by
  have hJI := Ne.symm hIJ
  unfold commit
  have h0 : expectPsd res.Sapos = .ok () := by unfold expectPsd expect; rw [Psd] at hp; rw [if_pos hp]
  rw [h0, Res.bind_ok]
  have hsp : MatU.splitSigma2 res.Sapos bI.Sigma.rows bJ.Sigma.rows =
      .ok (res.Sapos.block 0 0 a a, res.Sapos.block a a b b, res.Sapos.block 0 a a b) := by
    rw [sI.1, sJ.1, MatU.splitSigma2, if_neg (by omega), if_pos ⟨hP.1, hP.2⟩, blockC_ok (by rw [hP.1]; omega) (by rw [hP.2]; omega),
      MatU.brC_ok (by rw [hP.1]; omega) (by rw [hP.2]; omega), MatU.trC_ok (by rw [hP.1]; omega) (by rw [hP.2]; omega)]
    have x1 : res.Sapos.rows - b = a := by rw [hP.1]; omega
    have x2 : res.Sapos.cols - b = a := by rw [hP.2]; omega
    simp only [Res.bind_ok, x1, x2]
  rw [hsp, Res.bind_ok, get_ok hi, Res.bind_ok]
  rw [StdInst.applyCorrection_ok sI (show (res.Sapos.block 0 0 a a).Shape a a from ⟨rfl, rfl⟩) cI, Res.bind_ok]
  set LI := res.Sapos.block 0 0 a a * bI.Sigma.inv with hLI
  set LJ := res.Sapos.block a a b b * bJ.Sigma.inv with hLJ
  set i1 : StdInst := { i with ccf := i.ccf.mapV (LI * ·) } with hi1
  have hj1 : (h.set I i1).find J = some j := by rw [SMap.find_set_ne _ hIJ]; exact hj
  dsimp only
  rw [get_ok hj1, Res.bind_ok]
  rw [StdInst.applyCorrection_ok sJ (show (res.Sapos.block a a b b).Shape b b from ⟨rfl, rfl⟩) cJ, Res.bind_ok]
  rw [← hLJ]
  set j1 : StdInst := { j with ccf := j.ccf.mapV (LJ * ·) } with hj1'
  have s1 : Srt (h.set I i1) := hs.set ((hs.ccf I i hi).mapV _)
  have s2 : Srt ((h.set I i1).set J j1) := s1.set ((hs.ccf J j hj).mapV _)
  have f1 : ((h.set I i1).set J j1).find I = some i1 := by rw [SMap.find_set_ne _ hJI, SMap.find_set_self]
  have f2 : ((h.set I i1).set J j1).find J = some j1 := SMap.find_set_self _ _ _
  obtain ⟨h3, A, B, e3, v3, s3, hAB, rA, rB, cB, cA, g1, g2, g3⟩ := setSigma_spec hIJ s2 f1 f2 (res.Sapos.block 0 a a b)
  rw [e3, Res.bind_ok, blockC_ok (by rw [sI.1, hx.1]; omega) (by rw [hx.2]), Res.bind_ok]
  rw [sI.1, correctBel_ok (i := i1.setCCF J A) (b := bI) g1 hbI mI (⟨rfl, rfl⟩ : (res.dx.block 0 0 a 1).Shape a 1), Res.bind_ok]
  rw [sJ.1, MatU.brC_ok (by rw [hx.1]; omega) (by rw [hx.2]), Res.bind_ok]
  have x1 : res.dx.rows - b = a := by rw [hx.1]; omega
  have x2 : res.dx.cols - 1 = 0 := by rw [hx.2]
  rw [x1, x2]
  have g2' : ((h3.set I { i1.setCCF J A with bel := some { bI with mean := bI.mean + res.dx.block 0 0 a 1, Sigma := res.Sapos.block 0 0 a a } }).find J) =
      some (j1.setCCF I B) := by rw [SMap.find_set_ne _ hIJ]; exact g2
  rw [correctBel_ok (i := j1.setCCF I B) (b := bJ) g2' hbJ mJ (⟨rfl, rfl⟩ : (res.dx.block a 0 b 1).Shape b 1)]
  refine ⟨_, A, B, rfl, ?_, hAB, rA, rB, cB, ?_, ?_⟩
  · refine Srt.set (Srt.set s3 ?_) ?_
    · have q := s3.ccf I (i1.setCCF J A) g1
      exact q
    · have q := s3.ccf J (j1.setCCF I B) g2
      exact q
  · rcases cA with e | e
    · rw [e]; exact hb
    · rw [e]; exact ha
  · unfold view StdView.setFac StdView.transform
    simp only [SMap.find_set]
    congr 1
    · funext p
      by_cases h1 : p = I
      · subst h1; simp [hJI, hi]
      · by_cases h2 : p = J
        · subst h2; simp [hj]
        · rw [if_neg (Ne.symm h2), if_neg (Ne.symm h1), g3 p h1 h2, SMap.find_set_ne _ (Ne.symm h2), SMap.find_set_ne _ (Ne.symm h1)]
    · funext p
      by_cases h1 : p = I
      · subst h1; simp [hIJ, hJI]
      · by_cases h2 : p = J
        · subst h2; simp
        · rw [if_neg (Ne.symm h2), if_neg (Ne.symm h1), if_neg h2, if_neg h1, g3 p h1 h2, SMap.find_set_ne _ (Ne.symm h2), SMap.find_set_ne _ (Ne.symm h1)]
    · funext p q
      by_cases h1 : p = I
      · subst h1
        by_cases hq : q = J
        · subst hq; simp [hJI, StdInst.setCCF]
        · simp [hJI, hIJ, StdInst.setCCF, SMap.find_set, Ne.symm hq, hq, hi, hi1, SMap.find_mapV]
      · by_cases h2 : p = J
        · subst h2
          by_cases hq : q = I
          · subst hq; simp [hIJ, hJI, StdInst.setCCF]
          · simp [hJI, StdInst.setCCF, SMap.find_set, Ne.symm hq, hq, hj, hj1', SMap.find_mapV]
        · rw [if_neg (Ne.symm h2), if_neg (Ne.symm h1), if_neg (fun hh => h1 hh.1), if_neg (fun hh => h2 hh.1), if_neg h2, if_neg h1, g3 p h1 h2,
            SMap.find_set_ne _ (Ne.symm h2), SMap.find_set_ne _ (Ne.symm h1)]

end
end StdHdl
end Ikf
