import Verif.Model.Isolated
import Verif.Lemmas.SMap
import Verif.Lemmas.Kalman
import Verif.Lemmas.BufferMap
import Verif.Props.Horizon

/-! # Isolated filter instances: effect of each operation on beliefs and factors -/

namespace Ikf
open Mat

namespace Buf
variable {α : Type _}

theorem absMap_nil (k : Int) : absMap ([] : Buf α) k = none := rfl

theorem absMap_insertMap (b : Buf α) (h : b.StrictKeys) (t : Int) (v : α) (k : Int) :
    (b.insertMap t v).absMap k = if k = t then some v else b.absMap k := by
  have hs := strict_insertMap b h t v
  have := absMap_ext _ hs (fun k => if k = t then some v else b.absMap k) (by
    intro k w
    rw [mem_insertMap b h]
    by_cases hk : k = t
    · simp [hk, eq_comm]
    · simp [hk, absMap_eq_some b h])
  rw [this]

theorem absMap_filter (b : Buf α) (h : b.StrictKeys) (p : Int → Bool) (k : Int) :
    absMap (b.filter (fun e => p e.1)) k = if p k then b.absMap k else none := by
  have := absMap_ext (b.filter (fun e => p e.1)) (h.filter _) (fun k => if p k then b.absMap k else none) (by
    intro k w
    rw [List.mem_filter]
    by_cases hk : p k
    · simp [hk, absMap_eq_some b h]
    · simp [hk])
  rw [this]

theorem absMap_removeAfter (b : Buf α) (h : b.StrictKeys) (t k : Int) :
    (b.removeAfter t).absMap k = if k ≤ t then b.absMap k else none := by
  rw [removeAfter_eq b h.sorted]
  have := absMap_filter b h (fun x => decide (x ≤ t)) k
  simpa using this

theorem strict_removeAfter (b : Buf α) (h : b.StrictKeys) (t : Int) : (b.removeAfter t).StrictKeys := by
  rw [removeAfter_eq b h.sorted]; exact h.filter _

theorem absMap_removeAt (b : Buf α) (h : b.StrictKeys) (t k : Int) :
    (b.removeAt t).absMap k = if k = t then none else b.absMap k := by
  have := absMap_filter b h (fun x => !(x == t)) k
  unfold removeAt
  rw [this]
  by_cases hk : k = t <;> simp [hk]

theorem horizonRestricted_facts (fp : FP) (max : ℚ) (b : Buf α) (n : ℕ) :
    (Buf.checkHorizonRestricted fp max b n).getLast? = b.getLast? ∧
      (Buf.checkHorizonRestricted fp max b n) <:+ b := by
  rw [c15_restricted]
  split
  · exact ⟨(c15_newest_kept fp max b).1, (c15_newest_kept fp max b).2.1⟩
  · exact ⟨rfl, List.suffix_rfl⟩

theorem strict_horizonRestricted (fp : FP) (max : ℚ) (b : Buf α) (n : ℕ) (h : b.StrictKeys) :
    (Buf.checkHorizonRestricted fp max b n).StrictKeys :=
  List.Pairwise.sublist (horizonRestricted_facts fp max b n).2.sublist h

theorem mem_horizonRestricted (fp : FP) (max : ℚ) (b : Buf α) (n : ℕ) (e) (h : e ∈ Buf.checkHorizonRestricted fp max b n) :
    e ∈ b := (horizonRestricted_facts fp max b n).2.subset h

/-- Trimming never touches what is stored at (or after) the newest time. -/
theorem absMap_horizonRestricted (fp : FP) (max : ℚ) (b : Buf α) (n : ℕ) (h : b.StrictKeys) (k : Int)
    (hk : ∀ e ∈ b, e.1 ≤ k) : (Buf.checkHorizonRestricted fp max b n).absMap k = b.absMap k := by
  have hs := strict_horizonRestricted fp max b n h
  obtain ⟨hlast, hsuf⟩ := horizonRestricted_facts fp max b n
  apply Option.ext
  intro v
  rw [absMap_eq_some _ hs, absMap_eq_some _ h]
  constructor
  · exact fun hm => hsuf.subset hm
  · intro hm
    cases hl : b.getLast? with
    | none => rw [List.getLast?_eq_none_iff] at hl; rw [hl] at hm; simp at hm
    | some l =>
      have h1 := h.sorted.le_getLast hl _ hm
      have hlm : l ∈ b := List.mem_of_getLast? hl
      have h2 := hk l hlm
      have hl1 : l.1 = k := by simp only at h1; omega
      have : l = (k, v) := by
        have e1 := (absMap_eq_some b h l.1 l.2).mpr hlm
        have e2 := (absMap_eq_some b h k v).mpr hm
        rw [hl1, e2] at e1
        have := Option.some.inj e1
        exact Prod.ext hl1 this.symm
      rw [← this]
      rw [hl] at hlast
      exact List.mem_of_getLast? hlast

theorem absMap_le (b : Buf α) (h : b.StrictKeys) (k : Int) (hk : ∀ e ∈ b, e.1 ≤ k) (k' : Int) (v : α)
    (hv : b.absMap k' = some v) : k' ≤ k := hk _ ((absMap_eq_some b h k' v).mp hv)

theorem insertMap_insertMap (b : Buf α) (t : Int) (v w : α) :
    (b.insertMap t v).insertMap t w = b.insertMap t w := by
  induction b with
  | nil => simp [insertMap]
  | cons e r ih =>
    unfold insertMap
    by_cases h1 : t < e.1
    · simp [h1, insertMap]
    · by_cases h2 : t = e.1
      · simp [h2, insertMap]
      · simp only [h1, if_false, beq_iff_eq, h2]
        rw [insertMap]
        simp [h1, h2, ih]

end Buf

namespace Inst

/-- The stored factor towards `J` at `t`. -/
def fac (i : Inst) (J : ℕ) (t : Int) : Option Mat := (i.ccf.find J).bind (fun b => b.absMap t)

theorem getCCF_eq (i : Inst) (t : Int) (J : ℕ) : i.getCCF t J = (i.fac J t).getD Mat.empty := by
  unfold getCCF fac Buf.absMap
  cases i.ccf.find J with
  | none => rfl
  | some b =>
    simp only [Option.bind_some]
    cases b.getAt t <;> rfl

theorem beliefAt_eq (i : Inst) (t : Int) : i.beliefAt t = i.bel.absMap t := rfl

/-- The factor histories are finite maps with increasing keys. -/
structure Ord (i : Inst) : Prop where
  bel : i.bel.StrictKeys
  ccf : i.ccf.Sorted
  buf : ∀ J b, i.ccf.find J = some b → Buf.StrictKeys b

theorem setCCF_bel (i : Inst) (t J M) : (i.setCCF t J M).bel = i.bel := by
  unfold setCCF; split <;> rfl
theorem setCCF_hor (i : Inst) (t J M) : (i.setCCF t J M).hor = i.hor := by
  unfold setCCF; split <;> rfl

theorem find_setCCF (i : Inst) (t : Int) (J : ℕ) (M : Mat) (K : ℕ) :
    (i.setCCF t J M).ccf.find K = if J = K then some (((i.ccf.find J).getD []).insertMap t M) else i.ccf.find K := by
  unfold setCCF
  cases h : i.ccf.find J with
  | none => simp only [SMap.find_set, Option.getD_none]
  | some b => simp only [SMap.find_set, Option.getD_some]

theorem Ord.getD {i : Inst} (h : i.Ord) (J : ℕ) : Buf.StrictKeys ((i.ccf.find J).getD []) := by
  cases hf : i.ccf.find J with
  | none => exact List.Pairwise.nil
  | some b => exact h.buf J b hf

theorem Ord.setCCF {i : Inst} (h : i.Ord) (t J M) : (i.setCCF t J M).Ord where
  bel := by rw [setCCF_bel]; exact h.bel
  ccf := by
    unfold Inst.setCCF; split
    · exact h.ccf.set _ _
    · exact h.ccf.set _ _
  buf := by
    intro K b hb
    rw [find_setCCF] at hb
    split at hb
    · rw [← Option.some.inj hb]; exact Buf.strict_insertMap _ (h.getD J) _ _
    · exact h.buf K b hb

theorem fac_setCCF {i : Inst} (h : i.Ord) (t : Int) (J : ℕ) (M : Mat) (K : ℕ) (t' : Int) :
    (i.setCCF t J M).fac K t' = if J = K ∧ t' = t then some M else i.fac K t' := by
  unfold fac
  rw [find_setCCF]
  by_cases hJ : J = K
  · rw [if_pos hJ, Option.bind_some, Buf.absMap_insertMap _ (h.getD J)]
    subst hJ
    by_cases ht : t' = t
    · rw [if_pos ht, if_pos ⟨rfl, ht⟩]
    · rw [if_neg ht, if_neg (fun hh => ht hh.2)]
      cases i.ccf.find J <;> rfl
  · rw [if_neg hJ, if_neg (fun hh => hJ hh.1)]

theorem Ord.setBelief {i : Inst} (h : i.Ord) (b t) : (i.setBelief b t).Ord :=
  ⟨Buf.strict_insertMap _ h.bel _ _, h.ccf, h.buf⟩

theorem beliefAt_setBelief {i : Inst} (h : i.Ord) (b : Belief) (t t' : Int) :
    (i.setBelief b t).beliefAt t' = if t' = t then some b else i.beliefAt t' := by
  rw [beliefAt_eq, beliefAt_eq]; exact Buf.absMap_insertMap _ h.bel _ _ _

@[simp] theorem setBelief_ccf (i : Inst) (b t) : (i.setBelief b t).ccf = i.ccf := rfl
@[simp] theorem setBelief_fac (i : Inst) (b t J t') : (i.setBelief b t).fac J t' = i.fac J t' := rfl

/-- Value of `bufMul` on fitting shapes. -/
noncomputable def bufMulV (ta tb : Int) (F : Mat) (b : Buf Mat) : Buf Mat :=
  match b.absMap ta with
  | some M => b.insertMap tb (F * M)
  | none => b

theorem bufMul_ok (ta tb : Int) (F : Mat) (b : Buf Mat) (hF : ∀ M, b.absMap ta = some M → F.cols = M.rows) :
    bufMul ta tb F b = .ok (bufMulV ta tb F b) := by
  unfold bufMul bufMulV
  cases hg : b.getAt ta with
  | none =>
    have hm : b.absMap ta = none := by unfold Buf.absMap; rw [hg]; rfl
    rw [hm]
    have : b.existAt ta = false := by
      rw [← Bool.not_eq_true, Buf.existAt_iff]
      rintro ⟨e, he, h⟩
      exact (Buf.getAt_eq_none b ta).mp hg e he h
    simp [this]
  | some e =>
    have hm : b.absMap ta = some e.2 := by unfold Buf.absMap; rw [hg]; rfl
    have : b.existAt ta = true := by
      rw [Buf.existAt_iff]
      unfold Buf.getAt at hg
      exact ⟨e, List.mem_of_find?_eq_some hg, by simpa using List.find?_some hg⟩
    rw [hm]
    simp only [this, if_true]
    rw [mulC_ok (hF _ hm)]; rfl

theorem bufMulV_strict (ta tb : Int) (F : Mat) (b : Buf Mat) (h : b.StrictKeys) : (bufMulV ta tb F b).StrictKeys := by
  unfold bufMulV; split
  · exact Buf.strict_insertMap _ h _ _
  · exact h

theorem bufMulV_absMap (ta tb : Int) (F : Mat) (b : Buf Mat) (h : b.StrictKeys) (k : Int) :
    (bufMulV ta tb F b).absMap k =
      if k = tb ∧ (b.absMap ta).isSome then (b.absMap ta).map (F * ·) else b.absMap k := by
  unfold bufMulV
  cases hm : b.absMap ta with
  | none => simp
  | some M =>
    simp only [Option.isSome_some, and_true, Option.map_some]
    exact Buf.absMap_insertMap _ h _ _ _

theorem bufMulV_mem (ta tb : Int) (F : Mat) (b : Buf Mat) (h : b.StrictKeys) (T : Int) (hT : ∀ e ∈ b, e.1 ≤ T) (htb : tb ≤ T) :
    ∀ e ∈ bufMulV ta tb F b, e.1 ≤ T := by
  unfold bufMulV
  split
  · intro e he
    rw [Buf.mem_insertMap _ h] at he
    rcases he with he | he
    · rw [he]; exact htb
    · exact hT e he.1
  · exact hT

theorem addCorrection_ok {i : Inst} (h : i.Ord) (ta tb : Int) (Phi : Mat)
    (hF : ∀ J M, i.fac J ta = some M → Phi.cols = M.rows) :
    i.addCorrection ta tb Phi = .ok { i with ccf := i.ccf.mapV (bufMulV ta tb Phi) } := by
  unfold addCorrection
  rw [SMap.mapR_ok _ (bufMulV ta tb Phi)]
  · rfl
  · intro e he
    apply bufMul_ok
    intro M hM
    have hf : i.ccf.find e.1 = some e.2 := (SMap.find_eq_some h.ccf e.1 e.2).mpr he
    exact hF e.1 M (by unfold fac; rw [hf]; exact hM)

theorem applyCorrection_ok {i : Inst} (h : i.Ord) (t : Int) (F : Mat)
    (hF : ∀ J M, i.fac J t = some M → F.cols = M.rows) :
    i.applyCorrection t F = .ok { i with ccf := i.ccf.mapV (bufMulV t t F) } :=
  addCorrection_ok h t t F hF

/-- The instance after a successful factor multiplication. -/
noncomputable def mulFac (i : Inst) (ta tb : Int) (F : Mat) : Inst := { i with ccf := i.ccf.mapV (bufMulV ta tb F) }

theorem find_mulFac (i : Inst) (ta tb F J) : (i.mulFac ta tb F).ccf.find J = (i.ccf.find J).map (bufMulV ta tb F) :=
  SMap.find_mapV _ _ _

theorem fac_mulFac {i : Inst} (h : i.Ord) (ta tb : Int) (F : Mat) (J : ℕ) (k : Int) :
    (i.mulFac ta tb F).fac J k =
      if k = tb ∧ (i.fac J ta).isSome then (i.fac J ta).map (F * ·) else i.fac J k := by
  unfold fac
  rw [find_mulFac]
  cases hf : i.ccf.find J with
  | none => simp
  | some b =>
    simp only [Option.map_some, Option.bind_some]
    exact bufMulV_absMap ta tb F b (h.buf J b hf) k

theorem Ord.mulFac {i : Inst} (h : i.Ord) (ta tb F) : (i.mulFac ta tb F).Ord where
  bel := h.bel
  ccf := h.ccf.mapV _
  buf := by
    intro J b hb
    rw [find_mulFac] at hb
    obtain ⟨b0, h0, rfl⟩ := Option.map_eq_some_iff.mp hb
    exact bufMulV_strict _ _ _ _ (h.buf J b0 h0)

/-- Everything stored is at or before `T`. -/
structure UpTo (i : Inst) (T : Int) : Prop where
  bel : ∀ e ∈ i.bel, e.1 ≤ T
  ccf : ∀ J b, i.ccf.find J = some b → ∀ e ∈ b, e.1 ≤ T

theorem UpTo.mono {i : Inst} {T T' : Int} (h : i.UpTo T) (hT : T ≤ T') : i.UpTo T' :=
  ⟨fun e he => le_trans (h.bel e he) hT, fun J b hb e he => le_trans (h.ccf J b hb e he) hT⟩

theorem UpTo.mulFac {i : Inst} {T : Int} (h : i.UpTo T) (ho : i.Ord) (ta tb F) (htb : tb ≤ T) : (i.mulFac ta tb F).UpTo T where
  bel := h.bel
  ccf := by
    intro J b hb
    rw [find_mulFac] at hb
    obtain ⟨b0, h0, rfl⟩ := Option.map_eq_some_iff.mp hb
    exact bufMulV_mem _ _ _ _ (ho.buf J b0 h0) T (h.ccf J b0 h0) htb

theorem UpTo.setBelief {i : Inst} {T : Int} (h : i.UpTo T) (ho : i.Ord) (b t) (ht : t ≤ T) : (i.setBelief b t).UpTo T where
  bel := by
    intro e he
    rcases (Buf.mem_insertMap _ ho.bel _ _ _).mp he with he | he
    · rw [he]; exact ht
    · exact h.bel e he.1
  ccf := h.ccf

theorem UpTo.setCCF {i : Inst} {T : Int} (h : i.UpTo T) (ho : i.Ord) (t J M) (ht : t ≤ T) : (i.setCCF t J M).UpTo T where
  bel := by rw [setCCF_bel]; exact h.bel
  ccf := by
    intro K b hb e he
    rw [find_setCCF] at hb
    split at hb
    · rw [← Option.some.inj hb] at he
      rcases (Buf.mem_insertMap _ (ho.getD J) _ _ _).mp he with he | he
      · rw [he]; exact ht
      · cases hf : i.ccf.find J with
        | none => rw [hf] at he; simp at he
        | some b0 => rw [hf] at he; exact h.ccf J b0 hf e he.1
    · exact h.ccf K b hb e he

theorem fac_le {i : Inst} {T : Int} (h : i.UpTo T) (ho : i.Ord) {J t M} (hf : i.fac J t = some M) : t ≤ T := by
  unfold fac at hf
  cases hb : i.ccf.find J with
  | none => rw [hb] at hf; simp at hf
  | some b =>
    rw [hb] at hf
    exact Buf.absMap_le b (ho.buf J b hb) T (h.ccf J b hb) t M hf

theorem find_checkHorizon (fp : FP) (i : Inst) (J : ℕ) :
    (i.checkHorizon fp).ccf.find J = (i.ccf.find J).map (fun b => Buf.checkHorizonRestricted fp i.hor b 4) := by
  exact SMap.find_mapV (fun b => Buf.checkHorizonRestricted fp i.hor b 4) i.ccf J

theorem Ord.checkHorizon {i : Inst} (h : i.Ord) (fp : FP) : (i.checkHorizon fp).Ord where
  bel := Buf.strict_horizonRestricted _ _ _ _ h.bel
  ccf := h.ccf.mapV (fun b => Buf.checkHorizonRestricted fp i.hor b 4)
  buf := by
    intro J b hb
    rw [find_checkHorizon] at hb
    obtain ⟨b0, h0, rfl⟩ := Option.map_eq_some_iff.mp hb
    exact Buf.strict_horizonRestricted _ _ _ _ (h.buf J b0 h0)

theorem UpTo.checkHorizon {i : Inst} {T : Int} (h : i.UpTo T) (fp : FP) : (i.checkHorizon fp).UpTo T where
  bel := fun e he => h.bel e (Buf.mem_horizonRestricted _ _ _ _ e he)
  ccf := by
    intro J b hb e he
    rw [find_checkHorizon] at hb
    obtain ⟨b0, h0, rfl⟩ := Option.map_eq_some_iff.mp hb
    exact h.ccf J b0 h0 e (Buf.mem_horizonRestricted _ _ _ _ e he)

theorem fac_checkHorizon {i : Inst} {T : Int} (h : i.UpTo T) (ho : i.Ord) (fp : FP) (J : ℕ) :
    (i.checkHorizon fp).fac J T = i.fac J T := by
  unfold fac
  rw [find_checkHorizon]
  cases hf : i.ccf.find J with
  | none => rfl
  | some b => exact Buf.absMap_horizonRestricted fp i.hor b 4 (ho.buf J b hf) T (h.ccf J b hf)

/-- Trimming only forgets. -/
theorem fac_checkHorizon_sub {i : Inst} (ho : i.Ord) (fp : FP) (J : ℕ) (t : Int) (M : Mat)
    (hM : (i.checkHorizon fp).fac J t = some M) : i.fac J t = some M := by
  unfold fac at hM ⊢
  rw [find_checkHorizon] at hM
  cases hf : i.ccf.find J with
  | none => rw [hf] at hM; simp at hM
  | some b =>
    rw [hf] at hM
    simp only [Option.map_some, Option.bind_some] at hM ⊢
    rw [Buf.absMap_eq_some _ (Buf.strict_horizonRestricted _ _ _ _ (ho.buf J b hf))] at hM
    rw [Buf.absMap_eq_some _ (ho.buf J b hf)]
    exact Buf.mem_horizonRestricted _ _ _ _ _ hM

theorem beliefAt_checkHorizon {i : Inst} {T : Int} (h : i.UpTo T) (ho : i.Ord) (fp : FP) :
    (i.checkHorizon fp).beliefAt T = i.beliefAt T :=
  Buf.absMap_horizonRestricted fp i.hor i.bel 4 ho.bel T h.bel

/-! ## Propagation -/

/-- State after a successful propagation: belief stored, factors multiplied, history trimmed. -/
noncomputable def propagated (fp : FP) (i : Inst) (b : Belief) (Phi : Mat) (ta tb : Int) : Inst :=
  ((i.setBelief b tb).mulFac ta tb Phi).checkHorizon fp

theorem covPropagation_eq {S Phi Q : Mat} {n : ℕ} (hS : S.Shape n n) (hP : Phi.Shape n n) (hQ : Q.Shape n n) :
    covPropagation S Phi Q false = .ok (Phi * S * Phi.tr + Q) := by
  unfold covPropagation
  rw [if_pos ((checkDimQ_iff S Phi Q).mpr ⟨by rw [hP.1, hS.1], by rw [hP.2, hS.1], by rw [hQ.1, hS.1], by rw [hQ.2, hS.1]⟩)]
  simp only [Bool.false_eq_true, if_false]
  rw [hP.mulC hS, Res.bind_ok, (hP.mul hS).mulC hP.tr, Res.bind_ok, ((hP.mul hS).mul hP.tr).addC hQ]

theorem checkDimMean_iff (m S : Mat) : checkDimMean m S = true ↔ m.cols = 1 ∧ m.rows = S.rows ∧ S.rows = S.cols := by
  unfold checkDimMean
  simp only [Bool.not_eq_true', Bool.or_eq_false_iff, bne_eq_false_iff_eq]
  tauto

theorem basePropEKF_ok (i : Inst) (ba : Belief) (mb Phi Q : Mat) (tb : Int) {n : ℕ} (hS : ba.Sigma.Shape n n)
    (hP : Phi.Shape n n) (hQ : Q.Shape n n) (hm : mb.Shape n 1) :
    i.basePropEKF ba mb Phi Q tb =
      .ok (i.setBelief { ba with mean := mb, Sigma := Phi * ba.Sigma * Phi.tr + Q, stamp := tb } tb, true) := by
  unfold basePropEKF
  rw [if_pos ((checkDimQ_iff _ Phi Q).mpr ⟨by rw [hP.1, hS.1], by rw [hP.2, hS.1], by rw [hQ.1, hS.1], by rw [hQ.2, hS.1]⟩),
    covPropagation_eq hS hP hQ, Res.bind_ok]
  have hn : (Phi * ba.Sigma * Phi.tr + Q).Shape n n := ((hP.mul hS).mul hP.tr).add
  have hc : checkDimMean mb (Phi * ba.Sigma * Phi.tr + Q) = true :=
    (checkDimMean_iff _ _).mpr ⟨hm.2, by rw [hm.1, hn.1], by rw [hn.1, hn.2]⟩
  rw [if_pos hc]
  unfold Belief.set
  simp [hc]

/-- What a `true` of the base propagation entails. -/
theorem basePropEKF_true (i : Inst) (ba : Belief) (mb Phi Q : Mat) (tb : Int) {n : ℕ} (hS : ba.Sigma.Shape n n) (j : Inst)
    (h : i.basePropEKF ba mb Phi Q tb = .ok (j, true)) :
    Phi.Shape n n ∧ Q.Shape n n ∧ mb.Shape n 1 ∧
      j = i.setBelief { ba with mean := mb, Sigma := Phi * ba.Sigma * Phi.tr + Q, stamp := tb } tb := by
  by_cases hd : checkDimQ ba.Sigma Phi Q = true
  · have hd' := (checkDimQ_iff _ _ _).mp hd
    rw [hS.1] at hd'
    have hP : Phi.Shape n n := ⟨hd'.1, hd'.2.1⟩
    have hQ : Q.Shape n n := ⟨hd'.2.2.1, hd'.2.2.2⟩
    have hn : (Phi * ba.Sigma * Phi.tr + Q).Shape n n := ((hP.mul hS).mul hP.tr).add
    have hm : mb.Shape n 1 := by
      unfold basePropEKF at h
      rw [if_pos hd, covPropagation_eq hS hP hQ, Res.bind_ok] at h
      by_cases hc : checkDimMean mb (Phi * ba.Sigma * Phi.tr + Q) = true
      · have := (checkDimMean_iff _ _).mp hc
        rw [hn.1] at this
        exact ⟨this.2.1, this.1⟩
      · rw [if_neg hc] at h; simp at h
    refine ⟨hP, hQ, hm, ?_⟩
    rw [basePropEKF_ok i ba mb Phi Q tb hS hP hQ hm] at h
    exact (Prod.mk.inj (Res.ok.inj h)).1.symm
  · unfold basePropEKF at h
    rw [if_neg hd] at h; simp at h

theorem basePropEKF_false (i : Inst) (ba : Belief) (mb Phi Q : Mat) (tb : Int) (j : Inst)
    (h : i.basePropEKF ba mb Phi Q tb = .ok (j, false)) : j = i := by
  unfold basePropEKF at h
  split at h
  · cases hc : covPropagation ba.Sigma Phi Q false with
    | throws => rw [hc] at h; simp at h
    | ub => rw [hc] at h; simp at h
    | ok S =>
      rw [hc, Res.bind_ok] at h
      split at h
      · simp only at h
        split at h
        · simp at h
        · exact (Prod.mk.inj (Res.ok.inj h)).1.symm
      · exact (Prod.mk.inj (Res.ok.inj h)).1.symm
  · exact (Prod.mk.inj (Res.ok.inj h)).1.symm

theorem propEKF_ok (fp : FP) {i : Inst} (ho : i.Ord) (ba : Belief) (mb Phi Q : Mat) (ta tb : Int) {n : ℕ} (hS : ba.Sigma.Shape n n)
    (hP : Phi.Shape n n) (hQ : Q.Shape n n) (hm : mb.Shape n 1) (hF : ∀ J M, i.fac J ta = some M → M.rows = n) :
    i.propEKF fp ba mb Phi Q ta tb =
      .ok (i.propagated fp { ba with mean := mb, Sigma := Phi * ba.Sigma * Phi.tr + Q, stamp := tb } Phi ta tb, true) := by
  unfold propEKF
  rw [basePropEKF_ok i ba mb Phi Q tb hS hP hQ hm, Res.bind_ok]
  simp only [if_true]
  rw [addCorrection_ok (ho.setBelief _ _) ta tb Phi (fun J M hM => by rw [hP.2, hF J M hM])]
  rfl

theorem propEKF_true (fp : FP) {i : Inst} (ho : i.Ord) (ba : Belief) (mb Phi Q : Mat) (ta tb : Int) {n : ℕ} (hS : ba.Sigma.Shape n n)
    (hF : ∀ J M, i.fac J ta = some M → M.rows = n) (j : Inst) (h : i.propEKF fp ba mb Phi Q ta tb = .ok (j, true)) :
    Phi.Shape n n ∧ Q.Shape n n ∧ mb.Shape n 1 ∧
      j = i.propagated fp { ba with mean := mb, Sigma := Phi * ba.Sigma * Phi.tr + Q, stamp := tb } Phi ta tb := by
  have h0 := h
  unfold propEKF at h
  cases hb : i.basePropEKF ba mb Phi Q tb with
  | throws => rw [hb] at h; simp at h
  | ub => rw [hb] at h; simp at h
  | ok r =>
    obtain ⟨j1, ok⟩ := r
    rw [hb, Res.bind_ok] at h
    cases ok with
    | false => simp at h
    | true =>
      obtain ⟨hP, hQ, hm, -⟩ := basePropEKF_true i ba mb Phi Q tb hS j1 hb
      refine ⟨hP, hQ, hm, ?_⟩
      rw [propEKF_ok fp ho ba mb Phi Q ta tb hS hP hQ hm hF] at h0
      exact (Prod.mk.inj (Res.ok.inj h0)).1.symm

theorem propEKF_false (fp : FP) (i : Inst) (ba : Belief) (mb Phi Q : Mat) (ta tb : Int) (j : Inst)
    (h : i.propEKF fp ba mb Phi Q ta tb = .ok (j, false)) : j = i := by
  unfold propEKF at h
  cases hb : i.basePropEKF ba mb Phi Q tb with
  | throws => rw [hb] at h; simp at h
  | ub => rw [hb] at h; simp at h
  | ok r =>
    obtain ⟨j1, ok⟩ := r
    rw [hb, Res.bind_ok] at h
    cases ok with
    | false =>
      have := basePropEKF_false i ba mb Phi Q tb j1 hb
      simp only [Bool.false_eq_true, if_false] at h
      rw [← (Prod.mk.inj (Res.ok.inj h)).1, this]
    | true =>
      simp only [if_true] at h
      cases hc : j1.addCorrection ta tb Phi with
      | throws => rw [hc] at h; simp at h
      | ub => rw [hc] at h; simp at h
      | ok x => rw [hc] at h; simp at h

/-- What a successful propagation of an instance that stored nothing after `ta` does. -/
structure PropFacts (i j : Inst) (b : Belief) (Phi : Mat) (ta tb : Int) : Prop where
  ord : j.Ord
  upTo : j.UpTo tb
  bel : j.beliefAt tb = some b
  fac : ∀ J, j.fac J tb = (i.fac J ta).map (Phi * ·)
  /-- older factors are kept or trimmed, never changed -/
  old : ∀ J t M, t ≠ tb → j.fac J t = some M → i.fac J t = some M

theorem propagated_facts (fp : FP) {i : Inst} (ho : i.Ord) {ta tb : Int} (hu : i.UpTo ta) (hlt : ta < tb) (b : Belief) (Phi : Mat) :
    PropFacts i (i.propagated fp b Phi ta tb) b Phi ta tb := by
  have hu' : i.UpTo tb := hu.mono hlt.le
  have o1 := ho.setBelief b tb
  have u1 := hu'.setBelief ho b tb le_rfl
  have o2 := o1.mulFac ta tb Phi
  have u2 := u1.mulFac o1 ta tb Phi le_rfl
  refine ⟨o2.checkHorizon fp, u2.checkHorizon fp, ?_, ?_, ?_⟩
  · unfold propagated
    rw [beliefAt_checkHorizon u2 o2]
    show (i.setBelief b tb).beliefAt tb = _
    rw [beliefAt_setBelief ho, if_pos rfl]
  · intro J
    unfold propagated
    rw [fac_checkHorizon u2 o2, fac_mulFac o1, setBelief_fac, setBelief_fac]
    cases hf : i.fac J ta with
    | some M => simp
    | none =>
      simp only [Option.isSome_none, Bool.false_eq_true, and_false, if_false, Option.map_none]
      cases hg : i.fac J tb with
      | none => rfl
      | some M => exact absurd (fac_le hu ho hg) (by omega)
  · intro J t M hne hM
    have := fac_checkHorizon_sub o2 fp J t M hM
    rwa [fac_mulFac o1, if_neg (fun hh => hne hh.1), setBelief_fac] at this

/-- Repeating the factor propagation changes nothing (the KF overload does it twice). -/
theorem PropFacts.again (fp : FP) {i j : Inst} {b : Belief} {Phi : Mat} {ta tb : Int} (h : PropFacts i j b Phi ta tb) (hlt : ta < tb) :
    PropFacts i ((j.mulFac ta tb Phi).checkHorizon fp) b Phi ta tb := by
  have o2 := h.ord.mulFac ta tb Phi
  have u2 := h.upTo.mulFac h.ord ta tb Phi le_rfl
  refine ⟨o2.checkHorizon fp, u2.checkHorizon fp, ?_, ?_, ?_⟩
  · rw [beliefAt_checkHorizon u2 o2]; exact h.bel
  · intro J
    rw [fac_checkHorizon u2 o2, fac_mulFac h.ord]
    cases hf : j.fac J ta with
    | some M => rw [h.old J ta M (by omega) hf]; simp
    | none => simpa using h.fac J
  · intro J t M hne hM
    have := fac_checkHorizon_sub o2 fp J t M hM
    rw [fac_mulFac h.ord, if_neg (fun hh => hne hh.1)] at this
    exact h.old J t M hne this

theorem propKF_true (fp : FP) {i : Inst} (ho : i.Ord) (Phi Q : Mat) {ta tb : Int} (hu : i.UpTo ta) (hlt : ta < tb) {n : ℕ} (ba : Belief)
    (hba : i.beliefAt ta = some ba) (hS : ba.Sigma.Shape n n) (hm : ba.mean.Shape n 1)
    (hF : ∀ J M, i.fac J ta = some M → M.rows = n) (j : Inst) (h : i.propKF fp Phi Q ta tb = .ok (j, true)) :
    Phi.Shape n n ∧ Q.Shape n n ∧
      PropFacts i j { ba with mean := Phi * ba.mean, Sigma := Phi * ba.Sigma * Phi.tr + Q, stamp := tb } Phi ta tb := by
  unfold propKF at h
  rw [hba] at h
  simp only at h
  by_cases hd : checkDimMean ba.mean Phi = true
  · rw [if_pos hd] at h
    have hd' := (checkDimMean_iff _ _).mp hd
    have hP : Phi.Shape n n := ⟨by rw [← hd'.2.1, hm.1], by rw [← hd'.2.2, ← hd'.2.1, hm.1]⟩
    rw [hP.mulC hm, Res.bind_ok] at h
    cases he : i.propEKF fp ba (Phi * ba.mean) Phi Q ta tb with
    | throws => rw [he] at h; simp at h
    | ub => rw [he] at h; simp at h
    | ok r =>
      obtain ⟨j1, ok⟩ := r
      rw [he, Res.bind_ok] at h
      cases ok with
      | false => simp at h
      | true =>
        simp only [if_true] at h
        obtain ⟨-, hQ, -, hj1⟩ := propEKF_true fp ho ba (Phi * ba.mean) Phi Q ta tb hS hF j1 he
        have hf := propagated_facts fp ho hu hlt { ba with mean := Phi * ba.mean, Sigma := Phi * ba.Sigma * Phi.tr + Q, stamp := tb } Phi
        rw [← hj1] at hf
        rw [addCorrection_ok hf.ord ta tb Phi (fun J M hM => by rw [hP.2, hF J M (hf.old J ta M (by omega) hM)])] at h
        have : j = (j1.mulFac ta tb Phi).checkHorizon fp := (Prod.mk.inj (Res.ok.inj h)).1.symm
        rw [this]
        exact ⟨hP, hQ, hf.again fp hlt⟩
  · rw [if_neg hd] at h; simp at h

theorem addAfter_false (fp : FP) (x : Res (Inst × Bool)) (Phi : Mat) (ta tb : Int) (j : Inst)
    (h : (x >>= fun r => if r.2 = true then (r.1.addCorrection ta tb Phi >>= fun j => Res.ok (checkHorizon fp j, true))
      else Res.ok (r.1, false)) = .ok (j, false)) : x = .ok (j, false) := by
  cases x with
  | throws => simp at h
  | ub => simp at h
  | ok r =>
    obtain ⟨j1, ok⟩ := r
    rw [Res.bind_ok] at h
    cases ok with
    | true =>
      simp only [if_true] at h
      cases hc : j1.addCorrection ta tb Phi with
      | throws => rw [hc] at h; simp at h
      | ub => rw [hc] at h; simp at h
      | ok y => rw [hc] at h; simp at h
    | false => simpa using h

theorem propKF_false (fp : FP) (i : Inst) (Phi Q : Mat) (ta tb : Int) (j : Inst)
    (h : i.propKF fp Phi Q ta tb = .ok (j, false)) : j = i := by
  unfold propKF at h
  have hx := addAfter_false fp _ Phi ta tb j h
  cases hb : i.beliefAt ta with
  | none => rw [hb] at hx; exact (Prod.mk.inj (Res.ok.inj hx)).1.symm
  | some ba =>
    rw [hb] at hx
    simp only at hx
    split at hx
    · cases hm : Phi *! ba.mean with
      | throws => rw [hm] at hx; simp at hx
      | ub => rw [hm] at hx; simp at hx
      | ok mb => rw [hm, Res.bind_ok] at hx; exact propEKF_false fp i ba mb Phi Q ta tb j hx
    · exact (Prod.mk.inj (Res.ok.inj hx)).1.symm

theorem propBel_true (fp : FP) {i : Inst} (ho : i.Ord) (bb : Belief) (Phi : Mat) {ta tb : Int} (hu : i.UpTo ta) (hlt : ta < tb) {n : ℕ}
    (hS : bb.Sigma.rows = n) (hF : ∀ J M, i.fac J ta = some M → M.rows = n) (j : Inst)
    (h : i.propBel fp bb Phi ta tb = .ok (j, true)) :
    Phi.Shape n n ∧ PropFacts i j { bb with stamp := tb } Phi ta tb := by
  unfold propBel at h
  by_cases hd : checkDimPhi bb.Sigma Phi = true
  · rw [if_pos hd] at h
    have hP : Phi.Shape n n := by
      unfold checkDimPhi at hd
      simp only [Bool.not_eq_true', Bool.or_eq_false_iff, bne_eq_false_iff_eq, hS] at hd
      exact ⟨hd.1.symm, hd.2.symm⟩
    rw [addCorrection_ok (ho.setBelief _ _) ta tb Phi (fun J M hM => by rw [hP.2, hF J M hM])] at h
    have : j = i.propagated fp { bb with stamp := tb } Phi ta tb := (Prod.mk.inj (Res.ok.inj h)).1.symm
    rw [this]
    exact ⟨hP, propagated_facts fp ho hu hlt _ _⟩
  · rw [if_neg hd] at h; simp at h

theorem propBel_false (fp : FP) (i : Inst) (bb : Belief) (Phi : Mat) (ta tb : Int) (j : Inst)
    (h : i.propBel fp bb Phi ta tb = .ok (j, false)) : j = i := by
  unfold propBel at h
  split at h
  · cases hc : (i.setBelief { bb with stamp := tb } tb).addCorrection ta tb Phi with
    | throws => rw [hc] at h; simp at h
    | ub => rw [hc] at h; simp at h
    | ok y => rw [hc] at h; simp at h
  · exact (Prod.mk.inj (Res.ok.inj h)).1.symm

/-! ## Private observation -/

/-- Accepted corrections fit. -/
theorem correctionStep_accept {H R r S : Mat} {n : ℕ} (hS : S.Shape n n) (cfg : Cfg) (res : CorrRes)
    (h : correctionStep H R r S cfg = .ok res) (hr : res.rejected = false) :
    ObsShape H R r S n H.rows ∧
      res = ⟨postM H R S cfg, gainM H R S cfg.eps * r, updM H R S cfg.eps, false⟩ := by
  by_cases hd : checkDimObs H R r S = true
  · have hd' := (checkDimObs_iff _ _ _ _).mp hd
    have hO : ObsShape H R r S n H.rows :=
      ⟨⟨rfl, by rw [hd'.1, hS.1]⟩, ⟨hd'.2.2.2.1, hd'.2.2.2.2⟩, ⟨hd'.2.1, hd'.2.2.1⟩, hS⟩
    refine ⟨hO, ?_⟩
    rw [correctionStep_eq hO] at h
    generalize (if cfg.outlier then do
        let good ← checkNIS (innov H R S cfg.eps) r cfg.conf
        .ok (!good)
      else .ok false : Res Bool) = x at h
    cases x with
    | throws => simp at h
    | ub => simp at h
    | ok b =>
      simp only [Res.bind_ok, Res.ok.injEq] at h
      rw [← h] at hr ⊢
      simp only at hr
      rw [hr]
  · unfold correctionStep at h
    rw [if_neg hd] at h
    rw [← Res.ok.inj h] at hr
    simp [CorrRes.dflt] at hr

/-- What an accepted private observation at `t` does. -/
structure PrivFacts (i j : Inst) (b : Belief) (U : Mat) (t : Int) : Prop where
  ord : j.Ord
  upTo : ∀ T, i.UpTo T → t ≤ T → j.UpTo T
  bel : ∀ t', j.beliefAt t' = if t' = t then some b else i.beliefAt t'
  fac : ∀ J t', j.fac J t' = if t' = t then (i.fac J t).map (U * ·) else i.fac J t'

theorem privEKF_true {i : Inst} (ho : i.Ord) (b : Belief) (t : Int) (hst : b.stamp = t) (H R r : Mat) (cfg : Cfg) {n : ℕ}
    (hS : b.Sigma.Shape n n) (hm : b.mean.Shape n 1) (hF : ∀ J M, i.fac J t = some M → M.rows = n) (j : Inst)
    (h : i.privEKF b t H R r cfg = .ok (j, true)) :
    ∃ res, correctionStep H R r b.Sigma cfg = .ok res ∧ res.rejected = false ∧ ObsShape H R r b.Sigma n H.rows ∧
      PrivFacts i j { b with mean := b.mean + res.dx, Sigma := res.Sapos } res.U t := by
  unfold privEKF at h
  cases hc : correctionStep H R r b.Sigma cfg with
  | throws => rw [hc] at h; simp at h
  | ub => rw [hc] at h; simp at h
  | ok res =>
    rw [hc, Res.bind_ok] at h
    cases hr : res.rejected with
    | true => rw [hr] at h; simp at h
    | false =>
      obtain ⟨hO, hres⟩ := correctionStep_accept hS cfg res hc hr
      have hU : res.U.Shape n n := by rw [hres]; exact updM_shape hO _
      have hdx : res.dx.Shape n 1 := by rw [hres]; exact (gainM_shape hO _).mul hO.r
      rw [hr, hst] at h
      simp only [Bool.not_false, if_true] at h
      rw [applyCorrection_ok ho t res.U (fun J M hM => by rw [hU.2, hF J M hM]), Res.bind_ok] at h
      unfold Belief.correct at h
      rw [hm.addC hdx, Res.bind_ok, Res.bind_ok] at h
      have hj := (Prod.mk.inj (Res.ok.inj h)).1
      have o1 := ho.mulFac t t res.U
      refine ⟨res, rfl, hr, hO, ?_⟩
      rw [← hj]
      refine ⟨o1.setBelief _ _, fun T hT htT => (hT.mulFac ho t t res.U htT).setBelief o1 _ _ htT, ?_, ?_⟩
      · intro t'; exact beliefAt_setBelief o1 _ _ _
      · intro J t'
        show (i.mulFac t t res.U).fac J t' = _
        rw [fac_mulFac ho]
        by_cases ht : t' = t
        · subst ht
          cases hf : i.fac J t' <;> simp
        · simp [ht]

theorem privEKF_false (i : Inst) (b : Belief) (t : Int) (H R r : Mat) (cfg : Cfg) (j : Inst)
    (h : i.privEKF b t H R r cfg = .ok (j, false)) : j = i := by
  unfold privEKF at h
  cases hc : correctionStep H R r b.Sigma cfg with
  | throws => rw [hc] at h; simp at h
  | ub => rw [hc] at h; simp at h
  | ok res =>
    rw [hc, Res.bind_ok] at h
    split at h
    · cases h1 : i.applyCorrection b.stamp res.U with
      | throws => rw [h1] at h; simp at h
      | ub => rw [h1] at h; simp at h
      | ok x =>
        rw [h1, Res.bind_ok] at h
        cases h2 : b.correct res.dx res.Sapos with
        | throws => rw [h2] at h; simp at h
        | ub => rw [h2] at h; simp at h
        | ok y => rw [h2] at h; simp at h
    · exact (Prod.mk.inj (Res.ok.inj h)).1.symm

end Inst
end Ikf
