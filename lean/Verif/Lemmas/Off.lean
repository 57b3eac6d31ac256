import Verif.Lemmas.Frame
import Verif.Props.FactorStore
import Verif.Props.Progress
import Verif.Lemmas.HandlerInv

/-! # Operations of the isolated filters at time `t` change nothing stored at other times; cutting histories -/

namespace Ikf
open Mat

namespace Inst

theorem bufMul_inv {ta tb : Int} {F : Mat} {b b' : Buf Mat} (h : bufMul ta tb F b = .ok b') : b' = bufMulV ta tb F b := by
  unfold bufMul at h
  unfold bufMulV
  split at h
  · cases hg : b.getAt ta with
    | none =>
      rw [hg] at h
      have hm : b.absMap ta = none := by unfold Buf.absMap; rw [hg]; rfl
      rw [hm]; exact (Res.ok.inj h).symm
    | some e =>
      rw [hg] at h
      have hm : b.absMap ta = some e.2 := by unfold Buf.absMap; rw [hg]; rfl
      rw [hm]
      obtain ⟨x, hx, h⟩ := Hdl.bind_eq_ok h
      have e0 : x = F * e.2 := by
        unfold Mat.mulC at hx; split at hx
        · exact (Res.ok.inj hx).symm
        · simp at hx
      rw [← Res.ok.inj h, e0]
  · rename_i hne
    have hm : b.absMap ta = none := by
      unfold Buf.absMap
      rw [Option.map_eq_none_iff, Buf.getAt_eq_none]
      intro e he het
      exact hne ((Buf.existAt_iff b ta).mpr ⟨e, he, het⟩)
    rw [hm]; exact (Res.ok.inj h).symm

theorem mapR_bufMul_inv {ta tb : Int} {F : Mat} (m m' : SMap (Buf Mat)) (h : m.mapR (bufMul ta tb F) = .ok m') :
    m' = m.mapV (bufMulV ta tb F) := by
  induction m generalizing m' with
  | nil => exact (Res.ok.inj h).symm
  | cons a r ih =>
    have h : (bufMul ta tb F a.2 >>= fun w => SMap.mapR (bufMul ta tb F) r >>= fun rs => Res.ok ((a.1, w) :: rs)) = .ok m' := h
    obtain ⟨w, hw, h⟩ := Hdl.bind_eq_ok h
    obtain ⟨rs, hr, h⟩ := Hdl.bind_eq_ok h
    rw [← Res.ok.inj h, ih rs hr, bufMul_inv hw]
    rfl

theorem addCorrection_inv {i j : Inst} {ta tb : Int} {F : Mat} (h : i.addCorrection ta tb F = .ok j) : j = i.mulFac ta tb F := by
  unfold addCorrection at h
  obtain ⟨c, hc, h⟩ := Hdl.bind_eq_ok h
  rw [← Res.ok.inj h, mapR_bufMul_inv _ _ hc]; rfl

/-- `j` differs from `i` at time `t` only. -/
structure OffI (t : Int) (i j : Inst) : Prop where
  ord : j.Ord
  bel : ∀ s, s ≠ t → j.beliefAt s = i.beliefAt s
  fac : ∀ q s, s ≠ t → j.fac q s = i.fac q s
  hor : j.hor = i.hor

theorem OffI.refl {t : Int} {i : Inst} (h : i.Ord) : OffI t i i := ⟨h, fun _ _ => rfl, fun _ _ _ => rfl, rfl⟩

theorem OffI.trans {t : Int} {i j k : Inst} (h1 : OffI t i j) (h2 : OffI t j k) : OffI t i k :=
  ⟨h2.ord, fun s hs => (h2.bel s hs).trans (h1.bel s hs), fun q s hs => (h2.fac q s hs).trans (h1.fac q s hs), h2.hor.trans h1.hor⟩

theorem offI_setCCF {i : Inst} (h : i.Ord) (t : Int) (J : ℕ) (M : Mat) : OffI t i (i.setCCF t J M) := by
  refine ⟨h.setCCF t J M, fun s _ => Hdl.beliefAt_setCCF i t J M s, ?_, setCCF_hor i t J M⟩
  intro q s hs
  rw [fac_setCCF h, if_neg (fun hh => hs hh.2)]

theorem offI_setBelief {i : Inst} (h : i.Ord) (b : Belief) (t : Int) : OffI t i (i.setBelief b t) := by
  refine ⟨h.setBelief b t, ?_, fun q s _ => rfl, rfl⟩
  intro s hs
  rw [beliefAt_setBelief h, if_neg hs]

theorem offI_mulFac {i : Inst} (h : i.Ord) (ta t : Int) (F : Mat) : OffI t i (i.mulFac ta t F) := by
  refine ⟨h.mulFac ta t F, fun s _ => rfl, ?_, rfl⟩
  intro q s hs
  rw [fac_mulFac h, if_neg (fun hh => hs hh.1)]

theorem offI_applyCorrectionSigma {i j : Inst} (h : i.Ord) {t : Int} {A B : Mat} (hs : i.applyCorrectionSigma t A B = .ok j) : OffI t i j := by
  unfold applyCorrectionSigma at hs
  obtain ⟨x, _, hs⟩ := Hdl.bind_eq_ok hs
  obtain ⟨y, _, hs⟩ := Hdl.bind_eq_ok hs
  rw [addCorrection_inv (ta := t) (tb := t) hs]
  exact offI_mulFac h t t y

/-! ## What trimming keeps -/

theorem cut_keeps (fp : FP) {hor : ℚ} {l x s keep : Int} (h0 : 0 ≤ l) (hl : l ≤ x) (hx : x ≤ 8589934590000000000) (hk0 : 0 ≤ keep)
    (hk : (keep : ℚ) + 10000 ≤ hor * 1000000000) (hh : hor ≤ 10000000000) (hs : x - s ≤ keep) : fp.cutKey (fp.secOfKey l) hor ≤ s := by
  have e1 : |fp.secOfKey l - (l : ℚ) / 1000000000| ≤ 1 / 500000 := fp.secOfKey_err l h0 (by omega)
  have q0 : (0 : ℚ) ≤ l := by exact_mod_cast h0
  have q1 : (l : ℚ) ≤ x := by exact_mod_cast hl
  have q2 : (x : ℚ) ≤ 8589934590000000000 := by exact_mod_cast hx
  have q3 : (0 : ℚ) ≤ keep := by exact_mod_cast hk0
  have q4 : (x : ℚ) - s ≤ keep := by exact_mod_cast hs
  have hhor : 0 ≤ hor := by linarith
  rw [abs_le] at e1
  have b1 : (l : ℚ) / 1000000000 ≤ 8589934590 := by linarith
  have b0 : 0 ≤ (l : ℚ) / 1000000000 := by positivity
  have hb : |fp.secOfKey l - hor| ≤ 10000000001 := by rw [abs_le]; constructor <;> linarith
  have e2 := fp.rnd_err _ _ hb
  unfold FP.cutKey
  set d := fp.rnd (fp.secOfKey l - hor) with hd
  rw [abs_le] at e2 hb
  norm_num at e2
  have hlo : -9007199254740992 ≤ ⌊d⌋ := by rw [Int.le_floor]; push_cast; linarith
  have hhi : ⌊d⌋ ≤ 8589934591 := by
    have : ⌊d⌋ < 8589934592 := by rw [Int.floor_lt]; push_cast; linarith
    omega
  have e3 := fp.fromSec_err d hlo hhi
  rw [abs_le] at e3
  have : ((fp.fromSec d).ns : ℚ) ≤ s := by linarith
  exact_mod_cast this

/-- Trimming a history of times up to `x` keeps what is not older than `x - keep`. -/
theorem restricted_keeps {α : Type _} (fp : FP) {hor : ℚ} {x keep : Int} (b : Buf α) (hst : b.StrictKeys) (n : ℕ) (hb : ∀ e ∈ b, 0 ≤ e.1 ∧ e.1 ≤ x)
    (hx : x ≤ 8589934590000000000) (hk0 : 0 ≤ keep) (hk : (keep : ℚ) + 10000 ≤ hor * 1000000000 ∨ fp.secOfKey x ≤ hor) (s : Int) :
    (Buf.checkHorizonRestricted fp hor b n).absMap s = b.absMap s ∨
      (s < x - keep ∧ (Buf.checkHorizonRestricted fp hor b n).absMap s = none) := by
  unfold Buf.checkHorizonRestricted
  split
  swap
  · exact Or.inl rfl
  rename_i hc
  have hne : b ≠ [] := by rintro rfl; simp at hc
  obtain ⟨o, l, ho, hl⟩ := head_last_of_ne b hne
  have hlat : b.latest = some l := hl
  rw [hlat]
  simp only
  have hlm := List.mem_of_getLast? hl
  have hl0 := hb l hlm
  have hk : (keep : ℚ) + 10000 ≤ hor * 1000000000 := by
    rcases hk with hk | hk
    · exact hk
    · exfalso
      have h2 := hc.2
      rw [horizon_eq fp b o l ho hl] at h2
      have ho0 := hb o (List.mem_of_head? ho)
      have m1 := secOfKey_mono fp l.1 x hl0.1 (by omega) hl0.2
      have m2 := secOfKey_mono fp 0 o.1 le_rfl (by omega) ho0.1
      have z : fp.secOfKey 0 = 0 := by
        have := fp.rnd_zero
        unfold FP.secOfKey FP.toSec Timestamp.ofStampNs
        simp [this]
      have : fp.rnd (fp.secOfKey l.1 - fp.secOfKey o.1) ≤ fp.rnd (fp.secOfKey x) := fp.mono _ _ (by linarith)
      have i : fp.rnd (fp.secOfKey x) = fp.secOfKey x := fp.idem _
      linarith
  have hh : hor ≤ 10000000000 := by
    by_contra hcon
    push Not at hcon
    have h2 := hc.2
    rw [horizon_eq fp b o l ho hl] at h2
    have ho0 := hb o (List.mem_of_head? ho)
    have e1 : |fp.secOfKey l.1 - (l.1 : ℚ) / 1000000000| ≤ 1 / 500000 := fp.secOfKey_err l.1 hl0.1 (by omega)
    have e2 : |fp.secOfKey o.1 - (o.1 : ℚ) / 1000000000| ≤ 1 / 500000 := fp.secOfKey_err o.1 ho0.1 (by omega)
    have q1 : (l.1 : ℚ) ≤ 8589934590000000000 := by exact_mod_cast (le_trans hl0.2 hx)
    have q2 : (0 : ℚ) ≤ o.1 := by exact_mod_cast ho0.1
    have b1 : (l.1 : ℚ) / 1000000000 ≤ 8589934590 := by linarith
    have b0 : 0 ≤ (o.1 : ℚ) / 1000000000 := by positivity
    rw [abs_le] at e1 e2
    have h3 : fp.secOfKey l.1 - fp.secOfKey o.1 ≤ ((10000000000 : ℤ) : ℚ) := by push_cast; linarith
    have h4 := fp.mono _ _ h3
    rw [fp.exactInt 10000000000 (by norm_num) (by norm_num)] at h4
    push_cast at h4
    linarith
  have hsr : (Buf.removeBefore b (fp.cutKey (fp.secOfKey l.1) hor)).StrictKeys :=
    List.Pairwise.sublist (removeBefore_suffix b _).sublist hst
  by_cases hcut : fp.cutKey (fp.secOfKey l.1) hor ≤ s
  · left
    rw [Buf.removeBefore_eq b hst.sorted]
    split
    · rename_i hex
      have hsf : Buf.StrictKeys (b.filter (fun e => decide (fp.cutKey (fp.secOfKey l.1) hor ≤ e.1))) := List.Pairwise.sublist List.filter_sublist hst
      apply Option.ext
      intro v
      rw [Buf.absMap_eq_some _ hsf, Buf.absMap_eq_some _ hst, List.mem_filter]
      simp [hcut]
    · rfl
  · have hlt : s < x - keep := by
      by_contra hcon
      exact hcut (cut_keeps fp hl0.1 hl0.2 hx hk0 hk hh (by omega))
    cases hm : (Buf.removeBefore b (fp.cutKey (fp.secOfKey l.1) hor)).absMap s with
    | none => exact Or.inr ⟨hlt, rfl⟩
    | some v =>
      left
      rw [Buf.absMap_eq_some _ hsr] at hm
      exact ((Buf.absMap_eq_some _ hst _ _).mpr ((removeBefore_suffix b _).subset hm)).symm

/-- Everything stored is in `[lo, hi]`. -/
def Within (i : Inst) (lo hi : Int) : Prop :=
  (∀ s b, i.beliefAt s = some b → lo ≤ s ∧ s ≤ hi) ∧ ∀ q s M, i.fac q s = some M → lo ≤ s ∧ s ≤ hi

/-- `j` differs from `i` at time `t`, and entries that are `lost` may be gone. -/
structure OffW (lost : Int → Prop) (t : Int) (i j : Inst) : Prop where
  ord : j.Ord
  bel : ∀ s, s ≠ t → j.beliefAt s = i.beliefAt s ∨ (lost s ∧ j.beliefAt s = none)
  fac : ∀ q s, s ≠ t → j.fac q s = i.fac q s ∨ (lost s ∧ j.fac q s = none)
  hor : j.hor = i.hor

theorem OffI.weak {t : Int} {i j : Inst} (h : OffI t i j) (lost : Int → Prop) : OffW lost t i j :=
  ⟨h.ord, fun s hs => Or.inl (h.bel s hs), fun q s hs => Or.inl (h.fac q s hs), h.hor⟩

theorem OffW.within {lost : Int → Prop} {t : Int} {i j : Inst} (h : OffW lost t i j) {lo hi : Int} (hw : i.Within lo hi) (h1 : lo ≤ t) (h2 : t ≤ hi) :
    j.Within lo hi := by
  refine ⟨fun s b hb => ?_, fun q s M hM => ?_⟩
  · by_cases hs : s = t
    · subst hs; exact ⟨h1, h2⟩
    · rcases h.bel s hs with e | ⟨-, e⟩
      · rw [e] at hb; exact hw.1 s b hb
      · rw [e] at hb; simp at hb
  · by_cases hs : s = t
    · subst hs; exact ⟨h1, h2⟩
    · rcases h.fac q s hs with e | ⟨-, e⟩
      · rw [e] at hM; exact hw.2 q s M hM
      · rw [e] at hM; simp at hM

theorem OffI.within {t : Int} {i j : Inst} (h : OffI t i j) {lo hi : Int} (hw : i.Within lo hi) (h1 : lo ≤ t) (h2 : t ≤ hi) : j.Within lo hi :=
  (h.weak (fun _ => False)).within hw h1 h2

/-- A propagation to `tb` forgets nothing that is not older than `tb - keep`. -/
theorem offW_propagated {fp : FP} {i : Inst} (ho : i.Ord) {keep tb : Int} (hw : i.Within 0 tb)
    (b : Belief) (Phi : Mat) (ta : Int) (h0 : 0 ≤ tb) (hx : tb ≤ 8589934590000000000) (hk0 : 0 ≤ keep)
    (hk : (keep : ℚ) + 10000 ≤ i.hor * 1000000000 ∨ fp.secOfKey tb ≤ i.hor) : OffW (fun s => s < tb - keep) tb i (i.propagated fp b Phi ta tb) := by
  have o1 := offI_setBelief ho b tb
  have o2 := o1.trans (offI_mulFac o1.ord ta tb Phi)
  have w2 := o2.within hw h0 le_rfl
  unfold propagated
  set j := (i.setBelief b tb).mulFac ta tb Phi with hj
  have hord := o2.ord
  refine ⟨?_, ?_, ?_, o2.hor⟩
  · exact hord.checkHorizon fp
  · intro s hs
    rw [← o2.bel s hs]
    exact restricted_keeps fp j.bel hord.bel 4
      (fun e he => w2.1 e.1 e.2 (by rw [beliefAt_eq, Buf.absMap_eq_some _ hord.bel]; exact he)) hx hk0 (by rw [o2.hor]; exact hk) s
  · intro q s hs
    rw [← o2.fac q s hs]
    unfold Inst.fac checkHorizon
    simp only
    rw [SMap.find_mapV]
    cases hf : j.ccf.find q with
    | none => left; rfl
    | some c =>
      simp only [Option.map_some, Option.bind_some]
      refine restricted_keeps fp c (hord.buf q c hf) 4 (fun e he => w2.2 q e.1 e.2 ?_) hx hk0 (by rw [o2.hor]; exact hk) s
      unfold Inst.fac
      rw [hf]
      exact (Buf.absMap_eq_some _ (hord.buf q c hf) _ _).mpr he

end Inst

namespace Hdl

/-- `h'` differs from `h` at time `t` only. -/
structure Off (t : Int) (h h' : Hdl) : Prop where
  sorted : h'.Sorted
  inst : ∀ p, (h.find p = none ∧ h'.find p = none) ∨ ∃ i j, h.find p = some i ∧ h'.find p = some j ∧ Inst.OffI t i j

theorem Off.refl {t : Int} {h : Hdl} (ho : Ordered h) : Off t h h := by
  refine ⟨ho.sorted, fun p => ?_⟩
  cases hf : h.find p with
  | none => exact Or.inl ⟨rfl, rfl⟩
  | some i => exact Or.inr ⟨i, i, rfl, rfl, Inst.OffI.refl (ho.inst p i hf)⟩

theorem Off.trans {t : Int} {h h1 h2 : Hdl} (a : Off t h h1) (b : Off t h1 h2) : Off t h h2 := by
  refine ⟨b.sorted, fun p => ?_⟩
  rcases a.inst p with ⟨a1, a2⟩ | ⟨i, j, a1, a2, a3⟩ <;> rcases b.inst p with ⟨b1, b2⟩ | ⟨i', j', b1, b2, b3⟩
  · exact Or.inl ⟨a1, b2⟩
  · rw [a2] at b1; simp at b1
  · rw [a2] at b1; simp at b1
  · rw [a2] at b1
    rw [← Option.some.inj b1] at b3
    exact Or.inr ⟨i, j', a1, b2, a3.trans b3⟩

theorem Off.ordered {t : Int} {h h' : Hdl} (a : Off t h h') : Ordered h' := by
  refine ⟨a.sorted, fun p i hi => ?_⟩
  rcases a.inst p with ⟨_, a2⟩ | ⟨_, j, _, a2, a3⟩
  · rw [a2] at hi; simp at hi
  · rw [a2] at hi; rw [← Option.some.inj hi]; exact a3.ord

theorem Off.set {t : Int} {h : Hdl} (ho : Ordered h) {p : ℕ} {i j : Inst} (hi : h.find p = some i) (hij : Inst.OffI t i j) :
    Off t h (h.set p j) := by
  refine ⟨ho.sorted.set _ _, fun q => ?_⟩
  rw [SMap.find_set]
  by_cases hq : p = q
  · subst hq; rw [if_pos rfl]; exact Or.inr ⟨i, j, hi, rfl, hij⟩
  · rw [if_neg hq]; exact (Off.refl ho).inst q

theorem Off.sameDom {t : Int} {h h' : Hdl} (a : Off t h h') : SameDom h h' := by
  intro p
  rcases a.inst p with ⟨a1, a2⟩ | ⟨_, _, a1, a2, _⟩ <;> rw [a1, a2] <;> rfl

theorem Off.bl {t : Int} {h h' : Hdl} (a : Off t h h') (p : ℕ) {s : Int} (hs : s ≠ t) : bl h' p s = bl h p s := by
  unfold Hdl.bl
  rcases a.inst p with ⟨a1, a2⟩ | ⟨_, _, a1, a2, a3⟩ <;> rw [a1, a2]
  exact a3.bel s hs

theorem Off.fc {t : Int} {h h' : Hdl} (a : Off t h h') (p q : ℕ) {s : Int} (hs : s ≠ t) : fc h' p q s = fc h p q s := by
  unfold Hdl.fc
  rcases a.inst p with ⟨a1, a2⟩ | ⟨_, _, a1, a2, a3⟩ <;> rw [a1, a2]
  exact a3.fac q s hs

/-- `h'` differs from `h` at time `t`, and entries that are `lost` may be gone. -/
structure OffW (lost : ℕ → Int → Prop) (t : Int) (h h' : Hdl) : Prop where
  sorted : h'.Sorted
  inst : ∀ p, (h.find p = none ∧ h'.find p = none) ∨ ∃ i j, h.find p = some i ∧ h'.find p = some j ∧ Inst.OffW (lost p) t i j

theorem Off.weak {t : Int} {h h' : Hdl} (a : Off t h h') (lost : ℕ → Int → Prop) : OffW lost t h h' := by
  refine ⟨a.sorted, fun p => ?_⟩
  rcases a.inst p with h1 | ⟨i, j, a1, a2, a3⟩
  · exact Or.inl h1
  · exact Or.inr ⟨i, j, a1, a2, a3.weak _⟩

theorem OffW.ordered {lost : ℕ → Int → Prop} {t : Int} {h h' : Hdl} (a : OffW lost t h h') : Ordered h' := by
  refine ⟨a.sorted, fun p i hi => ?_⟩
  rcases a.inst p with ⟨_, a2⟩ | ⟨_, j, _, a2, a3⟩
  · rw [a2] at hi; simp at hi
  · rw [a2] at hi; rw [← Option.some.inj hi]; exact a3.ord

theorem OffW.set {lost : ℕ → Int → Prop} {t : Int} {h : Hdl} (ho : Ordered h) {p : ℕ} {i j : Inst} (hi : h.find p = some i)
    (hij : Inst.OffW (lost p) t i j) : OffW lost t h (h.set p j) := by
  refine ⟨ho.sorted.set _ _, fun q => ?_⟩
  rw [SMap.find_set]
  by_cases hq : p = q
  · subst hq; rw [if_pos rfl]; exact Or.inr ⟨i, j, hi, rfl, hij⟩
  · rw [if_neg hq]; exact ((Off.refl ho).weak lost).inst q

theorem OffW.sameDom {lost : ℕ → Int → Prop} {t : Int} {h h' : Hdl} (a : OffW lost t h h') : SameDom h h' := by
  intro p
  rcases a.inst p with ⟨a1, a2⟩ | ⟨_, _, a1, a2, _⟩ <;> rw [a1, a2] <;> rfl

theorem OffW.bl {lost : ℕ → Int → Prop} {t : Int} {h h' : Hdl} (a : OffW lost t h h') (p : ℕ) {s : Int} (hs : s ≠ t) :
    bl h' p s = bl h p s ∨ (lost p s ∧ Hdl.bl h' p s = none) := by
  unfold Hdl.bl
  rcases a.inst p with ⟨a1, a2⟩ | ⟨_, _, a1, a2, a3⟩ <;> rw [a1, a2]
  · exact Or.inl rfl
  · exact a3.bel s hs

theorem OffW.fc {lost : ℕ → Int → Prop} {t : Int} {h h' : Hdl} (a : OffW lost t h h') (p q : ℕ) {s : Int} (hs : s ≠ t) :
    fc h' p q s = fc h p q s ∨ (lost p s ∧ Hdl.fc h' p q s = none) := by
  unfold Hdl.fc
  rcases a.inst p with ⟨a1, a2⟩ | ⟨_, _, a1, a2, a3⟩ <;> rw [a1, a2]
  · exact Or.inl rfl
  · exact a3.fac q s hs

theorem off_setSigma {h h' : Hdl} (ho : Ordered h) {I J : ℕ} {S : Mat} {t : Int} (hs : setSigma h I J S t = .ok h') : Off t h h' := by
  unfold setSigma at hs
  split at hs
  · obtain ⟨i, hi, hs⟩ := bind_eq_ok hs
    obtain ⟨j, hj, hs⟩ := bind_eq_ok hs
    have o1 := Off.set ho (get_eq_ok hi) (Inst.offI_setCCF (ho.inst _ _ (get_eq_ok hi)) t J S)
    rw [← Res.ok.inj hs]
    exact o1.trans (Off.set o1.ordered (get_eq_ok hj) (Inst.offI_setCCF (o1.ordered.inst _ _ (get_eq_ok hj)) t I _))
  · obtain ⟨i, hi, hs⟩ := bind_eq_ok hs
    obtain ⟨j, hj, hs⟩ := bind_eq_ok hs
    have o1 := Off.set ho (get_eq_ok hi) (Inst.offI_setCCF (ho.inst _ _ (get_eq_ok hi)) t I S.tr)
    rw [← Res.ok.inj hs]
    exact o1.trans (Off.set o1.ordered (get_eq_ok hj) (Inst.offI_setCCF (o1.ordered.inst _ _ (get_eq_ok hj)) t J _))

theorem off_applyCorrections {P : Mat} {t : Int} (d : SMap Belief) {row : ℕ} {h h' : Hdl} (ho : Ordered h)
    (hs : applyCorrections P t d row h = .ok h') : Off t h h' := by
  induction d generalizing row h with
  | nil => rw [← Res.ok.inj hs]; exact Off.refl ho
  | cons e r ih =>
    rw [applyCorrections] at hs
    split at hs
    · obtain ⟨B, _, hs⟩ := bind_eq_ok hs
      obtain ⟨i, hi, hs⟩ := bind_eq_ok hs
      obtain ⟨j, hj, hs⟩ := bind_eq_ok hs
      have o1 := Off.set ho (get_eq_ok hi) (Inst.offI_applyCorrectionSigma (ho.inst _ _ (get_eq_ok hi)) hj)
      exact o1.trans (ih o1.ordered hs)
    · exact ih ho hs

theorem off_splitRow {P : Mat} {t : Int} {I di row : ℕ} (r : List (ℕ × ℕ)) {col : ℕ} {h h' : Hdl} (ho : Ordered h)
    (hs : splitRow P t I di row r col h = .ok h') : Off t h h' := by
  induction r generalizing col h with
  | nil => rw [← Res.ok.inj hs]; exact Off.refl ho
  | cons e r ih =>
    obtain ⟨J, dj⟩ := e
    rw [splitRow] at hs
    obtain ⟨B, _, hs⟩ := bind_eq_ok hs
    obtain ⟨h1, e1, hs⟩ := bind_eq_ok hs
    have o1 := off_setSigma ho e1
    exact o1.trans (ih o1.ordered hs)

theorem off_splitRows {P : Mat} {t : Int} (r : List (ℕ × ℕ)) {row o : ℕ} {h h' : Hdl} (ho : Ordered h)
    (hs : splitRows P t r row o h = .ok h') : Off t h h' := by
  induction r generalizing row o h with
  | nil => rw [← Res.ok.inj hs]; exact Off.refl ho
  | cons e r ih =>
    obtain ⟨I, di⟩ := e
    rw [splitRows] at hs
    obtain ⟨h1, e1, hs⟩ := bind_eq_ok hs
    have o1 := off_splitRow r ho e1
    exact o1.trans (ih o1.ordered hs)

theorem off_correctBeliefs {P dx : Mat} {t : Int} (d : SMap Belief) {row : ℕ} {h h' : Hdl} (ho : Ordered h)
    (hs : correctBeliefs P dx t d row h = .ok h') : Off t h h' := by
  induction d generalizing row h with
  | nil => rw [← Res.ok.inj hs]; exact Off.refl ho
  | cons e r ih =>
    rw [correctBeliefs] at hs
    split at hs
    · obtain ⟨B, _, hs⟩ := bind_eq_ok hs
      obtain ⟨x, _, hs⟩ := bind_eq_ok hs
      obtain ⟨b, _, hs⟩ := bind_eq_ok hs
      obtain ⟨i, hi, hs⟩ := bind_eq_ok hs
      have o1 := Off.set ho (get_eq_ok hi) (Inst.offI_setBelief (ho.inst _ _ (get_eq_ok hi)) b t)
      exact o1.trans (ih o1.ordered hs)
    · exact ih ho hs

theorem off_commit {P dx : Mat} {t : Int} {d : SMap Belief} {h h' : Hdl} (ho : Ordered h) (hs : commit h d P dx t = .ok h') : Off t h h' := by
  unfold commit at hs
  obtain ⟨h1, e1, hs⟩ := bind_eq_ok hs
  obtain ⟨h2, e2, hs⟩ := bind_eq_ok hs
  have o1 := off_applyCorrections d ho e1
  unfold splitRightUpper at e2
  simp only at e2
  split at e2
  · simp at e2
  have o2 := o1.trans (off_splitRows _ o1.ordered e2)
  exact o2.trans (off_correctBeliefs d o2.ordered hs)

theorem off_correctJoint {near : Mat → Mat} {d : SMap Belief} {H R r S : Mat} {t : Int} {cfg : Cfg} {h h' : Hdl} {ans : Bool} (ho : Ordered h)
    (hs : correctJoint near h d H R r S t cfg = .ok (h', ans)) : Off t h h' := by
  unfold correctJoint at hs
  obtain ⟨res, _, hs⟩ := bind_eq_ok hs
  split at hs
  · obtain ⟨h1, e1, hs⟩ := bind_eq_ok hs
    obtain ⟨x1, -⟩ := Prod.mk.inj (Res.ok.inj hs)
    subst x1
    exact off_commit ho e1
  · obtain ⟨x1, -⟩ := Prod.mk.inj (Res.ok.inj hs)
    subst x1
    exact Off.refl ho

/-! ## Cutting -/

/-- Everything stored at or after `t` removed from all instances. -/
def cut (h : Hdl) (t : Int) : Hdl := h.mapV (fun i => i.removeFrom t)

end Hdl

namespace Inst

theorem absMap_cut {α : Type _} (b : Buf α) (h : b.StrictKeys) (t s : Int) :
    ((b.removeAfter t).removeAt t).absMap s = if s < t then b.absMap s else none := by
  rw [Buf.absMap_removeAt _ (Buf.strict_removeAfter b h t), Buf.absMap_removeAfter b h]
  by_cases h1 : s = t
  · subst h1; simp
  · by_cases h2 : s < t
    · rw [if_pos h2, if_neg h1, if_pos (by omega)]
    · rw [if_neg h2, if_neg h1, if_neg (by omega)]

theorem beliefAt_removeFrom {i : Inst} (ho : i.Ord) (t s : Int) :
    (i.removeFrom t).beliefAt s = if s < t then i.beliefAt s else none := absMap_cut i.bel ho.bel t s

theorem fac_removeFrom {i : Inst} (ho : i.Ord) (t : Int) (q : ℕ) (s : Int) :
    (i.removeFrom t).fac q s = if s < t then i.fac q s else none := by
  unfold fac Inst.removeFrom
  simp only
  rw [SMap.find_mapV]
  cases hf : i.ccf.find q with
  | none => simp
  | some b =>
    simp only [Option.map_some, Option.bind_some]
    exact absMap_cut b (ho.buf q b hf) t s

theorem removeAfter_eq_removeFrom {i : Inst} (ho : i.Ord) (t : Int) : i.removeAfter t = i.removeFrom (t + 1) := by
  have key : ∀ {α : Type _} (b : Buf α), b.StrictKeys → b.removeAfter t = (b.removeAfter (t + 1)).removeAt (t + 1) := by
    intro α b hb
    rw [Buf.removeAfter_eq b hb.sorted, Buf.removeAfter_eq b hb.sorted]
    unfold Buf.removeAt
    rw [List.filter_filter]
    apply List.filter_congr
    intro e _
    rw [Bool.eq_iff_iff]; simp; omega
  unfold Inst.removeAfter Inst.removeFrom
  rw [key i.bel ho.bel]
  congr 1
  unfold SMap.mapV
  apply List.map_congr_left
  intro e he
  have hf : i.ccf.find e.1 = some e.2 := (SMap.find_eq_some ho.ccf e.1 e.2).mpr he
  show (e.1, e.2.removeAfter t) = (e.1, (e.2.removeAfter (t + 1)).removeAt (t + 1))
  rw [key e.2 (ho.buf _ _ hf)]

end Inst

namespace Hdl

theorem find_cut (h : Hdl) (t : Int) (p : ℕ) : (cut h t).find p = (h.find p).map (fun i => i.removeFrom t) := SMap.find_mapV _ _ _

theorem cut_ordered {h : Hdl} (ho : Ordered h) (t : Int) : Ordered (cut h t) := by
  refine ⟨ho.sorted.mapV _, fun p i hi => ?_⟩
  rw [find_cut] at hi
  obtain ⟨j, hj, rfl⟩ := Option.map_eq_some_iff.mp hi
  exact (ho.inst p j hj).removeFrom t

theorem cut_sameDom (h : Hdl) (t : Int) : SameDom h (cut h t) := by
  intro p; rw [find_cut]; cases h.find p <;> rfl

theorem bl_cut {h : Hdl} (ho : Ordered h) (t : Int) (p : ℕ) (s : Int) : bl (cut h t) p s = if s < t then bl h p s else none := by
  unfold bl
  rw [find_cut]
  cases hf : h.find p with
  | none => simp
  | some i => exact Inst.beliefAt_removeFrom (ho.inst p i hf) t s

theorem fc_cut {h : Hdl} (ho : Ordered h) (t : Int) (p q : ℕ) (s : Int) : fc (cut h t) p q s = if s < t then fc h p q s else none := by
  unfold fc
  rw [find_cut]
  cases hf : h.find p with
  | none => simp
  | some i => exact Inst.fac_removeFrom (ho.inst p i hf) t q s

/-- `Rel` reads only the newest entries; older ones may be gone. -/
theorem Rel.shrink {dim : ℕ → ℕ} {g g' : Hdl} {c : Central} (hr : Rel dim g c) (ho : Ordered g') (hd : SameDom g g')
    (hb : ∀ p s, bl g' p s = bl g p s ∨ bl g' p s = none) (hf : ∀ p q s, fc g' p q s = fc g p q s ∨ fc g' p q s = none)
    (hb' : ∀ p, (g.find p).isSome → bl g' p (c.tm p) = bl g p (c.tm p))
    (hf' : ∀ p q, (g.find p).isSome → fc g' p q (c.tm p) = fc g p q (c.tm p)) : Rel dim g' c := by
  have reg : ∀ {p}, (g'.find p).isSome → (g.find p).isSome := fun {p} hp => by rw [← hd p]; exact hp
  constructor
  · refine ⟨ho.sorted, ho.inst, ?_⟩
    intro p i hi
    have hp := reg (p := p) (by rw [hi]; rfl)
    obtain ⟨j, hj⟩ := Option.isSome_iff_exists.mp hp
    have hio := ho.inst p i hi
    have hjo := hr.ok.ord p j hj
    have hju := hr.ok.upTo p j hj
    refine ⟨?_, ?_⟩
    · intro e he
      have h1 : bl g' p e.1 = some e.2 := by
        rw [bl_of_find hi, Inst.beliefAt_eq]; exact (Buf.absMap_eq_some _ hio.bel _ _).mpr he
      rcases hb p e.1 with h2 | h2
      · rw [h2, bl_of_find hj, Inst.beliefAt_eq, Buf.absMap_eq_some _ hjo.bel] at h1
        exact hju.bel _ h1
      · rw [h2] at h1; simp at h1
    · intro J b hJ e he
      have h1 : fc g' p J e.1 = some e.2 := by
        rw [fc_of_find hi]; unfold Inst.fac; rw [hJ]; exact (Buf.absMap_eq_some _ (hio.buf J b hJ) _ _).mpr he
      rcases hf p J e.1 with h2 | h2
      · rw [h2, fc_of_find hj] at h1
        exact Inst.fac_le hju hjo h1
      · rw [h2] at h1; simp at h1
  · intro p hp; rw [hb' p (reg hp)]; exact hr.bel p (reg hp)
  · exact fun p hp => hr.pos p (reg hp)
  · exact fun p hp => hr.muS p (reg hp)
  · exact fun p q hp hq => hr.covS p q (reg hp) (reg hq)
  · exact fun p q hp hq => hr.symm p q (reg hp) (reg hq)
  · intro p hp q M hM; rw [hf' p q (reg hp)] at hM; exact hr.rows p (reg hp) q M hM
  · intro p q hp hq hpq; rw [hf' p q (reg hp), hf' q p (reg hq)]; exact hr.pair p q (reg hp) (reg hq) hpq

/-- `Rel` reads only what is stored (a factor history that is empty is as good as none). -/
theorem Rel.congr {dim : ℕ → ℕ} {g g' : Hdl} {c : Central} (hr : Rel dim g c) (ho : Ordered g') (hd : SameDom g g')
    (hb : ∀ p s, bl g' p s = bl g p s) (hf : ∀ p q s, fc g' p q s = fc g p q s) : Rel dim g' c :=
  hr.shrink ho hd (fun p s => Or.inl (hb p s)) (fun p q s => Or.inl (hf p q s)) (fun p _ => hb p _) (fun p q _ => hf p q _)

theorem Rel.ordered {dim : ℕ → ℕ} {g : Hdl} {c : Central} (hr : Rel dim g c) : Ordered g := ⟨hr.ok.sorted, hr.ok.ord⟩

/-- What was stored before `t` does not change by something that happens at or after `t`. -/
theorem Rel.cut_off {dim : ℕ → ℕ} {h h' : Hdl} {c : Central} {t s : Int} {lost : ℕ → Int → Prop} (hr : Rel dim (cut h t) c) (ho : Ordered h)
    (hoff : OffW lost s h h') (hts : t ≤ s) (hk : ∀ p, (h.find p).isSome → ¬ lost p (c.tm p)) : Rel dim (cut h' t) c := by
  refine hr.shrink (cut_ordered hoff.ordered t) ?_ ?_ ?_ ?_ ?_
  · intro p; rw [cut_sameDom h' t p, cut_sameDom h t p, hoff.sameDom p]
  · intro p r
    rw [bl_cut hoff.ordered, bl_cut ho]
    split
    · rcases hoff.bl p (s := r) (by omega) with e | ⟨-, e⟩
      · exact Or.inl e
      · exact Or.inr e
    · exact Or.inl rfl
  · intro p q r
    rw [fc_cut hoff.ordered, fc_cut ho]
    split
    · rcases hoff.fc p q (s := r) (by omega) with e | ⟨-, e⟩
      · exact Or.inl e
      · exact Or.inr e
    · exact Or.inl rfl
  · intro p hp
    have hp' : (h.find p).isSome := by rw [← cut_sameDom h t p]; exact hp
    rw [bl_cut hoff.ordered, bl_cut ho]
    split
    · rcases hoff.bl p (s := c.tm p) (by omega) with e | ⟨e, -⟩
      · exact e
      · exact absurd e (hk p hp')
    · rfl
  · intro p q hp
    have hp' : (h.find p).isSome := by rw [← cut_sameDom h t p]; exact hp
    rw [fc_cut hoff.ordered, fc_cut ho]
    split
    · rcases hoff.fc p q (s := c.tm p) (by omega) with e | ⟨e, -⟩
      · exact e
      · exact absurd e (hk p hp')
    · rfl

theorem Rel.cut_cut {dim : ℕ → ℕ} {h : Hdl} {c : Central} {t s : Int} (ho : Ordered h) (hr : Rel dim (cut h t) c) (hts : t ≤ s) :
    Rel dim (cut (cut h s) t) c := by
  refine hr.congr (cut_ordered (cut_ordered ho s) t) ?_ ?_ ?_
  · intro p; rw [cut_sameDom _ t p, cut_sameDom h s p, cut_sameDom h t p]
  · intro p r
    rw [bl_cut (cut_ordered ho s), bl_cut ho, bl_cut ho]
    split
    · rw [if_pos (by omega)]
    · rfl
  · intro p q r
    rw [fc_cut (cut_ordered ho s), fc_cut ho, fc_cut ho]
    split
    · rw [if_pos (by omega)]
    · rfl

/-- Cutting after everything that is stored changes nothing. -/
theorem Rel.cut_all {dim : ℕ → ℕ} {h : Hdl} {c : Central} (hr : Rel dim h c) {t : Int} (ht : ∀ p, (h.find p).isSome → c.tm p < t) :
    Rel dim (cut h t) c := by
  have ho := hr.ordered
  refine hr.congr (cut_ordered ho t) (cut_sameDom h t) ?_ ?_
  · intro p s
    rw [bl_cut ho]
    split
    · rfl
    · rename_i hs
      cases hf : h.find p with
      | none => unfold bl; rw [hf]; rfl
      | some i =>
        rw [bl_of_find hf, Inst.beliefAt_eq]
        cases ha : i.bel.absMap s with
        | none => rfl
        | some b =>
          have := (hr.ok.upTo p i hf).bel (s, b) ((Buf.absMap_eq_some _ (ho.inst p i hf).bel _ _).mp ha)
          have := ht p (by rw [hf]; rfl)
          simp only at *; omega
  · intro p q s
    rw [fc_cut ho]
    split
    · rfl
    · rename_i hs
      cases hf : h.find p with
      | none => unfold fc; rw [hf]; rfl
      | some i =>
        rw [fc_of_find hf]
        cases ha : i.fac q s with
        | none => rfl
        | some M =>
          have := Inst.fac_le (hr.ok.upTo p i hf) (ho.inst p i hf) ha
          have := ht p (by rw [hf]; rfl)
          omega

/-- If every instance has something before `t`, the handler's removal is the cut. -/
theorem removeBeliefsFrom_eq_cut {h : Hdl} (ho : Ordered h) {t : Int} (hb : ∀ p, (h.find p).isSome → ∃ s b, s < t ∧ bl h p s = some b) :
    removeBeliefsFrom h t = cut h t := by
  unfold removeBeliefsFrom cut SMap.mapV
  apply List.map_congr_left
  intro e he
  have hf : h.find e.1 = some e.2 := (SMap.find_eq_some ho.sorted e.1 e.2).mpr he
  obtain ⟨s, b, hs, hbs⟩ := hb e.1 (by rw [hf]; rfl)
  rw [bl_of_find hf, Inst.beliefAt_eq, Buf.absMap_eq_some _ (ho.inst _ _ hf).bel] at hbs
  have : e.2.bel.existBefore t = true := (Buf.existBefore_iff _ (ho.inst _ _ hf).bel.sorted t).mpr ⟨_, hbs, hs⟩
  simp only [this, if_true]

theorem removeBeliefsAfter_eq_cut {h : Hdl} (ho : Ordered h) {t : Int} (hb : ∀ p, (h.find p).isSome → ∃ s b, s < t + 1 ∧ bl h p s = some b) :
    removeBeliefsAfter h t = cut h (t + 1) := by
  unfold removeBeliefsAfter cut SMap.mapV
  apply List.map_congr_left
  intro e he
  have hf : h.find e.1 = some e.2 := (SMap.find_eq_some ho.sorted e.1 e.2).mpr he
  obtain ⟨s, b, hs, hbs⟩ := hb e.1 (by rw [hf]; rfl)
  have hst := (ho.inst _ _ hf).bel
  rw [bl_of_find hf, Inst.beliefAt_eq, Buf.absMap_eq_some _ hst] at hbs
  have : (e.2.bel.existAt t || e.2.bel.existBefore t) = true := by
    by_cases h1 : s = t
    · rw [(Buf.existAt_iff e.2.bel t).mpr ⟨_, hbs, h1⟩]; rfl
    · rw [(Buf.existBefore_iff _ hst.sorted t).mpr ⟨_, hbs, by simp only; omega⟩]; simp
  simp only [this, if_true]
  rw [Inst.removeAfter_eq_removeFrom (ho.inst _ _ hf)]

end Hdl
end Ikf
