import Verif.Model.Corr
import Verif.Lemmas.Isolated
import Verif.Lemmas.Frame

/-! # Correction buffer: lazily evaluated factors -/

namespace Ikf
open Mat

/-- Apply to `A`, oldest first, the corrections recorded at times in `(lo, hi]`. -/
def applyBetween (corr : Buf Mat) (lo hi : Int) (A : Mat) : Mat :=
  (corr.filter (fun e => decide (lo < e.1 ∧ e.1 ≤ hi))).foldl (fun X e => e.2 * X) A

namespace CInst

theorem foldl_mul (l : Buf Mat) (A B : Mat) :
    l.foldl (fun X e => e.2 * X) (A * B) = l.foldl (fun X e => e.2 * X) A * B := by
  induction l generalizing A with
  | nil => rfl
  | cons e r ih => simp only [List.foldl_cons]; rw [← Mat.mul_assoc, ih]

theorem foldl_shape (l : Buf Mat) {n m : ℕ} (h : ∀ e ∈ l, e.2.Shape n n) (A : Mat) (hA : A.Shape n m) :
    (l.foldl (fun X e => e.2 * X) A).Shape n m := by
  induction l generalizing A with
  | nil => exact hA
  | cons e r ih =>
    exact ih (fun x hx => h x (List.mem_cons_of_mem _ hx)) _ ((h e List.mem_cons_self).mul hA)

theorem accumC_ok (l : Buf Mat) {n m : ℕ} (h : ∀ e ∈ l, e.2.Shape n n) (A : Mat) (hA : A.Shape n m) :
    accumC l A = .ok (l.foldl (fun X e => e.2 * X) A) := by
  induction l generalizing A with
  | nil => rfl
  | cons e r ih =>
    have he := h e List.mem_cons_self
    unfold accumC
    rw [he.mulC hA, Res.bind_ok]
    exact ih (fun x hx => h x (List.mem_cons_of_mem _ hx)) _ (he.mul hA)

theorem filter_split (l : Buf Mat) (hs : l.SortedKeys) (a b c : Int) (hab : a ≤ b) (hbc : b ≤ c) :
    l.filter (fun e => decide (a < e.1 ∧ e.1 ≤ c)) =
      l.filter (fun e => decide (a < e.1 ∧ e.1 ≤ b)) ++ l.filter (fun e => decide (b < e.1 ∧ e.1 ≤ c)) := by
  induction l with
  | nil => rfl
  | cons e r ih =>
    have hs' := List.pairwise_cons.mp hs
    have ih' := ih hs'.2
    by_cases h1 : e.1 ≤ b
    · have h2 : ¬ (b < e.1 ∧ e.1 ≤ c) := by omega
      by_cases h3 : a < e.1
      · rw [List.filter_cons_of_pos (by simp; omega), List.filter_cons_of_pos (by simp; omega),
          List.filter_cons_of_neg (by simpa using h2), ih']; rfl
      · rw [List.filter_cons_of_neg (by simp; omega), List.filter_cons_of_neg (by simp; omega),
          List.filter_cons_of_neg (by simpa using h2), ih']
    · have hz : r.filter (fun e => decide (a < e.1 ∧ e.1 ≤ b)) = [] := by
        rw [List.filter_eq_nil_iff]
        intro x hx
        have := hs'.1 x hx
        simp; omega
      rw [hz] at ih'
      by_cases h4 : e.1 ≤ c
      · rw [List.filter_cons_of_pos (by simp; omega), List.filter_cons_of_neg (by simp; omega),
          List.filter_cons_of_pos (by simp; omega), ih', hz]; rfl
      · rw [List.filter_cons_of_neg (by simp; omega), List.filter_cons_of_neg (by simp; omega),
          List.filter_cons_of_neg (by simp; omega), ih', hz]

theorem applyBetween_trans (corr : Buf Mat) (hs : corr.SortedKeys) (a b c : Int) (hab : a ≤ b) (hbc : b ≤ c) (A : Mat) :
    applyBetween corr a c A = applyBetween corr b c (applyBetween corr a b A) := by
  unfold applyBetween
  rw [filter_split corr hs a b c hab hbc, List.foldl_append]

theorem applyBetween_mul (corr : Buf Mat) (a b : Int) (A B : Mat) :
    applyBetween corr a b (A * B) = applyBetween corr a b A * B := foldl_mul _ _ _

theorem applyBetween_none (corr : Buf Mat) (a b : Int) (A : Mat) (h : ∀ e ∈ corr, ¬ (a < e.1 ∧ e.1 ≤ b)) :
    applyBetween corr a b A = A := by
  unfold applyBetween
  rw [List.filter_eq_nil_iff.mpr]
  · rfl
  · intro e he; simpa using h e he

theorem applyBetween_self (corr : Buf Mat) (a : Int) (A : Mat) : applyBetween corr a a A = A :=
  applyBetween_none _ _ _ _ (fun e _ => by omega)

theorem applyBetween_shape (corr : Buf Mat) {n m : ℕ} (h : ∀ e ∈ corr, e.2.Shape n n) (a b : Int) (A : Mat) (hA : A.Shape n m) :
    (applyBetween corr a b A).Shape n m :=
  foldl_shape _ (fun e he => h e (List.mem_filter.mp he).1) A hA

/-- What `compute_correction` returns. -/
theorem computeCorrection_spec (c : CInst) (hs : c.corr.StrictKeys) {n : ℕ} (h : ∀ e ∈ c.corr, e.2.Shape n n)
    (ta tb : Int) (hab : ta ≤ tb) :
    (c.computeCorrection ta tb = .ok Mat.empty ∧ ∀ e ∈ c.corr, ¬ (ta < e.1 ∧ e.1 ≤ tb)) ∨
      c.computeCorrection ta tb = .ok (applyBetween c.corr ta tb (one n)) := by
  unfold computeCorrection
  cases ha : c.corr.getAfter ta with
  | none =>
    left
    refine ⟨rfl, ?_⟩
    intro e he hk
    rw [Buf.getAfter_eq _ hs.sorted] at ha
    have : e ∈ c.corr.filter (fun e => decide (ta < e.1)) := List.mem_filter.mpr ⟨he, by simpa using hk.1⟩
    rw [List.head?_eq_none_iff] at ha
    rw [ha] at this; simp at this
  | some a =>
    have ha' := ha
    rw [Buf.getAfter_eq _ hs.sorted] at ha
    have ham := List.mem_of_mem_head? (Option.mem_def.mpr ha)
    rw [List.mem_filter] at ham
    have hat : ta < a.1 := by simpa using ham.2
    have hamin : ∀ e ∈ c.corr, ta < e.1 → a.1 ≤ e.1 := by
      intro e he hk
      exact (hs.sorted.filter (fun e => decide (ta < e.1))).head_le ha e (List.mem_filter.mpr ⟨he, by simpa using hk⟩)
    have hI : one (max a.2.cols a.2.rows) = one n := by
      have := h a ham.1
      rw [this.1, this.2, max_self]
    have hlen : 0 < c.corr.length := List.length_pos_of_mem ham.1
    -- the newest entry at or before tb
    have key : ∀ b : Int × Mat, (∀ e ∈ c.corr, e.1 ≤ tb → e.1 ≤ b.1) → b.1 ≤ tb →
        (if a.1 ≤ b.1 ∧ 0 < c.corr.length then accumC (c.corr.range a.1 b.1) (one n) else .ok (one n)) =
          Res.ok (applyBetween c.corr ta tb (one n)) := by
      intro b hb hbt
      by_cases hab' : a.1 ≤ b.1
      · rw [if_pos ⟨hab', hlen⟩, Buf.range_eq _ hs.sorted]
        rw [accumC_ok _ (n := n) (m := n) (fun e he => h e (List.mem_filter.mp he).1) _ ⟨rfl, rfl⟩]
        unfold applyBetween
        congr 2
        apply List.filter_congr
        intro e he
        rw [← Bool.decide_and, decide_eq_decide]
        constructor
        · intro hk
          exact ⟨lt_of_lt_of_le hat hk.1, le_trans hk.2 hbt⟩
        · intro hk
          exact ⟨hamin e he hk.1, hb e he hk.2⟩
      · rw [if_neg (fun hh => hab' hh.1), applyBetween_none]
        intro e he hk
        have h1 := hamin e he hk.1
        have h2 := hb e he hk.2
        omega
    simp only [hI]
    cases hb : c.corr.getAt tb with
    | some b =>
      right
      exact key (tb, b.2) (fun e _ hk => hk) le_rfl
    | none =>
      simp only
      cases hbb : c.corr.getBefore tb with
      | none =>
        left
        refine ⟨rfl, ?_⟩
        intro e he hk
        rw [Buf.getBefore_eq _ hs.sorted] at hbb
        rw [List.getLast?_eq_none_iff] at hbb
        have hne : e.1 ≠ tb := (Buf.getAt_eq_none _ _).mp hb e he
        have : e ∈ c.corr.filter (fun e => decide (e.1 < tb)) := List.mem_filter.mpr ⟨he, by simp; omega⟩
        rw [hbb] at this; simp at this
      | some b =>
        right
        rw [Buf.getBefore_eq _ hs.sorted] at hbb
        have hbm := List.mem_of_getLast? hbb
        rw [List.mem_filter] at hbm
        have hbt : b.1 < tb := by simpa using hbm.2
        refine key b ?_ hbt.le
        intro e he hk
        have hne : e.1 ≠ tb := (Buf.getAt_eq_none _ _).mp hb e he
        exact (hs.sorted.filter (fun e => decide (e.1 < tb))).le_getLast hbb e (List.mem_filter.mpr ⟨he, by simp; omega⟩)

/-- `M` is the newest stored factor towards `J` not newer than `t`, brought to `t` with the recorded
corrections. -/
def Derived (c : CInst) (J : ℕ) (t : Int) (M : Mat) : Prop :=
  ∃ tp A, c.base.fac J tp = some A ∧ tp ≤ t ∧ (∀ t', tp < t' → t' ≤ t → c.base.fac J t' = none) ∧
    M = applyBetween c.corr tp t A

/-- All maps are maps, all sizes fit, nothing is newer than `T`. -/
structure Ok (n : ℕ) (T : Int) (c : CInst) : Prop where
  ord : c.base.Ord
  upTo : c.base.UpTo T
  strict : c.corr.StrictKeys
  corrUpTo : ∀ e ∈ c.corr, e.1 ≤ T
  rows : ∀ J t M, c.base.fac J t = some M → M.rows = n
  corrShape : ∀ e ∈ c.corr, e.2.Shape n n

theorem Derived.unique {c : CInst} {J t M M'} (h : Derived c J t M) (h' : Derived c J t M') : M = M' := by
  obtain ⟨tp, A, hf, hle, hno, rfl⟩ := h
  obtain ⟨tp', A', hf', hle', hno', rfl⟩ := h'
  have : tp = tp' := by
    rcases lt_trichotomy tp tp' with hl | hl | hl
    · rw [hno tp' hl hle'] at hf'; simp at hf'
    · exact hl
    · rw [hno' tp hl hle] at hf; simp at hf
  subst this
  rw [hf] at hf'
  rw [Option.some.inj hf']

theorem Derived.rows {c : CInst} {n : ℕ} {T : Int} (hc : c.Ok n T) {J t M} (h : Derived c J t M) : M.rows = n := by
  obtain ⟨tp, A, hf, -, -, rfl⟩ := h
  exact (applyBetween_shape c.corr hc.corrShape tp t A (m := A.cols) ⟨hc.rows _ _ _ hf, rfl⟩).1

/-- Value and effect of `get_CrossCovFact_at_t`. -/
theorem getCCF_spec {c : CInst} {n : ℕ} (hn : 0 < n) {T : Int} (hc : c.Ok n T) (t : Int) (J : ℕ) :
    (∃ M, Derived c J t M ∧ (c.getCCF t J = .ok (c, M) ∨
        c.getCCF t J = .ok ({ c with base := c.base.setCCF t J M }, M))) ∨
      ((∀ t' ≤ t, c.base.fac J t' = none) ∧ c.getCCF t J = .ok (c, Mat.empty)) := by
  unfold getCCF
  cases hf : c.base.ccf.find J with
  | none =>
    right
    refine ⟨fun t' _ => ?_, rfl⟩
    unfold Inst.fac; rw [hf]; rfl
  | some b =>
    have hbs := hc.ord.buf J b hf
    have hfac : ∀ t', c.base.fac J t' = b.absMap t' := fun t' => by unfold Inst.fac; rw [hf]; rfl
    simp only
    cases hg : b.getAt t with
    | some e =>
      left
      have hm : b.absMap t = some e.2 := by unfold Buf.absMap; rw [hg]; rfl
      refine ⟨e.2, ⟨t, e.2, by rw [hfac, hm], le_rfl, fun t' h1 h2 => by omega, (applyBetween_self _ _ _).symm⟩, Or.inl rfl⟩
    | none =>
      have hgn := (Buf.getAt_eq_none _ _).mp hg
      simp only
      cases hb : b.getBefore t with
      | none =>
        right
        refine ⟨?_, rfl⟩
        intro t' ht'
        rw [hfac]
        cases hm : b.absMap t' with
        | none => rfl
        | some v =>
          exfalso
          have hmem := (Buf.absMap_eq_some b hbs t' v).mp hm
          rw [Buf.getBefore_eq _ hbs.sorted, List.getLast?_eq_none_iff] at hb
          have hne := hgn _ hmem
          simp only at hne
          have : (t', v) ∈ b.filter (fun e => decide (e.1 < t)) := List.mem_filter.mpr ⟨hmem, by simp; omega⟩
          rw [hb] at this; simp at this
      | some p =>
        left
        rw [Buf.getBefore_eq _ hbs.sorted] at hb
        have hpm := List.mem_of_getLast? hb
        rw [List.mem_filter] at hpm
        have hpt : p.1 < t := by simpa using hpm.2
        have hpf : c.base.fac J p.1 = some p.2 := by rw [hfac, Buf.absMap_eq_some b hbs]; exact hpm.1
        have hno : ∀ t', p.1 < t' → t' ≤ t → c.base.fac J t' = none := by
          intro t' h1 h2
          rw [hfac]
          cases hm : b.absMap t' with
          | none => rfl
          | some v =>
            exfalso
            have hmem := (Buf.absMap_eq_some b hbs t' v).mp hm
            have hne := hgn _ hmem
            simp only at hne
            have := (hbs.sorted.filter (fun e => decide (e.1 < t))).le_getLast hb (t', v)
              (List.mem_filter.mpr ⟨hmem, by simp; omega⟩)
            simp only at this
            omega
        refine ⟨applyBetween c.corr p.1 t p.2, ⟨p.1, p.2, hpf, hpt.le, hno, rfl⟩, ?_⟩
        have hpr := hc.rows _ _ _ hpf
        rcases computeCorrection_spec c hc.strict hc.corrShape p.1 t hpt.le with ⟨he, hnone⟩ | he
        · left
          simp only
          rw [he, Res.bind_ok, if_neg (by simp [Mat.size, Mat.empty, Mat.of]), applyBetween_none _ _ _ _ hnone]
        · right
          have hM : (applyBetween c.corr p.1 t (one n)).Shape n n := applyBetween_shape _ hc.corrShape _ _ _ ⟨rfl, rfl⟩
          have hp : p.2.Shape n p.2.cols := ⟨hpr, rfl⟩
          have hval : applyBetween c.corr p.1 t (one n) * p.2 = applyBetween c.corr p.1 t p.2 := by
            rw [← applyBetween_mul, Mat.one_mul p.2 n hpr]
          simp only
          rw [he, Res.bind_ok, if_pos (by
            unfold Mat.size; rw [hM.1, hM.2]; exact Nat.mul_ne_zero (by omega) (by omega)),
            hM.mulC hp, Res.bind_ok, hval]

end CInst
end Ikf
