import Verif.Lemmas.Corr
import Verif.Props.Horizon

/-! # Correction buffer: every operation preserves the agreement with the eager flavour -/

namespace Ikf
open Mat

namespace Buf
variable {α : Type _}

theorem filter_insertMap_out (b : Buf α) (k : Int) (v : α) (p : Int → Bool) (hp : p k = false) :
    (b.insertMap k v).filter (fun e => p e.1) = b.filter (fun e => p e.1) := by
  induction b with
  | nil => simp [insertMap, hp]
  | cons e r ih =>
    unfold insertMap
    by_cases h1 : k < e.1
    · simp [h1, hp, List.filter_cons]
    · by_cases h2 : k = e.1
      · subst h2; simp [hp]
      · simp only [h1, if_false, beq_iff_eq, h2]
        rw [List.filter_cons, List.filter_cons, ih]

theorem filter_key_strict (b : Buf α) (h : b.StrictKeys) (T : Int) :
    b.filter (fun e => decide (T - 1 < e.1 ∧ e.1 ≤ T)) = (b.getAt T).toList := by
  have hl : b.filter (fun e => decide (T - 1 < e.1 ∧ e.1 ≤ T)) = b.filter (fun e => e.1 == T) := by
    apply List.filter_congr
    intro e _
    rw [Bool.eq_iff_iff]; simp; omega
  rw [hl]
  induction b with
  | nil => rfl
  | cons e r ih =>
    have h' := List.pairwise_cons.mp h
    unfold getAt
    rw [List.filter_cons, List.find?_cons]
    by_cases he : e.1 = T
    · have : r.filter (fun e => e.1 == T) = [] := by
        rw [List.filter_eq_nil_iff]
        intro x hx
        have := h'.1 x hx
        simp; omega
      simp [he, this]
    · have hne : (e.1 == T) = false := by simpa using he
      rw [hne]
      simp only [Bool.false_eq_true, if_false]
      exact ih h'.2 (by
        apply List.filter_congr
        intro e _
        rw [Bool.eq_iff_iff]; simp; omega)

theorem getAt_insertMap_self (b : Buf α) (h : b.StrictKeys) (k : Int) (v : α) : (b.insertMap k v).getAt k = some (k, v) := by
  rw [getAt_eq_some _ (strict_insertMap b h k v)]
  exact ⟨(mem_insertMap b h k v _).mpr (Or.inl rfl), rfl⟩

end Buf

namespace CInst

theorem applyBetween_insert_out (corr : Buf Mat) (k : Int) (v : Mat) (lo hi : Int) (A : Mat) (h : ¬ (lo < k ∧ k ≤ hi)) :
    applyBetween (corr.insertMap k v) lo hi A = applyBetween corr lo hi A := by
  unfold applyBetween
  rw [Buf.filter_insertMap_out corr k v (fun x => decide (lo < x ∧ x ≤ hi)) (by simpa using h)]

/-- Splitting off the entry at the upper end. -/
theorem applyBetween_last (corr : Buf Mat) (h : corr.StrictKeys) (lo T : Int) (hlt : lo < T) (A : Mat) :
    applyBetween corr lo T A = (match corr.getAt T with
      | some e => e.2 * applyBetween corr lo (T - 1) A
      | none => applyBetween corr lo (T - 1) A) := by
  rw [applyBetween_trans corr h.sorted lo (T - 1) T (by omega) (by omega)]
  generalize applyBetween corr lo (T - 1) A = X
  unfold applyBetween
  rw [Buf.filter_key_strict corr h T]
  cases corr.getAt T <;> rfl

theorem applyBetween_insert_last (corr : Buf Mat) (h : corr.StrictKeys) (lo T : Int) (hlt : lo < T) (v A : Mat) :
    applyBetween (corr.insertMap T v) lo T A = v * applyBetween corr lo (T - 1) A := by
  rw [applyBetween_last _ (Buf.strict_insertMap _ h _ _) lo T hlt, Buf.getAt_insertMap_self _ h,
    applyBetween_insert_out _ _ _ _ _ _ (by omega)]

theorem applyBetween_gap (corr : Buf Mat) (hs : corr.SortedKeys) (lo T T' : Int) (hlo : lo ≤ T) (hT : T ≤ T') (h : ∀ e ∈ corr, e.1 ≤ T) (A : Mat) :
    applyBetween corr lo T' A = applyBetween corr lo T A := by
  rw [applyBetween_trans corr hs lo T T' hlo hT, applyBetween_none corr T T']
  intro e he hk
  have := h e he
  omega

/-- Storing a derived factor changes no derived factor. -/
theorem Derived.store {c : CInst} {n : ℕ} {T : Int} (hc : c.Ok n T) {J : ℕ} {t : Int} {M : Mat} (hM : Derived c J t M)
    {J' : ℕ} {t' : Int} {M' : Mat} (h : Derived c J' t' M') :
    Derived { c with base := c.base.setCCF t J M } J' t' M' := by
  have hfac := fun K s => Inst.fac_setCCF hc.ord t J M K s
  obtain ⟨tp, A, hf, hle, hno, rfl⟩ := h
  by_cases hJ : J = J'
  · subst hJ
    rcases lt_trichotomy tp t with hlt | heq | hgt
    · by_cases htt : t ≤ t'
      · -- the new entry is the newest
        have hMt : M = applyBetween c.corr tp t A :=
          hM.unique ⟨tp, A, hf, hlt.le, fun s h1 h2 => hno s h1 (by omega), rfl⟩
        refine ⟨t, M, ?_, htt, ?_, ?_⟩
        · show (c.base.setCCF t J M).fac J t = _
          rw [hfac, if_pos ⟨rfl, rfl⟩]
        · intro s h1 h2
          show (c.base.setCCF t J M).fac J s = _
          rw [hfac, if_neg (by omega)]
          exact hno s (by omega) h2
        · rw [hMt]
          exact applyBetween_trans c.corr hc.strict.sorted tp t t' hlt.le htt A
      · refine ⟨tp, A, ?_, hle, ?_, rfl⟩
        · show (c.base.setCCF t J M).fac J tp = _
          rw [hfac, if_neg (by omega)]; exact hf
        · intro s h1 h2
          show (c.base.setCCF t J M).fac J s = _
          rw [hfac, if_neg (by omega)]; exact hno s h1 h2
    · subst heq
      have hMt : M = A := by
        have := hM.unique ⟨tp, A, hf, le_rfl, fun s h1 h2 => by omega, rfl⟩
        rw [applyBetween_self] at this; exact this
      subst hMt
      refine ⟨tp, M, ?_, hle, ?_, rfl⟩
      · show (c.base.setCCF tp J M).fac J tp = _
        rw [hfac, if_pos ⟨rfl, rfl⟩]
      · intro s h1 h2
        show (c.base.setCCF tp J M).fac J s = _
        rw [hfac, if_neg (by omega)]; exact hno s h1 h2
    · refine ⟨tp, A, ?_, hle, ?_, rfl⟩
      · show (c.base.setCCF t J M).fac J tp = _
        rw [hfac, if_neg (by omega)]; exact hf
      · intro s h1 h2
        show (c.base.setCCF t J M).fac J s = _
        rw [hfac, if_neg (by omega)]; exact hno s h1 h2
  · refine ⟨tp, A, ?_, hle, ?_, rfl⟩
    · show (c.base.setCCF t J M).fac J' tp = _
      rw [hfac, if_neg (fun hh => hJ hh.1)]; exact hf
    · intro s h1 h2
      show (c.base.setCCF t J M).fac J' s = _
      rw [hfac, if_neg (fun hh => hJ hh.1)]; exact hno s h1 h2

theorem Ok.setCCF {c : CInst} {n : ℕ} {T : Int} (hc : c.Ok n T) (t : Int) (ht : t ≤ T) (J : ℕ) (M : Mat) (hM : M.rows = n) :
    Ok n T { c with base := c.base.setCCF t J M } where
  ord := hc.ord.setCCF t J M
  upTo := hc.upTo.setCCF hc.ord t J M ht
  strict := hc.strict
  corrUpTo := hc.corrUpTo
  rows := by
    intro K s X hX
    have hX : (c.base.setCCF t J M).fac K s = some X := hX
    rw [Inst.fac_setCCF hc.ord] at hX
    split at hX
    · rw [← Option.some.inj hX]; exact hM
    · exact hc.rows _ _ _ hX
  corrShape := hc.corrShape

theorem Ok.setBelief {c : CInst} {n : ℕ} {T : Int} (hc : c.Ok n T) (t : Int) (ht : t ≤ T) (b : Belief) :
    Ok n T { c with base := c.base.setBelief b t } where
  ord := hc.ord.setBelief b t
  upTo := hc.upTo.setBelief hc.ord b t ht
  strict := hc.strict
  corrUpTo := hc.corrUpTo
  rows := hc.rows
  corrShape := hc.corrShape

theorem Ok.mono {c : CInst} {n : ℕ} {T T' : Int} (hc : c.Ok n T) (h : T ≤ T') : c.Ok n T' :=
  ⟨hc.ord, hc.upTo.mono h, hc.strict, fun e he => le_trans (hc.corrUpTo e he) h, hc.rows, hc.corrShape⟩

theorem fac_mulFac_rows {i : Inst} {n : ℕ} (ho : i.Ord) (hr : ∀ J t M, i.fac J t = some M → M.rows = n) (ta tb : Int) (F : Mat) (hF : F.rows = n)
    (J t M) (h : (i.mulFac ta tb F).fac J t = some M) : M.rows = n := by
  rw [Inst.fac_mulFac ho] at h
  split at h
  · obtain ⟨X, -, rfl⟩ := Option.map_eq_some_iff.mp h
    exact hF
  · exact hr _ _ _ h

/-- The agreement: same beliefs, and every factor the eager flavour `e` holds at a time from `L` on is the
one the correction-buffer flavour `c` derives. -/
structure Sim (n : ℕ) (L T : Int) (e : Inst) (c : CInst) : Prop where
  bel : c.base.bel = e.bel
  hor : c.base.hor = e.hor
  eord : e.Ord
  eup : e.UpTo T
  erows : ∀ J t M, e.fac J t = some M → M.rows = n
  ok : c.Ok n T
  fac : ∀ J t M, L ≤ t → e.fac J t = some M → Derived c J t M

theorem Sim.get {n : ℕ} (hn : 0 < n) {L T : Int} {e : Inst} {c c' : CInst} (h : Sim n L T e c) {t : Int} (ht : t ≤ T) {J : ℕ} {M : Mat}
    (hg : c.getCCF t J = .ok (c', M)) : Sim n L T e c' ∧ (∀ M0, L ≤ t → e.fac J t = some M0 → M = M0) := by
  rcases getCCF_spec hn h.ok t J with ⟨X, hX, hr⟩ | ⟨hno, hr⟩
  · have hval : ∀ M0, L ≤ t → e.fac J t = some M0 → X = M0 := fun M0 hL h0 => hX.unique (h.fac J t M0 hL h0)
    rcases hr with hr | hr
    · rw [hg] at hr
      obtain ⟨rfl, rfl⟩ := Prod.mk.inj (Res.ok.inj hr)
      exact ⟨h, hval⟩
    · rw [hg] at hr
      obtain ⟨rfl, rfl⟩ := Prod.mk.inj (Res.ok.inj hr)
      refine ⟨⟨?_, ?_, h.eord, h.eup, h.erows, h.ok.setCCF t ht J M (hX.rows h.ok), ?_⟩, hval⟩
      · show (c.base.setCCF t J M).bel = _
        rw [Inst.setCCF_bel]; exact h.bel
      · show (c.base.setCCF t J M).hor = _
        rw [Inst.setCCF_hor]; exact h.hor
      · intro K s X' hs hX'
        exact hX.store h.ok (h.fac K s X' hs hX')
  · rw [hg] at hr
    obtain ⟨rfl, rfl⟩ := Prod.mk.inj (Res.ok.inj hr)
    refine ⟨h, ?_⟩
    intro M0 hL h0
    obtain ⟨tp, A, hf, hle, -⟩ := h.fac J t M0 hL h0
    rw [hno tp hle] at hf; simp at hf

theorem Sim.set {n : ℕ} {L T : Int} {e : Inst} {c : CInst} (h : Sim n L T e c) (J : ℕ) (M : Mat) (hM : M.rows = n) :
    Sim n L T (e.setCCF T J M) { c with base := c.base.setCCF T J M } where
  bel := by
    show (c.base.setCCF T J M).bel = _
    rw [Inst.setCCF_bel, Inst.setCCF_bel]; exact h.bel
  hor := by
    show (c.base.setCCF T J M).hor = _
    rw [Inst.setCCF_hor, Inst.setCCF_hor]; exact h.hor
  eord := h.eord.setCCF T J M
  eup := h.eup.setCCF h.eord T J M le_rfl
  erows := by
    intro K s X hX
    rw [Inst.fac_setCCF h.eord] at hX
    split at hX
    · rw [← Option.some.inj hX]; exact hM
    · exact h.erows _ _ _ hX
  ok := h.ok.setCCF T le_rfl J M hM
  fac := by
    intro K s X hs hX
    have hs' : s ≤ T := Inst.fac_le (h.eup.setCCF h.eord T J M le_rfl) (h.eord.setCCF T J M) hX
    rw [Inst.fac_setCCF h.eord] at hX
    have hfac := fun K s => Inst.fac_setCCF h.ok.ord T J M K s
    by_cases hc : J = K ∧ s = T
    · rw [if_pos hc] at hX
      obtain ⟨rfl, rfl⟩ := hc
      rw [← Option.some.inj hX]
      refine ⟨s, M, ?_, le_rfl, fun t' h1 h2 => by omega, (applyBetween_self _ _ _).symm⟩
      show (c.base.setCCF s J M).fac J s = _
      rw [hfac, if_pos ⟨rfl, rfl⟩]
    · rw [if_neg hc] at hX
      obtain ⟨tp, A, hf, hle, hno, hv⟩ := h.fac K s X hs hX
      have hne : ∀ t' ≤ s, ¬ (J = K ∧ t' = T) := by
        rintro t' ht' ⟨h1, h2⟩
        exact hc ⟨h1, by omega⟩
      refine ⟨tp, A, ?_, hle, ?_, hv⟩
      · show (c.base.setCCF T J M).fac K tp = _
        rw [hfac, if_neg (hne tp hle)]; exact hf
      · intro t' h1 h2
        show (c.base.setCCF T J M).fac K t' = _
        rw [hfac, if_neg (hne t' h2)]; exact hno t' h1 h2

theorem Sim.belief {n : ℕ} {L T : Int} {e : Inst} {c : CInst} (h : Sim n L T e c) (b : Belief) :
    Sim n L T (e.setBelief b T) { c with base := c.base.setBelief b T } where
  bel := by show c.base.bel.insertMap T b = e.bel.insertMap T b; rw [h.bel]
  hor := h.hor
  eord := h.eord.setBelief b T
  eup := h.eup.setBelief h.eord b T le_rfl
  erows := h.erows
  ok := h.ok.setBelief T le_rfl b
  fac := h.fac

theorem applyCorrection_ok {c : CInst} {n : ℕ} {T : Int} (hc : c.Ok n T) (t : Int) (F : Mat) (hF : F.Shape n n) :
    c.applyCorrection t F = (match c.corr.getAt t with
      | some e => .ok ({ c with base := c.base.mulFac t t F, corr := c.corr.insertMap t (F * e.2) }, true)
      | none => .ok ({ c with base := c.base.mulFac t t F, corr := c.corr.insertMap t F }, false)) := by
  unfold applyCorrection
  rw [Inst.applyCorrection_ok hc.ord t F (fun J M hM => by rw [hF.2, hc.rows _ _ _ hM]), Res.bind_ok]
  cases hg : c.corr.getAt t with
  | none => rfl
  | some e =>
    have he := hc.corrShape e ((Buf.getAt_eq_some _ hc.strict _ _).mp hg).1
    simp only
    rw [hF.mulC he, Res.bind_ok]; rfl

/-- The state of the correction-buffer flavour after a correction at `t`. -/
noncomputable def corrected (c : CInst) (t : Int) (F : Mat) : CInst :=
  { c with
    base := c.base.mulFac t t F
    corr := c.corr.insertMap t (match c.corr.getAt t with | some e => F * e.2 | none => F) }

theorem applyCorrection_eq {c : CInst} {n : ℕ} {T : Int} (hc : c.Ok n T) (t : Int) (F : Mat) (hF : F.Shape n n) :
    c.applyCorrection t F = .ok (c.corrected t F, (c.corr.getAt t).isSome) := by
  rw [applyCorrection_ok hc t F hF]
  unfold corrected
  cases c.corr.getAt t <;> rfl

theorem Ok.corrected {c : CInst} {n : ℕ} {T : Int} (hc : c.Ok n T) (t : Int) (ht : t ≤ T) (F : Mat) (hF : F.Shape n n) :
    (c.corrected t F).Ok n T where
  ord := hc.ord.mulFac t t F
  upTo := hc.upTo.mulFac hc.ord t t F ht
  strict := Buf.strict_insertMap _ hc.strict _ _
  corrUpTo := by
    intro e he
    rcases (Buf.mem_insertMap _ hc.strict _ _ _).mp he with he | he
    · rw [he]; exact ht
    · exact hc.corrUpTo e he.1
  rows := fac_mulFac_rows hc.ord hc.rows t t F hF.1
  corrShape := by
    intro e he
    rcases (Buf.mem_insertMap _ hc.strict _ _ _).mp he with he | he
    · rw [he]
      simp only
      cases hg : c.corr.getAt t with
      | none => exact hF
      | some x => exact hF.mul (hc.corrShape x ((Buf.getAt_eq_some _ hc.strict _ _).mp hg).1)
    · exact hc.corrShape e he.1

theorem Sim.correct {n : ℕ} {L T : Int} {e : Inst} {c : CInst} (h : Sim n L T e c) (F : Mat) (hF : F.Shape n n) :
    Sim n L T (e.mulFac T T F) (c.corrected T F) where
  bel := h.bel
  hor := h.hor
  eord := h.eord.mulFac T T F
  eup := h.eup.mulFac h.eord T T F le_rfl
  erows := fac_mulFac_rows h.eord h.erows T T F hF.1
  ok := h.ok.corrected T le_rfl F hF
  fac := by
    intro J s X hs hX
    have hs' : s ≤ T := Inst.fac_le (h.eup.mulFac h.eord T T F le_rfl) (h.eord.mulFac T T F) hX
    rw [Inst.fac_mulFac h.eord] at hX
    have hfac : ∀ K s, (c.corrected T F).base.fac K s = _ := fun K s => Inst.fac_mulFac h.ok.ord T T F K s
    have hfn : ∀ K s, c.base.fac K s = none → (c.corrected T F).base.fac K s = none := by
      intro K s hn'
      rw [hfac]
      by_cases hsT : s = T
      · subst hsT; rw [hn']; simp
      · rw [if_neg (fun hh => hsT hh.1)]; exact hn'
    have hold : ∀ Y, s < T → e.fac J s = some Y → Derived (c.corrected T F) J s Y := by
      intro Y hlt hY
      obtain ⟨tp, A, hf, hle, hno, hv⟩ := h.fac J s Y hs hY
      refine ⟨tp, A, ?_, hle, fun t' h1 h2 => hfn _ _ (hno t' h1 h2), ?_⟩
      · rw [hfac, if_neg (by omega)]; exact hf
      · rw [hv]
        exact (applyBetween_insert_out c.corr T _ tp s A (by omega)).symm
    by_cases hsT : s = T
    · subst hsT
      by_cases hsome : (e.fac J s).isSome = true
      · rw [if_pos ⟨rfl, hsome⟩] at hX
        obtain ⟨Y, hY, rfl⟩ := Option.map_eq_some_iff.mp hX
        obtain ⟨tp, A, hf, hle, hno, hv⟩ := h.fac J s Y hs hY
        rcases eq_or_lt_of_le hle with heq | hlt
        · subst heq
          refine ⟨tp, F * A, ?_, le_rfl, fun t' h1 h2 => by omega, ?_⟩
          · rw [hfac, hf]; simp
          · rw [applyBetween_self, hv, applyBetween_self]
        · refine ⟨tp, A, ?_, hle, fun t' h1 h2 => hfn _ _ (hno t' h1 h2), ?_⟩
          · rw [hfac, if_neg (by omega)]; exact hf
          · rw [hv]
            show _ = applyBetween (c.corr.insertMap s _) tp s A
            rw [applyBetween_insert_last _ h.ok.strict _ _ hlt, applyBetween_last _ h.ok.strict _ _ hlt]
            cases c.corr.getAt s with
            | none => rfl
            | some x => simp only; rw [Mat.mul_assoc]
      · rw [if_neg (fun hh => hsome hh.2)] at hX
        rw [hX] at hsome; simp at hsome
    · rw [if_neg (fun hh => hsT hh.1)] at hX
      exact hold X (by omega) hX

/-- The state of the correction-buffer flavour after a recorded propagation. -/
def recorded (c : CInst) (tb : Int) (Phi : Mat) : CInst := { c with corr := c.corr.insertMap tb Phi }

theorem Sim.propagate {n : ℕ} {L T : Int} {e : Inst} {c : CInst} (h : Sim n L T e c) (hLT : L ≤ T) (tb : Int) (hlt : T < tb) (Phi : Mat) (hP : Phi.Shape n n) :
    Sim n L tb (e.mulFac T tb Phi) (c.recorded tb Phi) where
  bel := h.bel
  hor := h.hor
  eord := h.eord.mulFac T tb Phi
  eup := (h.eup.mono hlt.le).mulFac h.eord T tb Phi le_rfl
  erows := fac_mulFac_rows h.eord h.erows T tb Phi hP.1
  ok := {
    ord := h.ok.ord
    upTo := h.ok.upTo.mono hlt.le
    strict := Buf.strict_insertMap _ h.ok.strict _ _
    corrUpTo := by
      intro x hx
      rcases (Buf.mem_insertMap _ h.ok.strict _ _ _).mp hx with hx | hx
      · rw [hx]
      · exact le_trans (h.ok.corrUpTo x hx.1) hlt.le
    rows := h.ok.rows
    corrShape := by
      intro x hx
      rcases (Buf.mem_insertMap _ h.ok.strict _ _ _).mp hx with hx | hx
      · rw [hx]; exact hP
      · exact h.ok.corrShape x hx.1 }
  fac := by
    intro J s X hs hX
    rw [Inst.fac_mulFac h.eord] at hX
    have hcn : ∀ t', T < t' → c.base.fac J t' = none := by
      intro t' ht'
      cases hf : c.base.fac J t' with
      | none => rfl
      | some Y => have := Inst.fac_le h.ok.upTo h.ok.ord hf; omega
    by_cases hc : s = tb ∧ (e.fac J T).isSome = true
    · rw [if_pos hc] at hX
      obtain ⟨Y, hY, rfl⟩ := Option.map_eq_some_iff.mp hX
      obtain ⟨rfl, -⟩ := hc
      -- L ≤ T is needed for the fact at T
      by_cases hL : L ≤ T
      · obtain ⟨tp, A, hf, hle, hno, hv⟩ := h.fac J T Y hL hY
        refine ⟨tp, A, hf, by omega, ?_, ?_⟩
        · intro t' h1 h2
          by_cases ht' : t' ≤ T
          · exact hno t' h1 ht'
          · exact hcn t' (by omega)
        · show _ = applyBetween (c.corr.insertMap s Phi) tp s A
          rw [applyBetween_insert_last _ h.ok.strict _ _ (by omega), hv,
            applyBetween_gap c.corr h.ok.strict.sorted tp T (s - 1) hle (by omega) h.ok.corrUpTo]
      · exact absurd hLT hL
    · rw [if_neg hc] at hX
      have hs' := Inst.fac_le h.eup h.eord hX
      obtain ⟨tp, A, hf, hle, hno, hv⟩ := h.fac J s X hs hX
      refine ⟨tp, A, hf, hle, hno, ?_⟩
      rw [hv]
      exact (applyBetween_insert_out c.corr tb Phi tp s A (by omega)).symm

theorem Derived.congr {c d : CInst} {J : ℕ} {t : Int} {M : Mat} (h : Derived c J t M) (hf : ∀ s, d.base.fac J s = c.base.fac J s)
    (hc : d.corr = c.corr) : Derived d J t M := by
  obtain ⟨tp, A, h1, h2, h3, h4⟩ := h
  exact ⟨tp, A, by rw [hf]; exact h1, h2, fun t' a b => by rw [hf]; exact h3 t' a b, by rw [hc]; exact h4⟩

theorem middle_le {c : CInst} {n : ℕ} {T : Int} (hc : c.Ok n T) (h0 : 0 ≤ T) (fp : FP) : c.middle fp ≤ T := by
  unfold middle
  cases ho : c.corr.oldest with
  | none => exact h0
  | some o =>
    simp only
    generalize (fp.fromSec (fp.rnd (fp.secOfKey o.1 + fp.rnd (c.corrHor * (1/2))))).ns = k
    cases hb : c.corr.getBefore k with
    | none => exact h0
    | some m =>
      rw [Buf.getBefore_eq _ hc.strict.sorted] at hb
      exact hc.corrUpTo m (List.mem_filter.mp (List.mem_of_getLast? hb)).1

/-- What one promoted history holds. -/
theorem promote_spec {c : CInst} {n : ℕ} (hn : 0 < n) {T : Int} (hc : c.Ok n T) (fp : FP) {J : ℕ} {b b' : Buf Mat} (hf : c.base.ccf.find J = some b)
    (h : promote fp c b = .ok b') :
    b' = b ∨ ∃ X, Derived c J (c.middle fp) X ∧ b' = b.insertMap (c.middle fp) X ∧ ∀ e ∈ b, e.1 ≤ c.middle fp := by
  have hbs := hc.ord.buf J b hf
  unfold promote at h
  cases hl : b.latest with
  | none => rw [hl] at h; left; exact (Res.ok.inj h).symm
  | some l =>
    rw [hl] at h
    simp only at h
    by_cases h1 : l.1 ≤ c.middle fp
    · rw [if_pos h1] at h
      have hmax : ∀ e ∈ b, e.1 ≤ l.1 := fun e he => hbs.sorted.le_getLast hl e he
      have hlf : c.base.fac J l.1 = some l.2 := by
        unfold Inst.fac; rw [hf]
        exact (Buf.absMap_eq_some b hbs l.1 l.2).mpr (List.mem_of_getLast? hl)
      have hlr := hc.rows _ _ _ hlf
      by_cases h2 : c.corr.existAt l.1 = true
      · rw [if_pos h2] at h
        have hD : ∀ X, X = applyBetween c.corr l.1 (c.middle fp) l.2 → Derived c J (c.middle fp) X := by
          intro X hX
          refine ⟨l.1, l.2, hlf, h1, ?_, hX⟩
          intro t' ha hb
          unfold Inst.fac; rw [hf]
          show b.absMap t' = none
          cases hm : b.absMap t' with
          | none => rfl
          | some v =>
            have := hmax _ ((Buf.absMap_eq_some b hbs t' v).mp hm)
            simp only at this; omega
        right
        rcases computeCorrection_spec c hc.strict hc.corrShape l.1 (c.middle fp) h1 with ⟨he, -⟩ | he
        · exfalso
          rw [he, Res.bind_ok] at h
          have : Mat.empty *! l.2 = .ub := by
            unfold Mat.mulC
            rw [if_neg]
            rw [hlr]; show ¬ (0 = n); omega
          rw [this] at h; simp at h
        · have hM : (applyBetween c.corr l.1 (c.middle fp) (one n)).Shape n n := applyBetween_shape _ hc.corrShape _ _ _ ⟨rfl, rfl⟩
          have hp : l.2.Shape n l.2.cols := ⟨hlr, rfl⟩
          have hval : applyBetween c.corr l.1 (c.middle fp) (one n) * l.2 = applyBetween c.corr l.1 (c.middle fp) l.2 := by
            rw [← applyBetween_mul, Mat.one_mul l.2 n hlr]
          rw [he, Res.bind_ok, hM.mulC hp, Res.bind_ok, hval] at h
          exact ⟨_, hD _ rfl, (Res.ok.inj h).symm, fun e he => le_trans (hmax e he) h1⟩
      · rw [if_neg h2] at h; simp at h
    · rw [if_neg h1] at h; left; exact (Res.ok.inj h).symm

/-- Effect of `check_correction_horizon`. -/
structure Promoted (fp : FP) (n : ℕ) (T : Int) (c d : CInst) : Prop where
  ok : d.Ok n T
  corr : d.corr = c.corr
  corrHor : d.corrHor = c.corrHor
  bel : d.base.bel = c.base.bel
  hor : d.base.hor = c.base.hor
  derived : ∀ J t M, Derived c J t M → Derived d J t M
  /-- histories stay or get an entry at the middle, which is then their newest -/
  hist : ∀ J b', d.base.ccf.find J = some b' → ∃ b, c.base.ccf.find J = some b ∧
    (b' = b ∨ ∃ X, b' = b.insertMap (c.middle fp) X ∧ ∀ e ∈ b, e.1 ≤ c.middle fp)

theorem checkCorrectionHorizon_spec {c d : CInst} {n : ℕ} (hn : 0 < n) {T : Int} (hc : c.Ok n T) (h0 : 0 ≤ T) (fp : FP)
    (h : c.checkCorrectionHorizon fp = .ok d) : Promoted fp n T c d := by
  unfold checkCorrectionHorizon at h
  split at h
  · obtain ⟨m, hm, hd⟩ := Hdl.bind_eq_ok h
    have hd := Res.ok.inj hd
    obtain ⟨-, hnone, hsome, -, -⟩ := SMap.mapR_spec _ _ _ hm
    have hsrt : m.Sorted := hc.ord.ccf.mapR hm
    have hmid := middle_le hc h0 fp
    have hfind : ∀ K, d.base.ccf.find K = m.find K := fun K => by rw [← hd]
    have hback : ∀ K b', m.find K = some b' → ∃ b, c.base.ccf.find K = some b ∧ promote fp c b = .ok b' := by
      intro K b' hb'
      cases hf : c.base.ccf.find K with
      | none => rw [hnone K hf] at hb'; simp at hb'
      | some b =>
        obtain ⟨w, hw, hmw⟩ := hsome K b hf
        rw [hb'] at hmw
        rw [← Option.some.inj hmw] at hw
        exact ⟨b, rfl, hw⟩
    -- factors towards K after the step
    have hfac : ∀ K, (∀ s, d.base.fac K s = c.base.fac K s) ∨
        ∃ X, Derived c K (c.middle fp) X ∧ ∀ s, d.base.fac K s = (c.base.setCCF (c.middle fp) K X).fac K s := by
      intro K
      cases hf : c.base.ccf.find K with
      | none =>
        left
        intro s
        unfold Inst.fac
        rw [hfind, hf, hnone K hf]
      | some b =>
        obtain ⟨w, hw, hmw⟩ := hsome K b hf
        rcases promote_spec hn hc fp hf hw with heq | ⟨X, hX, heq, -⟩
        · left
          intro s
          unfold Inst.fac
          rw [hfind, hf, hmw, heq]
        · right
          refine ⟨X, hX, fun s => ?_⟩
          unfold Inst.fac
          rw [hfind, hmw, Inst.find_setCCF, if_pos rfl, hf, heq]
          rfl
    refine ⟨⟨?_, ?_, ?_, ?_, ?_, ?_⟩, by rw [← hd], by rw [← hd], by rw [← hd], by rw [← hd], ?_, ?_⟩
    · refine ⟨by rw [← hd]; exact hc.ord.bel, by rw [← hd]; exact hsrt, ?_⟩
      intro K b' hb'
      rw [hfind] at hb'
      obtain ⟨b, hb, hp⟩ := hback K b' hb'
      rcases promote_spec hn hc fp hb hp with heq | ⟨X, -, heq, -⟩
      · rw [heq]; exact hc.ord.buf K b hb
      · rw [heq]; exact Buf.strict_insertMap _ (hc.ord.buf K b hb) _ _
    · refine ⟨by rw [← hd]; exact hc.upTo.bel, ?_⟩
      intro K b' hb' e he
      rw [hfind] at hb'
      obtain ⟨b, hb, hp⟩ := hback K b' hb'
      rcases promote_spec hn hc fp hb hp with heq | ⟨X, -, heq, -⟩
      · rw [heq] at he; exact hc.upTo.ccf K b hb e he
      · rw [heq] at he
        rcases (Buf.mem_insertMap _ (hc.ord.buf K b hb) _ _ _).mp he with he | he
        · rw [he]; exact hmid
        · exact hc.upTo.ccf K b hb e he.1
    · rw [← hd]; exact hc.strict
    · rw [← hd]; exact hc.corrUpTo
    · intro K s M hM
      rcases hfac K with hsame | ⟨X, hX, hins⟩
      · rw [hsame] at hM; exact hc.rows _ _ _ hM
      · rw [hins, Inst.fac_setCCF hc.ord] at hM
        split at hM
        · rw [← Option.some.inj hM]; exact hX.rows hc
        · exact hc.rows _ _ _ hM
    · rw [← hd]; exact hc.corrShape
    · intro K t M hM
      rcases hfac K with hsame | ⟨X, hX, hins⟩
      · exact hM.congr hsame (by rw [← hd])
      · exact (hX.store hc hM).congr hins (by rw [← hd])
    · intro K b' hb'
      rw [hfind] at hb'
      obtain ⟨b, hb, hp⟩ := hback K b' hb'
      refine ⟨b, hb, ?_⟩
      rcases promote_spec hn hc fp hb hp with heq | ⟨X, -, heq, hle⟩
      · exact Or.inl heq
      · exact Or.inr ⟨X, heq, hle⟩
  · have hd := Res.ok.inj h
    subst hd
    exact ⟨hc, rfl, rfl, rfl, rfl, fun _ _ _ h => h, fun J b' hb' => ⟨b', hb', Or.inl rfl⟩⟩

/-- What a call that took `c` to `c'` forgot does not matter for factors at times from `L` on: towards each
instance either nothing was dropped, or some kept factor is at or before `L` and no correction newer than
that factor was dropped. -/
def Window (c c' : CInst) (L : Int) : Prop :=
  ∀ J b b', c.base.ccf.find J = some b → b ≠ [] → c'.base.ccf.find J = some b' →
    ((∀ x ∈ b, ∃ y ∈ b', y.1 = x.1) ∧ (∀ e ∈ c.corr, e ∈ c'.corr)) ∨
      ∃ k ∈ b', k.1 ≤ L ∧ ∀ e ∈ c.corr, e ∉ c'.corr → e.1 ≤ k.1

theorem filter_suffix {l l' : Buf Mat} (hsuf : l' <:+ l) (p : Int × Mat → Bool)
    (h : ∀ e ∈ l, p e = true → e ∈ l') (hl : l.StrictKeys) : l'.filter p = l.filter p := by
  obtain ⟨x, rfl⟩ := hsuf
  rw [List.filter_append]
  have : x.filter p = [] := by
    rw [List.filter_eq_nil_iff]
    intro e he hp
    have h1 := h e (List.mem_append_left _ he) hp
    have := (List.pairwise_append.mp hl).2.2 e he e h1
    omega
  rw [this]; rfl

/-- A kept entry keeps everything after it. -/
theorem suffix_mem {α : Type _} {l l' : Buf α} (hsuf : l' <:+ l) (hl : l.StrictKeys) {k x : Int × α} (hk : k ∈ l') (hx : x ∈ l) (hkx : k.1 ≤ x.1) :
    x ∈ l' := by
  obtain ⟨y, rfl⟩ := hsuf
  rcases List.mem_append.mp hx with h | h
  · have := (List.pairwise_append.mp hl).2.2 x h k hk
    omega
  · exact h

/-- Trimming keeps what the kept factors and later corrections determine. -/
theorem Derived.trim {d : CInst} {n : ℕ} {T : Int} (hc : d.Ok n T) (fp : FP) {corr' : Buf Mat} (hsuf : corr' <:+ d.corr) {L : Int} {J : ℕ}
    (hW : ∀ b, d.base.ccf.find J = some b →
      ((∀ x ∈ b, x ∈ Buf.checkHorizonRestricted fp d.base.hor b 4) ∧ (∀ e ∈ d.corr, e ∈ corr')) ∨
      ∃ k ∈ Buf.checkHorizonRestricted fp d.base.hor b 4, k.1 ≤ L ∧ ∀ e ∈ d.corr, e ∉ corr' → e.1 ≤ k.1)
    {t : Int} {M : Mat} (ht : L ≤ t) (h : Derived d J t M) : Derived ⟨d.base.checkHorizon fp, corr', d.corrHor⟩ J t M := by
  obtain ⟨tp, A, hf, hle, hno, hv⟩ := h
  cases hb : d.base.ccf.find J with
  | none => unfold Inst.fac at hf; rw [hb] at hf; simp at hf
  | some b =>
    have hbs := hc.ord.buf J b hb
    have hfb : ∀ s, d.base.fac J s = b.absMap s := fun s => by unfold Inst.fac; rw [hb]; rfl
    have htpm : (tp, A) ∈ b := (Buf.absMap_eq_some b hbs tp A).mp (by rw [← hfb]; exact hf)
    obtain ⟨-, hsuf2⟩ := Buf.horizonRestricted_facts fp d.base.hor b 4
    have hfind : (d.base.checkHorizon fp).ccf.find J = some (Buf.checkHorizonRestricted fp d.base.hor b 4) := by
      rw [Inst.find_checkHorizon, hb]; rfl
    have hboth : (tp, A) ∈ Buf.checkHorizonRestricted fp d.base.hor b 4 ∧ ∀ e ∈ d.corr, tp < e.1 → e ∈ corr' := by
      rcases hW b hb with ⟨h1, h2⟩ | ⟨k, hk, hkL, hdrop⟩
      · exact ⟨h1 _ htpm, fun e he _ => h2 e he⟩
      · have hkb := hsuf2.subset hk
        have hktp : k.1 ≤ tp := by
          by_contra hcon
          have := hno k.1 (by omega) (by omega)
          rw [hfb, (Buf.absMap_eq_some b hbs k.1 k.2).mpr hkb] at this
          simp at this
        refine ⟨suffix_mem hsuf2 hbs hk htpm hktp, ?_⟩
        intro e he hlt
        by_contra hne
        have := hdrop e he hne
        omega
    have hs' := Buf.strict_horizonRestricted fp d.base.hor b 4 hbs
    refine ⟨tp, A, ?_, hle, ?_, ?_⟩
    · show (d.base.checkHorizon fp).fac J tp = _
      unfold Inst.fac
      rw [hfind]
      exact (Buf.absMap_eq_some _ hs' tp A).mpr hboth.1
    · intro t' h1 h2
      show (d.base.checkHorizon fp).fac J t' = _
      cases hg : (d.base.checkHorizon fp).fac J t' with
      | none => rfl
      | some Y =>
        have := Inst.fac_checkHorizon_sub hc.ord fp J t' Y hg
        rw [hno t' h1 h2] at this; simp at this
    · rw [hv]
      unfold applyBetween
      simp only
      rw [filter_suffix hsuf _ _ hc.strict]
      intro e he hp
      have hp : tp < e.1 ∧ e.1 ≤ t := by simpa using hp
      exact hboth.2 e he hp.1

theorem Sim.checkHorizon {n : ℕ} (hn : 0 < n) {L T : Int} (h0 : 0 ≤ T) {e : Inst} {c c' : CInst} (h : Sim n L T e c) (fp : FP)
    (hc : c.checkHorizon fp = .ok c') {L' : Int} (hL : L ≤ L') (hW : Window c c' L') :
    Sim n L' T (e.checkHorizon fp) c' := by
  unfold CInst.checkHorizon at hc
  obtain ⟨d, hd, hc'⟩ := Hdl.bind_eq_ok hc
  have hc' := Res.ok.inj hc'
  have hp := checkCorrectionHorizon_spec hn h.ok h0 fp hd
  obtain ⟨hlast, hsuf, -⟩ := c15_newest_kept fp d.corrHor d.corr
  subst hc'
  refine ⟨?_, ?_, h.eord.checkHorizon fp, h.eup.checkHorizon fp, ?_, ⟨?_, ?_, ?_, ?_, ?_, ?_⟩, ?_⟩
  · show Buf.checkHorizonRestricted fp d.base.hor d.base.bel 4 = Buf.checkHorizonRestricted fp e.hor e.bel 4
    rw [hp.bel, hp.hor, h.bel, h.hor]
  · show d.base.hor = e.hor
    rw [hp.hor, h.hor]
  · intro J t M hM
    exact h.erows J t M (Inst.fac_checkHorizon_sub h.eord fp J t M hM)
  · exact hp.ok.ord.checkHorizon fp
  · exact hp.ok.upTo.checkHorizon fp
  · exact List.Pairwise.sublist hsuf.sublist hp.ok.strict
  · intro x hx; exact hp.ok.corrUpTo x (hsuf.subset hx)
  · intro J t M hM
    exact hp.ok.rows J t M (Inst.fac_checkHorizon_sub hp.ok.ord fp J t M hM)
  · intro x hx; exact hp.ok.corrShape x (hsuf.subset hx)
  · intro J t M ht hM
    have h1 := h.fac J t M (le_trans hL ht) (Inst.fac_checkHorizon_sub h.eord fp J t M hM)
    refine Derived.trim hp.ok fp hsuf ?_ ht (hp.derived J t M h1)
    intro bd hbd
    have hbds := hp.ok.ord.buf J bd hbd
    obtain ⟨b, hb, hcase⟩ := hp.hist J bd hbd
    have hfind : (d.base.checkHorizon fp).ccf.find J = some (Buf.checkHorizonRestricted fp d.base.hor bd 4) := by
      rw [Inst.find_checkHorizon, hbd]; rfl
    obtain ⟨-, hsuf2⟩ := Buf.horizonRestricted_facts fp d.base.hor bd 4
    have hbne : b ≠ [] := by
      rintro rfl
      obtain ⟨tp, A, hf, -⟩ := h1
      unfold Inst.fac at hf
      rw [hb] at hf
      simp [Buf.absMap_nil] at hf
    rcases hW J b _ hb hbne hfind with ⟨h2, h3⟩ | ⟨k, hk, hkL, hdrop⟩
    · left
      refine ⟨?_, fun x hx => h3 x (by rw [← hp.corr]; exact hx)⟩
      intro x hx
      -- some entry of b is at or before x
      have hx' : ∃ z ∈ b, z.1 ≤ x.1 := by
        rcases hcase with heq | ⟨X, heq, hall⟩
        · exact ⟨x, by rw [← heq]; exact hx, le_rfl⟩
        · rw [heq] at hx
          rcases (Buf.mem_insertMap _ (h.ok.ord.buf J b hb) _ _ _).mp hx with hx | hx
          · cases hbb : b with
            | nil => exact absurd hbb hbne
            | cons z r =>
              refine ⟨z, List.mem_cons_self, ?_⟩
              rw [hx]
              exact hall z (by rw [hbb]; exact List.mem_cons_self)
          · exact ⟨x, hx.1, le_rfl⟩
      obtain ⟨z, hz, hzx⟩ := hx'
      obtain ⟨y, hy, hyz⟩ := h2 z hz
      exact suffix_mem hsuf2 hbds hy hx (by omega)
    · right
      refine ⟨k, hk, hkL, ?_⟩
      intro x hx hnx
      exact hdrop x (by rw [← hp.corr]; exact hx) hnx

/-- `check_horizon` while every history is within its horizon: nothing changes. -/
theorem checkHorizon_id {c : CInst} (fp : FP) (h1 : c.corr.horizon fp ≤ fp.rnd (c.corrHor * (1/2))) (h2 : c.corr.horizon fp ≤ c.corrHor)
    (h3 : c.base.bel.horizon fp ≤ c.base.hor) (h4 : ∀ e ∈ c.base.ccf, Buf.horizon fp e.2 ≤ c.base.hor) :
    c.checkHorizon fp = .ok c := by
  have hr : ∀ {α : Type} (b : Buf α), b.horizon fp ≤ c.base.hor → Buf.checkHorizonRestricted fp c.base.hor b 4 = b := by
    intro α b hb
    unfold Buf.checkHorizonRestricted
    rw [if_neg (fun hh => absurd hh.2 (not_lt.mpr hb))]
  unfold CInst.checkHorizon checkCorrectionHorizon
  rw [if_neg (not_lt.mpr h1), Res.bind_ok, (c15_newest_kept fp c.corrHor c.corr).2.2 h2]
  congr 1
  have : c.base.checkHorizon fp = c.base := by
    unfold Inst.checkHorizon
    rw [hr _ h3]
    have : SMap.mapV (fun b => Buf.checkHorizonRestricted fp c.base.hor b 4) c.base.ccf = c.base.ccf := by
      unfold SMap.mapV
      conv_rhs => rw [← List.map_id c.base.ccf]
      apply List.map_congr_left
      intro e he
      simp only
      rw [hr _ (h4 e he)]; rfl
    rw [this]
  rw [this]

theorem fac_removeAfter {i : Inst} (ho : i.Ord) (t : Int) (J : ℕ) (s : Int) :
    (i.removeAfter t).fac J s = if s ≤ t then i.fac J s else none := by
  unfold Inst.fac Inst.removeAfter
  simp only
  rw [SMap.find_mapV]
  cases hf : i.ccf.find J with
  | none => simp
  | some b => exact Buf.absMap_removeAfter b (ho.buf J b hf) t s

theorem Ord_removeAfter {i : Inst} (ho : i.Ord) (t : Int) : (i.removeAfter t).Ord where
  bel := Buf.strict_removeAfter _ ho.bel _
  ccf := ho.ccf.mapV (fun b => b.removeAfter t)
  buf := by
    intro J b hb
    unfold Inst.removeAfter at hb
    simp only at hb
    rw [SMap.find_mapV] at hb
    obtain ⟨b0, h0, rfl⟩ := Option.map_eq_some_iff.mp hb
    exact Buf.strict_removeAfter _ (ho.buf J b0 h0) _

theorem UpTo_removeAfter {i : Inst} (ho : i.Ord) (t : Int) : (i.removeAfter t).UpTo t where
  bel := by
    intro e he
    have he : e ∈ i.bel.removeAfter t := he
    rw [Buf.removeAfter_eq _ ho.bel.sorted] at he
    simpa using (List.mem_filter.mp he).2
  ccf := by
    intro J b hb e he
    unfold Inst.removeAfter at hb
    simp only at hb
    rw [SMap.find_mapV] at hb
    obtain ⟨b0, h0, rfl⟩ := Option.map_eq_some_iff.mp hb
    rw [Buf.removeAfter_eq _ (ho.buf J b0 h0).sorted] at he
    simpa using (List.mem_filter.mp he).2

theorem Sim.removeAfter {n : ℕ} {L T : Int} {e : Inst} {c : CInst} (h : Sim n L T e c) (t : Int) :
    Sim n L t (e.removeAfter t) (c.removeAfter t) where
  bel := by show c.base.bel.removeAfter t = e.bel.removeAfter t; rw [h.bel]
  hor := h.hor
  eord := Ord_removeAfter h.eord t
  eup := UpTo_removeAfter h.eord t
  erows := by
    intro J s M hM
    rw [fac_removeAfter h.eord] at hM
    split at hM
    · exact h.erows _ _ _ hM
    · simp at hM
  ok := {
    ord := Ord_removeAfter h.ok.ord t
    upTo := UpTo_removeAfter h.ok.ord t
    strict := Buf.strict_removeAfter _ h.ok.strict t
    corrUpTo := by
      intro x hx
      have hx : x ∈ c.corr.removeAfter t := hx
      rw [Buf.removeAfter_eq _ h.ok.strict.sorted] at hx
      simpa using (List.mem_filter.mp hx).2
    rows := by
      intro J s M hM
      have hM : (c.base.removeAfter t).fac J s = some M := hM
      rw [fac_removeAfter h.ok.ord] at hM
      split at hM
      · exact h.ok.rows _ _ _ hM
      · simp at hM
    corrShape := by
      intro x hx
      have hx : x ∈ c.corr.removeAfter t := hx
      rw [Buf.removeAfter_eq _ h.ok.strict.sorted] at hx
      exact h.ok.corrShape x (List.mem_filter.mp hx).1 }
  fac := by
    intro J s M hs hM
    rw [fac_removeAfter h.eord] at hM
    split at hM
    · rename_i hst
      obtain ⟨tp, A, hf, hle, hno, hv⟩ := h.fac J s M hs hM
      have hfac := fun s' => fac_removeAfter h.ok.ord t J s'
      refine ⟨tp, A, ?_, hle, ?_, ?_⟩
      · show (c.base.removeAfter t).fac J tp = _
        rw [hfac, if_pos (by omega)]; exact hf
      · intro t' h1 h2
        show (c.base.removeAfter t).fac J t' = _
        rw [hfac, if_pos (by omega)]; exact hno t' h1 h2
      · rw [hv]
        show _ = applyBetween (c.corr.removeAfter t) tp s A
        unfold applyBetween
        rw [Buf.removeAfter_eq _ h.ok.strict.sorted, List.filter_filter]
        congr 1
        apply List.filter_congr
        intro x _
        rw [Bool.eq_iff_iff]
        simp
        omega
    · simp at hM

end CInst
end Ikf
