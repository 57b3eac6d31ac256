import Verif.Lemmas.Stack

/-! # Effect of the handler's loops on all factors and beliefs -/

namespace Ikf
open Mat

namespace Hdl

/-- The factor instance `p` stores towards `q` at `t`. -/
def fc (h : Hdl) (p q : ℕ) (t : Int) : Option Mat := (h.find p).bind (fun i => i.fac q t)
/-- The belief instance `p` stores at `t`. -/
def bl (h : Hdl) (p : ℕ) (t : Int) : Option Belief := (h.find p).bind (fun i => i.beliefAt t)

/-- Sorted maps everywhere, nothing stored after `T p`. -/
structure HOk (T : ℕ → Int) (h : Hdl) : Prop where
  sorted : h.Sorted
  ord : ∀ p i, h.find p = some i → i.Ord
  upTo : ∀ p i, h.find p = some i → i.UpTo (T p)

theorem get_ok {h : Hdl} {p : ℕ} {i : Inst} (hf : h.find p = some i) : get h p = .ok i := by unfold get; rw [hf]

/-- Same instances. -/
def SameDom (h h' : Hdl) : Prop := ∀ p, (h'.find p).isSome = (h.find p).isSome

theorem SameDom.refl (h : Hdl) : SameDom h h := fun _ => rfl
theorem SameDom.trans {a b c : Hdl} (h1 : SameDom a b) (h2 : SameDom b c) : SameDom a c := fun p => (h2 p).trans (h1 p)

section set1
variable {T : ℕ → Int} {h : Hdl} {p : ℕ} {i j : Inst}

theorem HOk.set1 (hk : HOk T h) (ho : j.Ord) (hu : j.UpTo (T p)) : HOk T (h.set p j) where
  sorted := hk.sorted.set _ _
  ord := by
    intro q x hx
    rw [SMap.find_set] at hx
    split at hx
    · rw [← Option.some.inj hx]; exact ho
    · exact hk.ord q x hx
  upTo := by
    intro q x hx
    rw [SMap.find_set] at hx
    split at hx
    · rename_i hpq; rw [← Option.some.inj hx, ← hpq]; exact hu
    · exact hk.upTo q x hx

theorem sameDom_set1 (hf : h.find p = some i) : SameDom h (h.set p j) := by
  intro q
  rw [SMap.find_set]
  split
  · rename_i hpq; rw [← hpq, hf]; rfl
  · rfl

theorem fc_set1 (q : ℕ) (r : ℕ) (t : Int) : fc (h.set p j) q r t = if p = q then j.fac r t else fc h q r t := by
  unfold fc
  rw [SMap.find_set]
  split <;> rfl

theorem bl_set1 (q : ℕ) (t : Int) : bl (h.set p j) q t = if p = q then j.beliefAt t else bl h q t := by
  unfold bl
  rw [SMap.find_set]
  split <;> rfl

theorem fc_of_find (hf : h.find p = some i) (r : ℕ) (t : Int) : fc h p r t = i.fac r t := by unfold fc; rw [hf]; rfl
theorem bl_of_find (hf : h.find p = some i) (t : Int) : bl h p t = i.beliefAt t := by unfold bl; rw [hf]; rfl
end set1

theorem beliefAt_setCCF (i : Inst) (t : Int) (J : ℕ) (M : Mat) (t' : Int) : (i.setCCF t J M).beliefAt t' = i.beliefAt t' := by
  unfold Inst.beliefAt; rw [Inst.setCCF_bel]

/-- Storing one factor. -/
theorem setFac_facts {T : ℕ → Int} {h : Hdl} (hk : HOk T h) {p : ℕ} {i : Inst} (hf : h.find p = some i) (q : ℕ) (M : Mat) (t : Int)
    (ht : t ≤ T p) :
    HOk T (h.set p (i.setCCF t q M)) ∧ SameDom h (h.set p (i.setCCF t q M)) ∧
    (∀ a t', bl (h.set p (i.setCCF t q M)) a t' = bl h a t') ∧
    (∀ a b t', fc (h.set p (i.setCCF t q M)) a b t' = if a = p ∧ b = q ∧ t' = t then some M else fc h a b t') := by
  have ho := hk.ord p i hf
  refine ⟨hk.set1 (ho.setCCF _ _ _) ((hk.upTo p i hf).setCCF ho t q M ht), sameDom_set1 hf, ?_, ?_⟩
  · intro a t'
    rw [bl_set1]
    split
    · rename_i hpa; rw [beliefAt_setCCF, ← hpa, bl_of_find hf]
    · rfl
  · intro a b t'
    rw [fc_set1]
    by_cases hpa : p = a
    · subst hpa
      rw [if_pos rfl, Inst.fac_setCCF ho, fc_of_find hf]
      by_cases hc : q = b ∧ t' = t
      · rw [if_pos hc, if_pos ⟨rfl, hc.1.symm, hc.2⟩]
      · rw [if_neg hc, if_neg (fun hh => hc ⟨hh.2.1.symm, hh.2.2⟩)]
    · rw [if_neg hpa, if_neg (fun hh => hpa hh.1.symm)]

/-- `set_Sigma_IJ_at_t` for I < J. -/
theorem setSigma_lt {T : ℕ → Int} {h : Hdl} (hk : HOk T h) {I J : ℕ} (hIJ : I < J) (S : Mat) (t : Int)
    (hI : (h.find I).isSome) (hJ : (h.find J).isSome) (hTI : t ≤ T I) (hTJ : t ≤ T J) :
    ∃ h', setSigma h I J S t = .ok h' ∧ HOk T h' ∧ SameDom h h' ∧ (∀ a t', bl h' a t' = bl h a t') ∧
      ∀ a b t', fc h' a b t' = if a = I ∧ b = J ∧ t' = t then some S else if a = J ∧ b = I ∧ t' = t then some (one S.cols) else fc h a b t' := by
  obtain ⟨i, hi⟩ := Option.isSome_iff_exists.mp hI
  unfold setSigma
  rw [if_pos hIJ, get_ok hi, Res.bind_ok]
  obtain ⟨k1, d1, b1, f1⟩ := setFac_facts hk hi J S t hTI
  have hJ1 : ((h.set I (i.setCCF t J S)).find J).isSome := by rw [d1 J]; exact hJ
  obtain ⟨j, hj⟩ := Option.isSome_iff_exists.mp hJ1
  simp only
  rw [get_ok hj, Res.bind_ok]
  obtain ⟨k2, d2, b2, f2⟩ := setFac_facts k1 hj I (one S.cols) t hTJ
  refine ⟨_, rfl, k2, d1.trans d2, fun a t' => (b2 a t').trans (b1 a t'), ?_⟩
  intro a b t'
  rw [f2, f1]
  by_cases h1 : a = I ∧ b = J ∧ t' = t
  · rw [if_pos h1, if_pos h1, if_neg (by omega)]
  · rw [if_neg h1, if_neg h1]

/-- `set_Sigma_IJ_at_t` for J < I. -/
theorem setSigma_gt {T : ℕ → Int} {h : Hdl} (hk : HOk T h) {I J : ℕ} (hIJ : J < I) (S : Mat) (t : Int)
    (hI : (h.find I).isSome) (hJ : (h.find J).isSome) (hTI : t ≤ T I) (hTJ : t ≤ T J) :
    ∃ h', setSigma h I J S t = .ok h' ∧ HOk T h' ∧ SameDom h h' ∧ (∀ a t', bl h' a t' = bl h a t') ∧
      ∀ a b t', fc h' a b t' = if a = J ∧ b = I ∧ t' = t then some S.tr else if a = I ∧ b = J ∧ t' = t then some (one S.rows) else fc h a b t' := by
  obtain ⟨h', h1, h2⟩ := setSigma_lt hk hIJ S.tr t hJ hI hTJ hTI
  refine ⟨h', ?_, h2⟩
  unfold setSigma at h1 ⊢
  rw [if_pos hIJ] at h1
  rw [if_neg (by omega)]
  exact h1

/-! ## The commit loops -/

theorem sameDom_isSome {h h' : Hdl} (hd : SameDom h h') {p : ℕ} (hp : (h.find p).isSome) : (h'.find p).isSome := by rw [hd p]; exact hp

/-- Loop of `apply_corrections_at_t`. -/
theorem applyCorrections_spec {T : ℕ → Int} {P : Mat} {t : Int} {D : SMap Belief} (hD : (D.map (·.1)).Nodup)
    (hu : ∀ e ∈ D, e.2.fixed = false) (hP : P.Shape (tot (bdims D)) (tot (bdims D))) (hS : ∀ e ∈ D, e.2.Sigma.Shape e.2.dim e.2.dim)
    (ht : ∀ e ∈ D, t ≤ T e.1) (L : ℕ → Mat)
    (hL : ∀ e ∈ D, L e.1 = P.block (off (bdims D) e.1) (off (bdims D) e.1) e.2.dim e.2.dim * e.2.Sigma.inv)
    (r l : SMap Belief) (hlr : l ++ r = D) (h : Hdl) (hk : HOk T h) (hreg : ∀ e ∈ D, (h.find e.1).isSome)
    (hF : ∀ e ∈ D, ∀ q M, fc h e.1 q t = some M → M.rows = e.2.dim) :
    ∃ h', applyCorrections P t r (tot (bdims l)) h = .ok h' ∧ HOk T h' ∧ SameDom h h' ∧ (∀ a t', bl h' a t' = bl h a t') ∧
      ∀ a b t', fc h' a b t' = if t' = t ∧ a ∈ r.map (·.1) then (fc h a b t).map (L a * ·) else fc h a b t' := by
  induction r generalizing l h with
  | nil => exact ⟨h, rfl, hk, SameDom.refl h, fun _ _ => rfl, fun a b t' => by simp⟩
  | cons e r ih =>
    have he : e ∈ D := by rw [← hlr]; simp
    have hn' : ((bdims D).map (·.1)).Nodup := by rw [bdims_keys]; exact hD
    have hoff : off (bdims D) e.1 = tot (bdims l) := by rw [← hlr]; exact off_bdims l e r (by rw [hlr]; exact hD)
    have hem : (e.1, e.2.dim) ∈ bdims D := List.mem_map.mpr ⟨e, he, rfl⟩
    have hle := off_add_le hn' hem
    simp only at hle
    have hlr' : (l ++ [e]) ++ r = D := by rw [← hlr]; simp
    obtain ⟨i, hi⟩ := Option.isSome_iff_exists.mp (hreg e he)
    have ho := hk.ord _ i hi
    have hSe := hS e he
    have hLs : (P.block (off (bdims D) e.1) (off (bdims D) e.1) e.2.dim e.2.dim * e.2.Sigma.inv).Shape e.2.dim e.2.dim :=
      Shape.mul ⟨rfl, rfl⟩ hSe.inv
    unfold applyCorrections
    rw [hu e he]
    simp only [Bool.not_false, if_true]
    rw [← hoff, blockC_ok (by rw [hP.1]; exact hle) (by rw [hP.2]; exact hle), Res.bind_ok, get_ok hi, Res.bind_ok]
    unfold Inst.applyCorrectionSigma
    rw [hSe.invC, Res.bind_ok, Shape.mulC (k := e.2.dim) ⟨rfl, rfl⟩ hSe.inv, Res.bind_ok, ← hL e he]
    rw [← hL e he] at hLs
    rw [Inst.applyCorrection_ok ho t (L e.1) (fun J M hM => by
      rw [hLs.2]; exact (hF e he J M (by rw [fc_of_find hi]; exact hM)).symm), Res.bind_ok, hoff, tot_bdims_snoc]
    have hk1 : HOk T (h.set e.1 (i.mulFac t t (L e.1))) :=
      hk.set1 (ho.mulFac _ _ _) ((hk.upTo _ i hi).mulFac ho t t (L e.1) (ht e he))
    have hd1 : SameDom h (h.set e.1 (i.mulFac t t (L e.1))) := sameDom_set1 hi
    have hb1 : ∀ a t', bl (h.set e.1 (i.mulFac t t (L e.1))) a t' = bl h a t' := by
      intro a t'
      rw [bl_set1]
      split
      · rename_i hpa; rw [← hpa, bl_of_find hi]; rfl
      · rfl
    have hf1 : ∀ a b t', fc (h.set e.1 (i.mulFac t t (L e.1))) a b t' =
        if t' = t ∧ a = e.1 then (fc h a b t).map (L a * ·) else fc h a b t' := by
      intro a b t'
      rw [fc_set1]
      by_cases hpa : e.1 = a
      · subst hpa
        rw [if_pos rfl, Inst.fac_mulFac ho, fc_of_find hi, fc_of_find hi]
        by_cases htt : t' = t
        · subst htt
          cases i.fac b t' <;> simp
        · rw [if_neg (fun hh => htt hh.1), if_neg (fun hh => htt hh.1)]
      · rw [if_neg hpa, if_neg (fun hh => hpa hh.2.symm)]
    have hF1 : ∀ x ∈ D, ∀ q M, fc (h.set e.1 (i.mulFac t t (L e.1))) x.1 q t = some M → M.rows = x.2.dim := by
      intro x hx q M hM
      rw [hf1] at hM
      split at hM
      · rename_i hc
        have hxe : x = e := List.inj_on_of_nodup_map hD hx he hc.2
        obtain ⟨M0, h0, rfl⟩ := Option.map_eq_some_iff.mp hM
        rw [hxe, mul_rows]; exact hLs.1
      · exact hF x hx q M hM
    obtain ⟨h', g1, g2, g3, g4, g5⟩ := ih (l ++ [e]) hlr' _ hk1 (fun x hx => sameDom_isSome hd1 (hreg x hx)) hF1
    refine ⟨h', g1, g2, hd1.trans g3, fun a t' => (g4 a t').trans (hb1 a t'), ?_⟩
    intro a b t'
    rw [g5, hf1, hf1]
    have hne : e.1 ∉ r.map (·.1) := by
      rw [← hlr] at hD
      simp only [List.map_append, List.map_cons, List.nodup_append, List.nodup_cons] at hD
      exact hD.2.1.1
    by_cases htt : t' = t
    · subst htt
      by_cases ha : a = e.1
      · subst ha
        simp [hne]
      · by_cases har : a ∈ r.map (·.1)
        · rw [if_pos ⟨rfl, har⟩, if_neg (fun hh => ha hh.2), if_pos ⟨rfl, List.mem_cons_of_mem _ har⟩]
        · rw [if_neg (fun hh => har hh.2), if_neg (fun hh => ha hh.2), if_neg]
          rintro ⟨-, hh⟩
          rcases List.mem_cons.mp hh with hh | hh
          · exact ha hh
          · exact har hh
    · rw [if_neg (fun hh => htt hh.1), if_neg (fun hh => htt hh.1), if_neg (fun hh => htt hh.1)]

/-- Inner loop of `split_right_upper_covariance`. -/
theorem splitRow_spec {T : ℕ → Int} {P : Mat} {t : Int} {bs : List (ℕ × ℕ)} (hn : (bs.map (·.1)).Nodup)
    (hP : P.Shape (tot bs) (tot bs)) (ht : ∀ p ∈ bs, t ≤ T p.1) {I : ℕ × ℕ} (hI : I ∈ bs)
    (r l : List (ℕ × ℕ)) (hlr : l ++ r = bs) (hlt : ∀ p ∈ r, I.1 < p.1) (h : Hdl) (hk : HOk T h)
    (hreg : ∀ p ∈ bs, (h.find p.1).isSome) :
    ∃ h', splitRow P t I.1 I.2 (off bs I.1) r (tot l) h = .ok h' ∧ HOk T h' ∧ SameDom h h' ∧ (∀ a t', bl h' a t' = bl h a t') ∧
      (∀ q ∈ r, fc h' I.1 q.1 t = some (P.block (off bs I.1) (off bs q.1) I.2 q.2)) ∧
      (∀ q ∈ r, fc h' q.1 I.1 t = some (one q.2)) ∧
      ∀ a b t', ¬ (t' = t ∧ ((a = I.1 ∧ b ∈ r.map (·.1)) ∨ (b = I.1 ∧ a ∈ r.map (·.1)))) → fc h' a b t' = fc h a b t' := by
  induction r generalizing l h with
  | nil => exact ⟨h, rfl, hk, SameDom.refl h, fun _ _ => rfl, by simp, by simp, fun _ _ _ _ => rfl⟩
  | cons q r ih =>
    have hq : q ∈ bs := by rw [← hlr]; simp
    have hnlr : ((l ++ q :: r).map (·.1)).Nodup := by rw [hlr]; exact hn
    have hne : q.1 ∉ l.map (·.1) ∧ q.1 ∉ r.map (·.1) := by
      simp only [List.map_append, List.map_cons, List.nodup_append, List.nodup_cons] at hnlr
      exact ⟨fun hh => hnlr.2.2 _ hh _ List.mem_cons_self rfl, hnlr.2.1.1⟩
    have hoff : off bs q.1 = tot l := by rw [← hlr]; exact off_append l q r hne.1
    have hle := off_add_le hn hq
    have hleI := off_add_le hn hI
    have hlr' : (l ++ [q]) ++ r = bs := by rw [← hlr]; simp
    have hIq := hlt q List.mem_cons_self
    have htot : tot l + q.2 = tot (l ++ [q]) := by simp [tot_append, tot]
    obtain ⟨qi, qd⟩ := q
    unfold splitRow
    simp only at hoff hle hne hIq htot ⊢
    rw [← hoff, blockC_ok (by rw [hP.1]; exact hleI) (by rw [hP.2]; exact hle), Res.bind_ok]
    obtain ⟨h1, e1, k1, d1, b1, f1⟩ := setSigma_lt hk hIq (P.block (off bs I.1) (off bs qi) I.2 qd) t (hreg I hI) (hreg _ hq) (ht I hI) (ht _ hq)
    rw [e1, Res.bind_ok, hoff, htot]
    obtain ⟨h', g1, g2, g3, g4, g5, g6, g7⟩ := ih (l ++ [(qi, qd)]) hlr' (fun p hp => hlt p (List.mem_cons_of_mem _ hp)) h1 k1
      (fun p hp => sameDom_isSome d1 (hreg p hp))
    refine ⟨h', g1, g2, d1.trans g3, fun a t' => (g4 a t').trans (b1 a t'), ?_, ?_, ?_⟩
    · intro x hx
      rcases List.mem_cons.mp hx with rfl | hx
      · rw [g7 I.1 qi t (by
          rintro ⟨-, ⟨-, hh⟩ | ⟨hh, -⟩⟩
          · exact hne.2 hh
          · omega), f1, if_pos ⟨rfl, rfl, rfl⟩]
      · exact g5 x hx
    · intro x hx
      rcases List.mem_cons.mp hx with rfl | hx
      · rw [g7 qi I.1 t (by
          rintro ⟨-, ⟨hh, -⟩ | ⟨-, hh⟩⟩
          · omega
          · exact hne.2 hh), f1, if_neg (by omega), if_pos ⟨rfl, rfl, rfl⟩]
        rfl
      · exact g6 x hx
    · intro a b t' hno
      rw [g7 a b t' (by
        rintro ⟨x1, ⟨x2, x3⟩ | ⟨x2, x3⟩⟩
        · exact hno ⟨x1, Or.inl ⟨x2, List.mem_cons_of_mem _ x3⟩⟩
        · exact hno ⟨x1, Or.inr ⟨x2, List.mem_cons_of_mem _ x3⟩⟩), f1, if_neg, if_neg]
      · rintro ⟨x1, x2, x3⟩; exact hno ⟨x3, Or.inr ⟨x2, by rw [x1]; exact List.mem_cons_self⟩⟩
      · rintro ⟨x1, x2, x3⟩; exact hno ⟨x3, Or.inl ⟨x1, by rw [x2]; exact List.mem_cons_self⟩⟩

/-- Outer loop of `split_right_upper_covariance`. -/
theorem splitRows_spec {T : ℕ → Int} {P : Mat} {t : Int} {bs : List (ℕ × ℕ)} (hs : bs.Pairwise (fun a b => a.1 < b.1))
    (hP : P.Shape (tot bs) (tot bs)) (ht : ∀ p ∈ bs, t ≤ T p.1)
    (r l : List (ℕ × ℕ)) (hlr : l ++ r = bs) (h : Hdl) (hk : HOk T h) (hreg : ∀ p ∈ bs, (h.find p.1).isSome) :
    ∃ h', splitRows P t r (tot l) (tot l) h = .ok h' ∧ HOk T h' ∧ SameDom h h' ∧ (∀ a t', bl h' a t' = bl h a t') ∧
      (∀ p ∈ r, ∀ q ∈ r, p.1 < q.1 → fc h' p.1 q.1 t = some (P.block (off bs p.1) (off bs q.1) p.2 q.2)) ∧
      (∀ p ∈ r, ∀ q ∈ r, p.1 < q.1 → fc h' q.1 p.1 t = some (one q.2)) ∧
      ∀ a b t', ¬ (t' = t ∧ a ≠ b ∧ a ∈ r.map (·.1) ∧ b ∈ r.map (·.1)) → fc h' a b t' = fc h a b t' := by
  have hn : (bs.map (·.1)).Nodup := by
    rw [List.nodup_iff_pairwise_ne, List.pairwise_map]
    exact hs.imp (fun h => Nat.ne_of_lt h)
  induction r generalizing l h with
  | nil => exact ⟨h, rfl, hk, SameDom.refl h, fun _ _ => rfl, by simp, by simp, fun _ _ _ _ => rfl⟩
  | cons q r ih =>
    have hq : q ∈ bs := by rw [← hlr]; simp
    have hslr : (l ++ q :: r).Pairwise (fun a b => a.1 < b.1) := by rw [hlr]; exact hs
    have hlt : ∀ p ∈ r, q.1 < p.1 := by
      rw [List.pairwise_append, List.pairwise_cons] at hslr
      exact hslr.2.1.1
    have hnl : q.1 ∉ l.map (·.1) := by
      rw [List.pairwise_append] at hslr
      intro hh
      obtain ⟨x, hx, hxe⟩ := List.mem_map.mp hh
      have := hslr.2.2 x hx q List.mem_cons_self
      omega
    have hnr : q.1 ∉ r.map (·.1) := by
      intro hh
      obtain ⟨x, hx, hxe⟩ := List.mem_map.mp hh
      have := hlt x hx
      omega
    have hoff : off bs q.1 = tot l := by rw [← hlr]; exact off_append l q r hnl
    have hlr' : (l ++ [q]) ++ r = bs := by rw [← hlr]; simp
    have htot : tot l + q.2 = tot (l ++ [q]) := by simp [tot_append, tot]
    obtain ⟨h1, e1, k1, d1, b1, f1, f2, f3⟩ := splitRow_spec hn hP ht hq r (l ++ [q]) hlr' hlt h hk hreg
    obtain ⟨qi, qd⟩ := q
    unfold splitRows
    simp only at hoff htot e1 f1 f2 f3 hlt hnl hnr ⊢
    rw [htot]
    rw [hoff] at e1
    rw [e1, Res.bind_ok]
    obtain ⟨h', g1, g2, g3, g4, g5, g6, g7⟩ := ih (l ++ [(qi, qd)]) hlr' h1 k1 (fun p hp => sameDom_isSome d1 (hreg p hp))
    refine ⟨h', g1, g2, d1.trans g3, fun a t' => (g4 a t').trans (b1 a t'), ?_, ?_, ?_⟩
    · intro p hp x hx hpx
      rcases List.mem_cons.mp hp with rfl | hp
      · rcases List.mem_cons.mp hx with rfl | hx
        · omega
        · rw [g7 _ _ _ (fun hh => hnr hh.2.2.1)]; exact f1 x hx
      · rcases List.mem_cons.mp hx with rfl | hx
        · have := hlt p hp; simp only at hpx; omega
        · exact g5 p hp x hx hpx
    · intro p hp x hx hpx
      rcases List.mem_cons.mp hp with rfl | hp
      · rcases List.mem_cons.mp hx with rfl | hx
        · omega
        · rw [g7 _ _ _ (fun hh => hnr hh.2.2.2)]; exact f2 x hx
      · rcases List.mem_cons.mp hx with rfl | hx
        · have := hlt p hp; simp only at hpx; omega
        · exact g6 p hp x hx hpx
    · intro a b t' hno
      rw [g7 a b t' (fun hh => hno ⟨hh.1, hh.2.1, List.mem_cons_of_mem _ hh.2.2.1, List.mem_cons_of_mem _ hh.2.2.2⟩)]
      apply f3
      rintro ⟨x1, ⟨x2, x3⟩ | ⟨x2, x3⟩⟩
      · exact hno ⟨x1, fun hab => hnr (by rw [← x2, hab]; exact x3), by rw [x2]; exact List.mem_cons_self, List.mem_cons_of_mem _ x3⟩
      · exact hno ⟨x1, fun hab => hnr (by rw [← x2, ← hab]; exact x3), List.mem_cons_of_mem _ x3, by rw [x2]; exact List.mem_cons_self⟩

/-- Loop of `correct_beliefs_implace`. -/
theorem correctBeliefs_spec {T : ℕ → Int} {P dx : Mat} {t : Int} {D : SMap Belief} (hD : (D.map (·.1)).Nodup)
    (hu : ∀ e ∈ D, e.2.fixed = false) (hP : P.Shape (tot (bdims D)) (tot (bdims D))) (hx : dx.Shape (tot (bdims D)) 1)
    (hm : ∀ e ∈ D, e.2.mean.Shape e.2.dim 1) (ht : ∀ e ∈ D, t ≤ T e.1)
    (r l : SMap Belief) (hlr : l ++ r = D) (h : Hdl) (hk : HOk T h) (hreg : ∀ e ∈ D, (h.find e.1).isSome) :
    ∃ h', correctBeliefs P dx t r (tot (bdims l)) h = .ok h' ∧ HOk T h' ∧ SameDom h h' ∧ (∀ a b t', fc h' a b t' = fc h a b t') ∧
      (∀ e ∈ r, bl h' e.1 t = some { e.2 with
        mean := e.2.mean + dx.block (off (bdims D) e.1) 0 e.2.dim 1,
        Sigma := P.block (off (bdims D) e.1) (off (bdims D) e.1) e.2.dim e.2.dim }) ∧
      ∀ a t', ¬ (t' = t ∧ a ∈ r.map (·.1)) → bl h' a t' = bl h a t' := by
  induction r generalizing l h with
  | nil => exact ⟨h, rfl, hk, SameDom.refl h, fun _ _ _ => rfl, by simp, fun _ _ _ => rfl⟩
  | cons e r ih =>
    have he : e ∈ D := by rw [← hlr]; simp
    have hn' : ((bdims D).map (·.1)).Nodup := by rw [bdims_keys]; exact hD
    have hoff : off (bdims D) e.1 = tot (bdims l) := by rw [← hlr]; exact off_bdims l e r (by rw [hlr]; exact hD)
    have hem : (e.1, e.2.dim) ∈ bdims D := List.mem_map.mpr ⟨e, he, rfl⟩
    have hle := off_add_le hn' hem
    simp only at hle
    have hlr' : (l ++ [e]) ++ r = D := by rw [← hlr]; simp
    have hne : e.1 ∉ r.map (·.1) := by
      rw [← hlr] at hD
      simp only [List.map_append, List.map_cons, List.nodup_append, List.nodup_cons] at hD
      exact hD.2.1.1
    obtain ⟨i, hi⟩ := Option.isSome_iff_exists.mp (hreg e he)
    have ho := hk.ord _ i hi
    unfold correctBeliefs
    rw [hu e he]
    simp only [Bool.not_false, if_true]
    rw [← hoff, blockC_ok (by rw [hP.1]; exact hle) (by rw [hP.2]; exact hle), Res.bind_ok,
      blockC_ok (by rw [hx.1]; exact hle) (by rw [hx.2]), Res.bind_ok]
    unfold Belief.correct
    have hdb : (dx.block (off (bdims D) e.1) 0 e.2.dim 1).Shape e.2.dim 1 := ⟨rfl, rfl⟩
    rw [(hm e he).addC hdb, Res.bind_ok, Res.bind_ok, get_ok hi, Res.bind_ok, hoff, tot_bdims_snoc, ← hoff]
    generalize hb : ({ e.2 with mean := e.2.mean + dx.block (off (bdims D) e.1) 0 e.2.dim 1,
                                 Sigma := P.block (off (bdims D) e.1) (off (bdims D) e.1) e.2.dim e.2.dim } : Belief) = b
    have hk1 : HOk T (h.set e.1 (i.setBelief b t)) := hk.set1 (ho.setBelief _ _) ((hk.upTo _ i hi).setBelief ho b t (ht e he))
    have hd1 : SameDom h (h.set e.1 (i.setBelief b t)) := sameDom_set1 hi
    have hf1 : ∀ a c t', fc (h.set e.1 (i.setBelief b t)) a c t' = fc h a c t' := by
      intro a c t'
      rw [fc_set1]
      split
      · rename_i hpa; rw [← hpa, fc_of_find hi]; rfl
      · rfl
    have hb1 : ∀ a t', bl (h.set e.1 (i.setBelief b t)) a t' = if t' = t ∧ a = e.1 then some b else bl h a t' := by
      intro a t'
      rw [bl_set1]
      by_cases hpa : e.1 = a
      · subst hpa
        rw [if_pos rfl, Inst.beliefAt_setBelief ho, bl_of_find hi]
        by_cases htt : t' = t
        · rw [if_pos htt, if_pos ⟨htt, rfl⟩]
        · rw [if_neg htt, if_neg (fun hh => htt hh.1)]
      · rw [if_neg hpa, if_neg (fun hh => hpa hh.2.symm)]
    obtain ⟨h', g1, g2, g3, g4, g5, g6⟩ := ih (l ++ [e]) hlr' _ hk1 (fun x hx => sameDom_isSome hd1 (hreg x hx))
    refine ⟨h', g1, g2, hd1.trans g3, fun a c t' => (g4 a c t').trans (hf1 a c t'), ?_, ?_⟩
    · intro x hxm
      rcases List.mem_cons.mp hxm with rfl | hxm
      · rw [g6 _ _ (fun hh => hne hh.2), hb1, if_pos ⟨rfl, rfl⟩, hb]
      · exact g5 x hxm
    · intro a t' hno
      rw [g6 a t' (fun hh => hno ⟨hh.1, List.mem_cons_of_mem _ hh.2⟩), hb1, if_neg]
      rintro ⟨x1, x2⟩
      exact hno ⟨x1, by rw [x2]; exact List.mem_cons_self⟩

/-- All three steps after an accepted joint correction. -/
theorem commit_spec {T : ℕ → Int} {P dx : Mat} {t : Int} {D : SMap Belief} (hDs : D.Sorted) (hne : D ≠ [])
    (hu : ∀ e ∈ D, e.2.fixed = false) (hP : P.Shape (tot (bdims D)) (tot (bdims D))) (hx : dx.Shape (tot (bdims D)) 1)
    (hm : ∀ e ∈ D, e.2.mean.Shape e.2.dim 1) (hS : ∀ e ∈ D, e.2.Sigma.Shape e.2.dim e.2.dim) (ht : ∀ e ∈ D, t ≤ T e.1)
    (L : ℕ → Mat) (hL : ∀ e ∈ D, L e.1 = P.block (off (bdims D) e.1) (off (bdims D) e.1) e.2.dim e.2.dim * e.2.Sigma.inv)
    (h : Hdl) (hk : HOk T h) (hreg : ∀ e ∈ D, (h.find e.1).isSome)
    (hF : ∀ e ∈ D, ∀ q M, fc h e.1 q t = some M → M.rows = e.2.dim) :
    ∃ h', commit h D P dx t = .ok h' ∧ HOk T h' ∧ SameDom h h' ∧
      (∀ e ∈ D, bl h' e.1 t = some { e.2 with
        mean := e.2.mean + dx.block (off (bdims D) e.1) 0 e.2.dim 1,
        Sigma := P.block (off (bdims D) e.1) (off (bdims D) e.1) e.2.dim e.2.dim }) ∧
      (∀ a t', ¬ (t' = t ∧ a ∈ D.map (·.1)) → bl h' a t' = bl h a t') ∧
      (∀ p ∈ D, ∀ q ∈ D, p.1 < q.1 → fc h' p.1 q.1 t = some (P.block (off (bdims D) p.1) (off (bdims D) q.1) p.2.dim q.2.dim)) ∧
      (∀ p ∈ D, ∀ q ∈ D, p.1 < q.1 → fc h' q.1 p.1 t = some (one q.2.dim)) ∧
      (∀ a b t', ¬ (t' = t ∧ a ≠ b ∧ a ∈ D.map (·.1) ∧ b ∈ D.map (·.1)) →
        fc h' a b t' = if t' = t ∧ a ∈ D.map (·.1) then (fc h a b t).map (L a * ·) else fc h a b t') := by
  have hD := Sorted.nodup hDs
  have huD : unfixed D = D := by
    unfold unfixed; rw [List.filter_eq_self]; intro e he; simp [hu e he]
  obtain ⟨h1, e1, k1, d1, b1, f1⟩ := applyCorrections_spec hD hu hP hS ht L hL D [] rfl h hk hreg hF
  have hbs : (bdims D).Pairwise (fun a b => a.1 < b.1) := by
    rw [List.pairwise_map]; exact hDs
  have hmemb : ∀ p ∈ bdims D, ∃ e ∈ D, (e.1, e.2.dim) = p := fun p hp => by
    obtain ⟨e, he, hep⟩ := List.mem_map.mp hp; exact ⟨e, he, hep⟩
  obtain ⟨h2, e2, k2, d2, b2, f2, g2, r2⟩ := splitRows_spec (T := T) (P := P) (t := t) hbs hP
    (fun p hp => by obtain ⟨e, he, rfl⟩ := hmemb p hp; exact ht e he) (bdims D) [] rfl h1 k1
    (fun p hp => by obtain ⟨e, he, rfl⟩ := hmemb p hp; exact sameDom_isSome d1 (hreg e he))
  obtain ⟨h3, e3, k3, d3, f3, b3, r3⟩ := correctBeliefs_spec hD hu hP hx hm ht D [] rfl h2 k2
    (fun e he => sameDom_isSome d2 (sameDom_isSome d1 (hreg e he)))
  simp only [List.map_nil, tot] at e1 e2 e3
  refine ⟨h3, ?_, k3, (d1.trans d2).trans d3, b3, ?_, ?_, ?_, ?_⟩
  · unfold commit
    rw [e1, Res.bind_ok]
    unfold splitRightUpper
    rw [huD]
    have : (List.map (fun e : ℕ × Belief => (e.1, e.2.dim)) D).isEmpty = false := by
      cases D with
      | nil => exact absurd rfl hne
      | cons a b => rfl
    simp only [this, Bool.false_eq_true, if_false]
    rw [e2, Res.bind_ok, e3]
  · intro a t' hno
    rw [r3 a t' hno, b2, b1]
  · intro p hp q hq hpq
    rw [f3]
    exact f2 (p.1, p.2.dim) (List.mem_map.mpr ⟨p, hp, rfl⟩) (q.1, q.2.dim) (List.mem_map.mpr ⟨q, hq, rfl⟩) hpq
  · intro p hp q hq hpq
    rw [f3]
    exact g2 (p.1, p.2.dim) (List.mem_map.mpr ⟨p, hp, rfl⟩) (q.1, q.2.dim) (List.mem_map.mpr ⟨q, hq, rfl⟩) hpq
  · intro a b t' hno
    rw [f3, r2 a b t' (by rw [bdims_keys]; exact hno), f1]

/-! ## Collecting the beliefs -/

theorem set_snoc {V : Type _} (acc : SMap V) (k : ℕ) (v : V) (h : ∀ e ∈ acc, e.1 < k) : acc.set k v = acc ++ [(k, v)] := by
  induction acc with
  | nil => rfl
  | cons e r ih =>
    have he := h e List.mem_cons_self
    have : SMap.set (e :: r) k v = e :: SMap.set r k v := by
      rw [SMap.set, if_neg (by omega), if_neg (by omega)]
    rw [this, ih (fun x hx => h x (List.mem_cons_of_mem _ hx))]
    rfl

theorem emplace_snoc {V : Type _} (acc : SMap V) (k : ℕ) (v : V) (h : ∀ e ∈ acc, e.1 < k) : acc.emplace k v = acc ++ [(k, v)] := by
  unfold SMap.emplace
  have : SMap.find acc k = none := (SMap.find_none_iff acc k).mpr (fun e he => by have := h e he; omega)
  rw [this]
  exact set_snoc acc k v h

/-- If every participant has a belief at `t`, they are collected in ID order and nothing is predicted. -/
theorem getDictBel_spec (pred : ℕ → Inst → Int → Inst × Bool) {T : ℕ → Int} {h : Hdl} (hk : HOk T h) (t : Int) (B : ℕ → Belief) (ids : List ℕ) (acc : SMap Belief)
    (hids : ids.Pairwise (· < ·)) (hacc : ∀ e ∈ acc, ∀ p ∈ ids, e.1 < p) (hB : ∀ p ∈ ids, bl h p t = some (B p)) :
    getDictBel pred h ids t acc = .ok (h, acc ++ ids.map (fun p => (p, B p))) := by
  induction ids generalizing acc with
  | nil => simp [getDictBel]
  | cons p r ih =>
    rw [List.pairwise_cons] at hids
    have hb := hB p List.mem_cons_self
    unfold bl at hb
    cases hf : h.find p with
    | none => rw [hf] at hb; simp at hb
    | some i =>
      rw [hf] at hb
      simp only [Option.bind_some] at hb
      unfold getDictBel beliefPredict
      have hex : i.bel.existAt t = true := by
        rw [Inst.beliefAt_eq, Buf.absMap_eq_some _ (hk.ord p i hf).bel] at hb
        rw [Buf.existAt_iff]
        exact ⟨_, hb, rfl⟩
      rw [get_ok hf, Res.bind_ok, if_pos hex, Res.bind_ok, hb]
      simp only
      rw [emplace_snoc _ _ _ (fun e he => hacc e he p List.mem_cons_self), ih]
      · simp
      · exact hids.2
      · intro e he q hq
        rcases List.mem_append.mp he with he | he
        · exact hacc e he q (List.mem_cons_of_mem _ hq)
        · simp only [List.mem_singleton] at he; rw [he]; exact hids.1 q hq
      · exact fun q hq => hB q (List.mem_cons_of_mem _ hq)

end Hdl
end Ikf
