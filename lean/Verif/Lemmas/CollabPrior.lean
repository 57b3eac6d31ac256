import Verif.Lemmas.CollabTail
import Verif.Props.MultiAgent

/-!
# The a priori stack of an inter-agent update against one handler
-/

namespace Ikf
open Mat

namespace SMap
variable {V : Type _}

/-- Ordered maps with the same contents. -/
theorem ext_find {m m' : SMap V} (h : m.Sorted) (h' : m'.Sorted) (hf : ∀ k, m.find k = m'.find k) : m = m' := by
  have hmem : ∀ e, e ∈ m ↔ e ∈ m' := by
    intro e
    have a := find_eq_some h e.1 e.2
    have b := find_eq_some h' e.1 e.2
    rw [hf] at a
    exact a.symm.trans b
  have hp : m.Perm m' := (List.perm_ext_iff_of_nodup (h.imp (fun hlt e => by rw [e] at hlt; exact lt_irrefl _ hlt))
    (h'.imp (fun hlt e => by rw [e] at hlt; exact lt_irrefl _ hlt))).mpr hmem
  exact hp.eq_of_pairwise (fun a b _ _ h1 h2 => absurd h1 (by omega)) h h'

theorem find_map (f : ℕ → V) (ids : List ℕ) (p : ℕ) :
    find (ids.map (fun q => (q, f q))) p = if p ∈ ids then some (f p) else none := by
  induction ids with
  | nil => simp
  | cons a r ih =>
    rw [List.map_cons, find_cons, ih]
    by_cases h : a = p
    · subst h; simp
    · rw [if_neg h]
      by_cases hr : p ∈ r
      · rw [if_pos hr, if_pos (List.mem_cons_of_mem _ hr)]
      · rw [if_neg hr, if_neg (by rw [List.mem_cons, not_or]; exact ⟨fun e => h e.symm, hr⟩)]

theorem sorted_map (f : ℕ → V) {ids : List ℕ} (h : ids.Pairwise (· < ·)) : Sorted (ids.map (fun q => (q, f q))) := by
  unfold Sorted; rw [List.pairwise_map]; exact h

end SMap

namespace Collab

theorem find_insertAll {V : Type _} (n : SMap V) (p : ℕ) : ∀ m : SMap V,
    (insertAll m n).find p = match m.find p with | some v => some v | none => n.find p := by
  induction n with
  | nil => intro m; unfold insertAll; rw [List.foldl_nil]; cases SMap.find m p <;> rfl
  | cons e r ih =>
    intro m
    have h1 : insertAll m (e :: r) = insertAll (m.emplace e.1 e.2) r := rfl
    rw [h1, ih, SMap.find_emplace, SMap.find_cons]
    by_cases he : e.1 = p
    · subst he
      cases hm : m.find e.1 with
      | none => simp
      | some v => simp
    · simp only [he, false_and, if_false]

theorem sorted_insertAll {V : Type _} (n : SMap V) : ∀ {m : SMap V}, m.Sorted → (insertAll m n).Sorted := by
  induction n with
  | nil => intro m h; exact h
  | cons e r ih => intro m h; exact ih (h.emplace _ _)

/-- Two maps with disjoint sorted keys make one. -/
theorem insertAll_two {V : Type _} (f : ℕ → V) {loc remote keys : List ℕ} (hk : keys.Pairwise (· < ·))
    (hm : ∀ p, p ∈ keys ↔ p ∈ loc ∨ p ∈ remote) :
    insertAll (insertAll [] (loc.map fun q => (q, f q))) (remote.map fun q => (q, f q)) = keys.map fun q => (q, f q) := by
  refine SMap.ext_find (sorted_insertAll _ (sorted_insertAll _ List.Pairwise.nil)) (SMap.sorted_map f hk) fun p => ?_
  rw [find_insertAll, find_insertAll, SMap.find_nil, SMap.find_map, SMap.find_map, SMap.find_map]
  by_cases h1 : p ∈ loc
  · simp [h1, (hm p).mpr (Or.inl h1)]
  · by_cases h2 : p ∈ remote
    · simp [h1, h2, (hm p).mpr (Or.inr h2)]
    · have : p ∉ keys := fun h => ((hm p).mp h).elim h1 h2
      simp [h1, h2, this]

/-! ## Beliefs and factors of one side -/

theorem getBels_stored (pred : ℕ → Inst → Int → Inst × Bool) (t : Int) (B : ℕ → Belief) (l : Hdl) (ids : List ℕ) : ∀ acc : SMap Belief,
    ids.Pairwise (· < ·) → (∀ e ∈ acc, ∀ p ∈ ids, e.1 < p) →
    (∀ p ∈ ids, ∃ i, l.find p = some i ∧ i.bel.existAt t = true ∧ i.beliefAt t = some (B p)) →
    getBels pred t ids l acc = .ok (l, some (acc ++ ids.map fun p => (p, B p))) := by
  induction ids with
  | nil => intro acc _ _ _; simp [getBels]
  | cons p r ih =>
    intro acc hids hacc hB
    obtain ⟨i, hi, hex, hb⟩ := hB p List.mem_cons_self
    rw [List.pairwise_cons] at hids
    rw [getBels, hi, if_pos (by rfl), Hdl.beliefPredict, Hdl.get_ok hi, Res.bind_ok, if_pos hex, Res.bind_ok, hb]
    simp only
    rw [Hdl.emplace_snoc _ _ _ (fun e he => hacc e he p List.mem_cons_self), ih]
    · simp
    · exact hids.2
    · intro e he q hq
      rcases List.mem_append.mp he with he | he
      · exact hacc e he q (List.mem_cons_of_mem _ hq)
      · simp only [List.mem_singleton] at he; rw [he]; exact hids.1 q hq
    · exact fun q hq => hB q (List.mem_cons_of_mem _ hq)

/-- The factors sent for one instance. -/
def sendRow (i : Inst) (t : Int) (I : ℕ) (parts : List ℕ) (r : SMap Mat) : SMap Mat :=
  parts.foldl (fun r P => if I ≠ P then r.emplace P (i.getCCF t P) else r) r

theorem find_sendRow (i : Inst) (t : Int) (I : ℕ) (parts : List ℕ) (P : ℕ) : ∀ r : SMap Mat,
    (sendRow i t I parts r).find P = match r.find P with
      | some M => some M
      | none => if P ∈ parts ∧ I ≠ P then some (i.getCCF t P) else none := by
  induction parts with
  | nil => intro r; unfold sendRow; rw [List.foldl_nil]; cases SMap.find r P <;> simp
  | cons a s ih =>
    intro r
    have h1 : sendRow i t I (a :: s) r = sendRow i t I s (if I ≠ a then r.emplace a (i.getCCF t a) else r) := rfl
    rw [h1, ih]
    by_cases ha : I = a
    · rw [if_neg (by simpa using ha)]
      cases SMap.find r P with
      | some M => rfl
      | none =>
        simp only
        by_cases hp : P ∈ s ∧ I ≠ P
        · rw [if_pos hp, if_pos ⟨List.mem_cons_of_mem _ hp.1, hp.2⟩]
        · rw [if_neg hp, if_neg]
          rintro ⟨h2, h3⟩
          rcases List.mem_cons.mp h2 with h4 | h4
          · exact h3 (ha.trans h4.symm)
          · exact hp ⟨h4, h3⟩
    · rw [if_pos ha, SMap.find_emplace]
      by_cases haP : a = P
      · subst haP
        cases SMap.find r a with
        | some M => simp
        | none => simp [ha]
      · simp only [haP, false_and, if_false]
        cases SMap.find r P with
        | some M => rfl
        | none =>
          have : P ≠ a := fun h => haP h.symm
          simp [this]

theorem sorted_sendRow (i : Inst) (t : Int) (I : ℕ) (parts : List ℕ) : ∀ {r : SMap Mat}, r.Sorted → (sendRow i t I parts r).Sorted := by
  induction parts with
  | nil => intro r h; exact h
  | cons a s ih =>
    intro r h
    have h1 : sendRow i t I (a :: s) r = sendRow i t I s (if I ≠ a then r.emplace a (i.getCCF t a) else r) := rfl
    rw [h1]
    apply ih
    split
    · exact h.emplace _ _
    · exact h

theorem length_sendRow (i : Inst) (t : Int) (I : ℕ) (parts : List ℕ) (hn : parts.Nodup) (hI : I ∈ parts) :
    (sendRow i t I parts []).length = parts.length - 1 := by
  have hs := sorted_sendRow i t I parts (r := []) List.Pairwise.nil
  have hp : ((sendRow i t I parts []).map (·.1)).Perm (parts.erase I) := by
    refine (List.perm_ext_iff_of_nodup (Hdl.Sorted.nodup hs) (hn.erase I)).mpr fun p => ?_
    have h1 := SMap.find_isSome_iff (sendRow i t I parts []) p
    rw [find_sendRow, SMap.find_nil] at h1
    rw [hn.mem_erase_iff]
    refine h1.symm.trans ?_
    simp only
    by_cases hc : p ∈ parts ∧ I ≠ p
    · have hc2 : p ≠ I := fun h => hc.2 h.symm
      rw [if_pos hc]; simp [hc.1, hc2]
    · rw [if_neg hc]
      simp only [Option.isSome_none, Bool.false_eq_true, false_iff]
      rintro ⟨h2, h3⟩
      exact hc ⟨h3, fun h => h2 h.symm⟩
  have := hp.length_eq
  rw [List.length_map, List.length_erase_of_mem hI] at this
  exact this

theorem cells_find (i : Inst) (t : Int) (I : ℕ) (parts : List ℕ) (p : ℕ) : ∀ m : SMap (SMap Mat),
    (parts.foldl (fccCell i t I) m).find p =
      if p = I ∧ ∃ P ∈ parts, I ≠ P then some (sendRow i t I parts ((m.find I).getD [])) else m.find p := by
  induction parts with
  | nil => intro m; simp
  | cons a s ih =>
    intro m
    rw [List.foldl_cons, ih]
    have h1 : ∀ r, sendRow i t I (a :: s) r = sendRow i t I s (if I ≠ a then r.emplace a (i.getCCF t a) else r) := fun _ => rfl
    rw [h1]
    unfold fccCell
    by_cases ha : I = a
    · subst ha
      simp
    · rw [if_pos ha, if_pos ha, SMap.find_set_self, SMap.find_set, Option.getD_some]
      by_cases hp : p = I
      · subst hp
        have hex : ∃ P ∈ a :: s, p ≠ P := ⟨a, List.mem_cons_self, ha⟩
        by_cases hs : ∃ P ∈ s, p ≠ P
        · rw [if_pos ⟨rfl, hs⟩, if_pos ⟨rfl, hex⟩]
        · rw [if_neg (fun h => hs h.2), if_pos rfl, if_pos ⟨rfl, hex⟩]
          congr 1
          have hall : ∀ P ∈ s, p = P := fun P hP => by by_contra hne; exact hs ⟨P, hP, hne⟩
          clear ih hs hex h1
          generalize SMap.emplace ((SMap.find m p).getD []) a (i.getCCF t a) = r
          induction s with
          | nil => rfl
          | cons b u ihu =>
            have : sendRow i t p (b :: u) r = sendRow i t p u r := by
              show sendRow i t p u (if p ≠ b then r.emplace b (i.getCCF t b) else r) = _
              rw [if_neg (by simpa using hall b List.mem_cons_self)]
            rw [this]
            exact ihu (fun P hP => hall P (List.mem_cons_of_mem _ hP))
      · rw [if_neg (fun h => hp h.1), if_neg (fun h => hp h.symm), if_neg (fun h => hp h.1)]

theorem cells_sorted (i : Inst) (t : Int) (I : ℕ) (parts : List ℕ) : ∀ {m : SMap (SMap Mat)}, m.Sorted →
    (parts.foldl (fccCell i t I) m).Sorted := by
  induction parts with
  | nil => intro m h; exact h
  | cons a s ih =>
    intro m h
    rw [List.foldl_cons]
    apply ih
    unfold fccCell
    split
    · exact h.set _ _
    · exact h

/-- The instance (total version). -/
def instD (h : Hdl) (p : ℕ) : Inst := (h.find p).getD ⟨[], [], 0⟩

theorem fccLoop_ok (l : Hdl) (t : Int) (parts : List ℕ) (ids : List ℕ) : ∀ m : SMap (SMap Mat), m.Sorted → ids.Nodup →
    (∀ I ∈ ids, m.find I = none) → (∀ I ∈ ids, (l.find I).isSome ∧ ∃ P ∈ parts, I ≠ P) →
    ∃ F, fccLoop l t parts ids m = .ok F ∧ F.Sorted ∧
      ∀ p, F.find p = if p ∈ ids then some (sendRow (instD l p) t p parts []) else m.find p := by
  induction ids with
  | nil => intro m hm _ _ _; exact ⟨m, rfl, hm, fun p => by simp⟩
  | cons I r ih =>
    intro m hm hn hnone hl
    rw [List.nodup_cons] at hn
    obtain ⟨i, hi⟩ := Option.isSome_iff_exists.mp (hl I List.mem_cons_self).1
    have hD : instD l I = i := by unfold instD; rw [hi]; rfl
    have hm1 := cells_sorted i t I parts hm
    obtain ⟨F, eF, sF, fF⟩ := ih (parts.foldl (fccCell i t I) m) hm1 hn.2
      (fun J hJ => by
        rw [cells_find, if_neg (fun h => hn.1 (by rw [← h.1]; exact hJ))]
        exact hnone J (List.mem_cons_of_mem _ hJ))
      (fun J hJ => hl J (List.mem_cons_of_mem _ hJ))
    refine ⟨F, by rw [fccLoop, Hdl.get_ok hi, Res.bind_ok, eF], sF, fun p => ?_⟩
    rw [fF, cells_find, hnone I List.mem_cons_self]
    by_cases hp : p ∈ r
    · rw [if_pos hp, if_pos (List.mem_cons_of_mem _ hp)]
    · rw [if_neg hp]
      by_cases hpI : p = I
      · subst hpI
        rw [if_pos ⟨rfl, (hl p List.mem_cons_self).2⟩, if_pos List.mem_cons_self, hD]; rfl
      · rw [if_neg (fun h => hpI h.1), if_neg (by rw [List.mem_cons, not_or]; exact ⟨hpI, hp⟩)]

/-- Beliefs and factors of one side. -/
theorem getBF_stored (pred : ℕ → Inst → Int → Inst × Bool) (t : Int) (B : ℕ → Belief) (l : Hdl) (ids parts : List ℕ)
    (hids : ids.Pairwise (· < ·)) (hparts : ∀ I ∈ ids, ∃ P ∈ parts, I ≠ P)
    (hB : ∀ p ∈ ids, ∃ i, l.find p = some i ∧ i.bel.existAt t = true ∧ i.beliefAt t = some (B p)) :
    getBF pred l ids parts t = .ok (l, some (ids.map (fun p => (p, B p)), ids.map (fun p => (p, sendRow (instD l p) t p parts [])))) := by
  unfold getBF
  rw [getBels_stored pred t B l ids [] hids (by simp) hB, Res.bind_ok]
  simp only
  obtain ⟨F, eF, sF, fF⟩ := fccLoop_ok l t parts ids [] List.Pairwise.nil (hids.imp fun h e => by rw [e] at h; exact lt_irrefl _ h)
    (fun _ _ => rfl) (fun I hI => ⟨by obtain ⟨i, hi, -⟩ := hB I hI; rw [hi]; rfl, hparts I hI⟩)
  rw [eF, Res.bind_ok]
  have : F = ids.map (fun p => (p, sendRow (instD l p) t p parts [])) :=
    SMap.ext_find sF (SMap.sorted_map (fun p => sendRow (instD l p) t p parts []) hids) (fun p => by
      rw [fF, SMap.find_map (fun p => sendRow (instD l p) t p parts [])]; rfl)
  rw [this]; rfl

/-! ## The stack -/

theorem at'_ok {V : Type _} {m : SMap V} {k : ℕ} {v : V} (h : m.find k = some v) : at' m k = .ok v := by unfold at'; rw [h]

theorem stackRowL_eq (h : Hdl) (t : Int) (F : SMap (SMap Mat)) (ks : List ℕ) (hF : ∀ I ∈ ks, ∃ row, F.find I = some row ∧
      ∀ J ∈ ks, I ≠ J → row.find J = some ((instD h I).getCCF t J)) (hh : ∀ I ∈ ks, (h.find I).isSome)
    (a : ℕ × Belief) (ha : a.1 ∈ ks) (s : ℕ) (d : SMap Belief) (hd : ∀ e ∈ d, e.1 ∈ ks) (hu : ∀ e ∈ d, e.2.fixed = false) :
    ∀ col M, stackRowL F a s d col M = Hdl.stackRow h t a s d col M := by
  induction d with
  | nil => intro _ _; rfl
  | cons b r ih =>
    intro col M
    have ih' := ih (fun e he => hd e (List.mem_cons_of_mem _ he)) (fun e he => hu e (List.mem_cons_of_mem _ he))
    rw [stackRowL, Hdl.stackRow, hu b List.mem_cons_self, if_pos (show (!false) = true from rfl)]
    simp only [ih']
    by_cases hab : a.1 = b.1
    · rw [if_pos hab, if_pos hab]
    · rw [if_neg hab, if_neg hab]
      by_cases hlt : a.1 < b.1
      · rw [if_pos hlt, if_pos hlt]
        have hb := hd b List.mem_cons_self
        obtain ⟨ra, fa, ga⟩ := hF a.1 ha
        obtain ⟨rb, fb, gb⟩ := hF b.1 hb
        obtain ⟨i, hi⟩ := Option.isSome_iff_exists.mp (hh a.1 ha)
        obtain ⟨j, hj⟩ := Option.isSome_iff_exists.mp (hh b.1 hb)
        have hi' : instD h a.1 = i := by unfold instD; rw [hi]; rfl
        have hj' : instD h b.1 = j := by unfold instD; rw [hj]; rfl
        have g1 := ga b.1 hb hab
        have g2 := gb a.1 ha (fun e => hab e.symm)
        rw [hi'] at g1; rw [hj'] at g2
        rw [at'_ok fa, Res.bind_ok, at'_ok g1, Res.bind_ok, at'_ok fb, Res.bind_ok, at'_ok g2, Res.bind_ok]
        unfold Hdl.getSigma
        rw [Hdl.get_ok hi, Res.bind_ok, Hdl.get_ok hj, Res.bind_ok]
        simp only [if_pos hlt]
      · rw [if_neg hlt, if_neg hlt]

theorem stackRowsL_eq (h : Hdl) (t : Int) (F : SMap (SMap Mat)) (ks : List ℕ) (hF : ∀ I ∈ ks, ∃ row, F.find I = some row ∧
      ∀ J ∈ ks, I ≠ J → row.find J = some ((instD h I).getCCF t J)) (hh : ∀ I ∈ ks, (h.find I).isSome) (d0 : SMap Belief)
    (hd0 : ∀ e ∈ d0, e.1 ∈ ks) (hu0 : ∀ e ∈ d0, e.2.fixed = false) (hlen : ∀ I ∈ ks, d0.length - 1 ≤ ((F.find I).getD []).length)
    (d : SMap Belief) (hd : ∀ e ∈ d, e.1 ∈ ks) (hu : ∀ e ∈ d, e.2.fixed = false) :
    ∀ s M, stackRowsL F d0 d s M = Hdl.stackRows h t d0 d s M := by
  induction d with
  | nil => intro _ _; rfl
  | cons b r ih =>
    intro s M
    have ih' := ih (fun e he => hd e (List.mem_cons_of_mem _ he)) (fun e he => hu e (List.mem_cons_of_mem _ he))
    rw [stackRowsL, Hdl.stackRows, hu b List.mem_cons_self, if_pos (show (!false) = true from rfl), if_pos (hlen b.1 (hd b List.mem_cons_self))]
    rw [stackRowL_eq h t F ks hF hh b (hd b List.mem_cons_self) s d0 hd0 hu0]
    simp only [ih']

theorem dims_eq (d : SMap Belief) (hu : ∀ e ∈ d, e.2.fixed = false) : dimAll d = Hdl.getDim d := by
  unfold dimAll Hdl.getDim
  generalize 0 = a
  induction d generalizing a with
  | nil => rfl
  | cons e r ih =>
    rw [List.foldl_cons, List.foldl_cons, hu e List.mem_cons_self, if_pos (by rfl)]
    exact ih (fun x hx => hu x (List.mem_cons_of_mem _ hx)) _

/-- Symmetrising before stabilising changes nothing. -/
theorem stabilize_symm (M : Mat) (eps : ℝ) : (symmetrize M >>= fun S => stabilize S eps) = stabilize M eps := by
  unfold symmetrize stabilize addC
  by_cases hM : M.rows = M.tr.rows ∧ M.cols = M.tr.cols
  · have hr : M.rows = M.cols := hM.1
    have hsym : (smul (1/2) (M + M.tr)).tr = smul (1/2) (M + M.tr) := by
      refine Mat.ext' hr.symm hr ?_
      intro i j _ _
      have h1 := hr.symm
      rw [tr_e, smul_e, smul_e, add_e M M.tr h1 hr, add_e M M.tr h1 hr, tr_e, tr_e, add_comm]
    have hself : smul (1/2) (smul (1/2) (M + M.tr) + smul (1/2) (M + M.tr)) = smul (1/2) (M + M.tr) := by
      refine Mat.ext' rfl rfl ?_
      intro i j _ _
      rw [smul_e, add_e _ _ rfl rfl, smul_e]; ring
    rw [if_pos hM]
    simp only [Res.bind_ok, hsym, and_self, if_true, hself]
    rfl
  · rw [if_neg hM]; rfl

end Collab
end Ikf
