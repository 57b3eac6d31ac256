import Verif.Props.StandaloneMath
import Verif.Lemmas.HandlerSort

/-!
# C101: delayed measurements into a standalone filter
-/

namespace Ikf
variable {B P : Type _}

/-- What is asked of the user's filter, for the histories `G` it works on and the measurements `M` it is fed, once a belief
before the measurement is stored. -/
structure Causal (U : KFUser B P) (G : Buf B → Prop) (M : Meas P → Prop) : Prop where
  /-- times of the history increase -/
  strict : ∀ h, G h → h.Pairwise (fun x y => x.1 < y.1)
  /-- parts up to a time are histories too -/
  sub : ∀ h t, G h → G (h.filter (fun e => decide (e.1 ≤ t)))
  keep : ∀ h m, G h → M m → (∃ e ∈ h, e.1 < m.t) → G (SKF.delegate U h m).1
  /-- older beliefs are left alone -/
  before : ∀ h m, G h → M m → (∃ e ∈ h, e.1 < m.t) →
    (SKF.delegate U h m).1.filter (fun e => decide (e.1 < m.t)) = h.filter (fun e => decide (e.1 < m.t))
  /-- the result up to the time of the measurement does not depend on newer beliefs -/
  causal : ∀ h m, G h → M m → (∃ e ∈ h, e.1 < m.t) →
    (SKF.delegate U h m).1.filter (fun e => decide (e.1 ≤ m.t)) =
      (SKF.delegate U (h.filter (fun e => decide (e.1 ≤ m.t))) m).1
  /-- there is a belief at the time of the measurement afterwards -/
  made : ∀ h m, G h → M m → (∃ e ∈ h, e.1 < m.t) → ∃ e ∈ (SKF.delegate U h m).1, e.1 = m.t
  /-- a measurement older than a stored belief is reported as out of order -/
  late : ∀ h m, G h → M m → (∃ e ∈ h, e.1 < m.t) → (∃ e ∈ h, m.t < e.1) → (SKF.delegate U h m).2 = .outOfOrder
  current : ∀ h m, G h → M m → (∃ e ∈ h, e.1 < m.t) → (∀ e ∈ h, e.1 ≤ m.t) →
    (SKF.delegate U h m).2 ≠ .outOfOrder ∧ (SKF.delegate U h m).2 ≠ .discarded

/-- `L` is the stream `ms` in chronological order, equal times in order of arrival. -/
def IsChron (ms L : List (Meas P)) : Prop :=
  L.Pairwise (fun a b => a.t ≤ b.t) ∧ ∀ k, L.filter (fun m => m.t == k) = ms.filter (fun m => m.t == k)

theorem skfRun_append (U : KFUser B P) (b : Buf B) (L L' : List (Meas P)) :
    (skfRun U b (L ++ L')).1 = (skfRun U (skfRun U b L).1 L').1 := by
  induction L generalizing b with
  | nil => rfl
  | cons m L ih => simp [skfRun, ih]

theorem skfRun_snoc (U : KFUser B P) (b : Buf B) (L : List (Meas P)) (m : Meas P) :
    (skfRun U b (L ++ [m])).1 = (SKF.delegate U (skfRun U b L).1 m).1 := by
  rw [skfRun_append]; rfl

section
variable {U : KFUser B P} {G : Buf B → Prop} {M : Meas P → Prop} (C : Causal U G M)
variable {t0 : Int} {b0 : Buf B}
include C

/-- A run over sorted measurements after `t0`. -/
theorem run_facts (hG : G b0) (h0 : ∀ e ∈ b0, e.1 ≤ t0) (hne : ∃ e ∈ b0, e.1 ≤ t0) (L : List (Meas P))
    (hs : L.Pairwise (fun a b => a.t ≤ b.t)) (hM : ∀ m ∈ L, M m ∧ t0 < m.t) :
    G (skfRun U b0 L).1 ∧ (∃ e ∈ (skfRun U b0 L).1, e.1 ≤ t0) ∧
    (∀ e ∈ (skfRun U b0 L).1, e.1 ≤ t0 ∨ ∃ m ∈ L, e.1 = m.t) ∧
    (∀ m ∈ L, ∃ e ∈ (skfRun U b0 L).1, e.1 = m.t) := by
  induction L using List.reverseRecOn with
  | nil => exact ⟨hG, hne, fun e he => .inl (h0 e he), by simp⟩
  | append_singleton L m ih =>
    rw [List.pairwise_append] at hs
    obtain ⟨hs1, _, hs3⟩ := hs
    obtain ⟨i1, i2, i3, i4⟩ := ih hs1 (fun x hx => hM x (by simp [hx]))
    obtain ⟨mM, mt⟩ := hM m (by simp)
    rw [skfRun_snoc]
    set h := (skfRun U b0 L).1 with hh
    have hpre : ∃ e ∈ h, e.1 < m.t := by
      obtain ⟨e, he, h1⟩ := i2; exact ⟨e, he, by omega⟩
    have hle : ∀ e ∈ h, e.1 ≤ m.t := by
      intro e he
      rcases i3 e he with h1 | ⟨x, hx, h1⟩
      · omega
      · rw [h1]; exact hs3 x hx m (by simp)
    have hid : h.filter (fun e => decide (e.1 ≤ m.t)) = h := by
      rw [List.filter_eq_self]; intro e he; simpa using hle e he
    have hb := C.before h m i1 mM hpre
    have hc := C.causal h m i1 mM hpre
    rw [hid] at hc
    have hle' : ∀ e ∈ (SKF.delegate U h m).1, e.1 ≤ m.t := by
      intro e he
      rw [← hc] at he
      simpa using (List.mem_filter.mp he).2
    have hold : ∀ e, e.1 < m.t → (e ∈ (SKF.delegate U h m).1 ↔ e ∈ h) := by
      intro e he
      have : e ∈ (SKF.delegate U h m).1.filter (fun e => decide (e.1 < m.t)) ↔ e ∈ h.filter (fun e => decide (e.1 < m.t)) := by
        rw [hb]
      simpa [List.mem_filter, he] using this
    have hmade := C.made h m i1 mM hpre
    refine ⟨C.keep h m i1 mM hpre, ?_, ?_, ?_⟩
    · obtain ⟨e, he, h1⟩ := i2
      exact ⟨e, (hold e (by omega)).mpr he, h1⟩
    · intro e he
      rcases lt_or_eq_of_le (hle' e he) with h1 | h1
      · rcases i3 e ((hold e h1).mp he) with h2 | ⟨x, hx, h2⟩
        · exact .inl h2
        · exact .inr ⟨x, by simp [hx], h2⟩
      · exact .inr ⟨m, by simp, h1⟩
    · intro x hx
      rcases List.mem_append.mp hx with hx | hx
      · have hxm : x.t ≤ m.t := hs3 x hx m (by simp)
        rcases lt_or_eq_of_le hxm with h1 | h1
        · obtain ⟨e, he, h2⟩ := i4 x hx
          exact ⟨e, (hold e (by omega)).mpr he, h2⟩
        · rw [h1]; exact hmade
      · simp only [List.mem_singleton] at hx; rw [hx]; exact hmade

/-- The part of a run up to `t` is the run over the measurements up to `t`. -/
theorem run_restrict (hG : G b0) (h0 : ∀ e ∈ b0, e.1 ≤ t0) (hne : ∃ e ∈ b0, e.1 ≤ t0) (L1 L2 : List (Meas P)) (t : Int)
    (ht : t0 ≤ t) (hs : (L1 ++ L2).Pairwise (fun a b => a.t ≤ b.t)) (hM : ∀ m ∈ L1 ++ L2, M m ∧ t0 < m.t)
    (h1 : ∀ m ∈ L1, m.t ≤ t) (h2 : ∀ m ∈ L2, t < m.t) :
    (skfRun U b0 (L1 ++ L2)).1.filter (fun e => decide (e.1 ≤ t)) = (skfRun U b0 L1).1 := by
  induction L2 using List.reverseRecOn with
  | nil =>
    rw [List.append_nil] at *
    rw [List.filter_eq_self]
    intro e he
    rcases (run_facts C hG h0 hne L1 hs hM).2.2.1 e he with h | ⟨x, hx, h⟩
    · simp; omega
    · have := h1 x hx; simp; omega
  | append_singleton L m ih =>
    rw [← List.append_assoc] at hs hM ⊢
    have hs1 := (List.pairwise_append.mp hs).1
    have hM1 : ∀ x ∈ L1 ++ L, M x ∧ t0 < x.t := fun x hx => hM x (List.mem_append_left _ hx)
    have := ih hs1 hM1 (fun x hx => h2 x (by simp [hx]))
    rw [← this, skfRun_snoc]
    obtain ⟨i1, i2, _, _⟩ := run_facts C hG h0 hne (L1 ++ L) hs1 hM1
    obtain ⟨mM, mt⟩ := hM m (by simp)
    have hb := C.before _ m i1 mM (by obtain ⟨e, he, h1⟩ := i2; exact ⟨e, he, by omega⟩)
    have htm : t < m.t := h2 m (by simp)
    have key : ∀ X : Buf B, X.filter (fun e => decide (e.1 ≤ t)) =
        (X.filter (fun e => decide (e.1 < m.t))).filter (fun e => decide (e.1 ≤ t)) := by
      intro X
      rw [List.filter_filter]
      apply List.filter_congr
      intro e _
      rw [Bool.eq_iff_iff]; simp; omega
    rw [key, hb, ← key]

end

/-- The chronological buffer of a stream. -/
def chronBuf (ms : List (Meas P)) : Buf (Meas P) := ms.foldl (fun b m => b.insertMulti m.t m) []

theorem chronBuf_snoc (ms : List (Meas P)) (m : Meas P) : chronBuf (ms ++ [m]) = (chronBuf ms).insertMulti m.t m := by
  unfold chronBuf; simp

theorem chronBuf_facts (ms : List (Meas P)) :
    (chronBuf ms).SortedKeys ∧ (∀ e ∈ chronBuf ms, e.1 = e.2.t ∧ e.2 ∈ ms) ∧ (∀ m ∈ ms, (m.t, m) ∈ chronBuf ms) ∧
    ∀ k, (chronBuf ms).filter (fun e => e.1 == k) = (ms.map (fun m => (m.t, m))).filter (fun e => e.1 == k) := by
  induction ms using List.reverseRecOn with
  | nil => exact ⟨List.Pairwise.nil, by simp [chronBuf], by simp, by simp [chronBuf]⟩
  | append_singleton ms m ih =>
    obtain ⟨i1, i2, i3, i4⟩ := ih
    rw [chronBuf_snoc]
    refine ⟨Buf.sorted_insertMulti _ i1 _ _, ?_, ?_, ?_⟩
    · intro e he
      rcases (Buf.mem_insertMulti _ _ _ _).mp he with rfl | h
      · exact ⟨rfl, by simp⟩
      · exact ⟨(i2 e h).1, by simp [(i2 e h).2]⟩
    · intro x hx
      rw [Buf.mem_insertMulti]
      rcases List.mem_append.mp hx with h | h
      · exact .inr (i3 x h)
      · simp only [List.mem_singleton] at h; subst h; exact .inl rfl
    · intro k
      rw [Buf.filter_key_insertMulti _ i1, i4, List.map_append, List.filter_append]
      congr 1
      by_cases h : m.t = k <;> simp [h]

theorem sorted_ext' {a b : Buf (Meas P)} (ha : a.SortedKeys) (hb : b.SortedKeys)
    (h : ∀ k, a.filter (fun e => e.1 == k) = b.filter (fun e => e.1 == k)) : a = b := sorted_ext a b ha hb h

/-- The chronological order of a stream is unique. -/
theorem isChron_eq {ms L : List (Meas P)} (h : IsChron ms L) : L = (chronBuf ms).map (·.2) := by
  have : L.map (fun m => (m.t, m)) = chronBuf ms := by
    obtain ⟨c1, _, _, c4⟩ := chronBuf_facts ms
    apply sorted_ext'
    · unfold Buf.SortedKeys
      rw [List.pairwise_map]; exact h.1
    · exact c1
    · intro k
      rw [c4, List.filter_map, List.filter_map]
      have := h.2 k
      simp only [Function.comp_def]
      rw [this]
  rw [← this, List.map_map]
  simp [Function.comp_def]

/-- C101. The chronological order exists. -/
theorem c101_order_exists (ms : List (Meas P)) : ∃ L, IsChron ms L ∧ L.Perm ms := by
  obtain ⟨c1, c2, c3, c4⟩ := chronBuf_facts ms
  refine ⟨(chronBuf ms).map (·.2), ⟨?_, ?_⟩, ?_⟩
  · rw [List.pairwise_map]
    refine List.Pairwise.imp_of_mem ?_ c1
    intro a b ha hb hab
    rw [← (c2 a ha).1, ← (c2 b hb).1]; exact hab
  · intro k
    have h1 : ((chronBuf ms).filter (fun e => e.1 == k)).map (·.2) = ms.filter (fun m => m.t == k) := by
      rw [c4, List.filter_map, List.map_map]; simp [Function.comp_def]
    rw [← h1, List.filter_map]
    congr 1
    apply List.filter_congr
    intro e he
    simp [(c2 e he).1]
  · have : ∀ ms : List (Meas P), ((chronBuf ms).map (·.2)).Perm ms := by
      intro ms
      induction ms using List.reverseRecOn with
      | nil => exact List.Perm.refl _
      | append_singleton ms m ih =>
        rw [chronBuf_snoc]
        refine ((Buf.perm_insertMulti _ _ _).map _).trans ?_
        simp only [List.map_cons]
        exact (ih.cons m).trans (List.perm_append_singleton m ms).symm
    exact this ms

/-- What one call does to the beliefs. -/
theorem skf_process_bel (fp : FP) (U : KFUser B P) (s : KFState B P) (hd : s.delayed = true) (m : Meas P) :
    (SKF.process fp U s m).1.bel =
      (if (SKF.delegate U s.bel m).2 = .outOfOrder ∧ s.meas.existAfter m.t = true
        then (SKF.redoAfter U { s with bel := (SKF.delegate U s.bel m).1 } m.t).1.bel
        else (SKF.delegate U s.bel m).1) ∧
    (SKF.process fp U s m).2.head? = some (SKF.delegate U s.bel m).2 := by
  unfold SKF.process
  simp only
  rw [if_pos hd]
  have hi : ∀ s' : KFState B P, (SKF.insertMeas s' m).bel = s'.bel := by
    intro s'; unfold SKF.insertMeas; split <;> rfl
  refine ⟨?_, ?_⟩
  · split
    · split
      · simp only [hi]
      · simp only [hi]
    · split <;> rfl
  · split <;> rfl

/-- The state after a stream, with the chronological run it equals. -/
structure DelayInv (fp : FP) (U : KFUser B P) (horizon : ℚ) (b0 : Buf B) (pre : List (Meas P)) (s : KFState B P) : Prop where
  bel : s.bel = (skfRun U b0 ((chronBuf pre).map (·.2))).1
  delayed : s.delayed = true
  hor : s.hMeas = |horizon|
  meas : s.meas = (pre.map (fun m => (m.t, m))).foldl (insertTrim fp |horizon|) []

section
variable {U : KFUser B P} {G : Buf B → Prop} {M : Meas P → Prop} (C : Causal U G M)
variable {t0 : Int} {b0 : Buf B}
include C

/-- One measurement: the chronological run again, unless the stored later measurements all have one stamp and are two or
more; then only the first of them is redone. -/
theorem delay_step (fp : FP) (horizon : ℚ) (hm0 : 1/100000 ≤ |horizon|) (hm1 : |horizon| ≤ 8589934592)
    (hG : G b0) (h0 : ∀ e ∈ b0, e.1 ≤ t0) (hne : ∃ e ∈ b0, e.1 ≤ t0)
    (pre : List (Meas P)) (m : Meas P) (hM : ∀ x ∈ pre ++ [m], M x ∧ t0 < x.t)
    (hk : ∀ x ∈ pre, 0 ≤ x.t ∧ x.t ≤ 8589934590000000000)
    (hdel : ∀ x ∈ pre, ((x.t - m.t : ℤ) : ℚ) / 1000000000 ≤ |horizon| - 1/100000)
    (s : KFState B P) (hI : DelayInv fp U horizon b0 pre s) :
    (((∀ x ∈ pre, ∀ y ∈ pre, m.t < x.t → m.t < y.t → x.t = y.t) → (pre.filter (fun x => decide (m.t < x.t))).length ≤ 1) →
      DelayInv fp U horizon b0 (pre ++ [m]) (SKF.process fp U s m).1) ∧
    (∀ x r, pre.filter (fun x => decide (m.t < x.t)) = x :: r → r ≠ [] → (∀ y ∈ r, y.t = x.t) →
      (SKF.process fp U s m).1.bel = (skfRun U b0 ((chronBuf (pre.filter (fun x => decide (x.t ≤ m.t)) ++ [m, x])).map (·.2))).1) := by
  obtain ⟨c1, c2, c3, c4⟩ := chronBuf_facts pre
  set F := chronBuf pre with hF
  set L1 := (F.filter (fun e => decide (e.1 ≤ m.t))).map (·.2) with hL1
  set L2 := (F.filter (fun e => decide (m.t < e.1))).map (·.2) with hL2
  have hsplitB : F = F.filter (fun e => decide (e.1 ≤ m.t)) ++ F.filter (fun e => decide (m.t < e.1)) := by
    have h1 : F.belowUB m.t ++ F.upperBound m.t = F := List.takeWhile_append_dropWhile
    rw [Buf.belowUB_eq F c1, Buf.upperBound_eq F c1] at h1
    exact h1.symm
  have hsplit : F.map (·.2) = L1 ++ L2 := by
    conv_lhs => rw [hsplitB]
    rw [List.map_append]
  have hF' : (chronBuf (pre ++ [m])).map (·.2) = L1 ++ m :: L2 := by
    rw [chronBuf_snoc, ← hF, Buf.insertMulti_eq, Buf.belowUB_eq F c1, Buf.upperBound_eq F c1]
    simp [hL1, hL2]
  have hmem : ∀ x ∈ F.map (·.2), x ∈ pre := by
    intro x hx
    obtain ⟨e, he, rfl⟩ := List.mem_map.mp hx
    exact (c2 e he).2
  have hsorted : (F.map (·.2)).Pairwise (fun a b => a.t ≤ b.t) := by
    rw [List.pairwise_map]
    refine List.Pairwise.imp_of_mem ?_ c1
    intro a b ha hb hab
    rw [← (c2 a ha).1, ← (c2 b hb).1]; exact hab
  have hMF : ∀ x ∈ F.map (·.2), M x ∧ t0 < x.t := fun x hx => hM x (by simp [hmem x hx])
  have h1le : ∀ x ∈ L1, x.t ≤ m.t := by
    intro x hx
    obtain ⟨e, he, rfl⟩ := List.mem_map.mp hx
    obtain ⟨he1, he2⟩ := List.mem_filter.mp he
    rw [← (c2 e he1).1]; simpa using he2
  have h2gt : ∀ x ∈ L2, m.t < x.t := by
    intro x hx
    obtain ⟨e, he, rfl⟩ := List.mem_map.mp hx
    obtain ⟨he1, he2⟩ := List.mem_filter.mp he
    rw [← (c2 e he1).1]; simpa using he2
  obtain ⟨mM, mt⟩ := hM m (by simp)
  obtain ⟨r1, r2, r3, r4⟩ := run_facts C hG h0 hne (F.map (·.2)) hsorted hMF
  have hbel : s.bel = (skfRun U b0 (L1 ++ L2)).1 := by rw [hI.bel, ← hF, hsplit]
  have hpreb : ∃ e ∈ s.bel, e.1 < m.t := by
    rw [hI.bel]
    obtain ⟨e, he, h1⟩ := r2; exact ⟨e, he, by omega⟩
  have hGs : G s.bel := by rw [hI.bel]; exact r1
  have hrestr := run_restrict C hG h0 hne L1 L2 m.t (by omega) (by rw [← hsplit]; exact hsorted)
    (by rw [← hsplit]; exact hMF) h1le h2gt
  rw [← hbel] at hrestr
  -- the stored measurements after the new one
  have hks : ∀ e ∈ pre.map (fun m => (m.t, m)), 0 ≤ e.1 ∧ e.1 ≤ 8589934590000000000 := by
    intro e he; obtain ⟨x, hx, rfl⟩ := List.mem_map.mp he; exact hk x hx
  have hst : s.meas.SortedKeys := by
    rw [hI.meas]
    exact (foldl_insertTrim fp |horizon| (pre.map (fun m => (m.t, m))) [] List.Pairwise.nil).1
  have hlater : s.meas.filter (fun e => decide (m.t < e.1)) = F.filter (fun e => decide (m.t < e.1)) := by
    apply sorted_ext' (hst.filter _) (c1.filter _)
    intro k
    by_cases hkm : m.t < k
    · have e1 : ∀ X : Buf (Meas P), (X.filter (fun e => decide (m.t < e.1))).filter (fun e => e.1 == k) =
          X.filter (fun e => e.1 == k) := by
        intro X
        rw [List.filter_filter]
        apply List.filter_congr
        intro e _
        rw [Bool.eq_iff_iff]; simp; omega
      rw [e1, e1, c4, hI.meas]
      refine (insertTrim_groups fp |horizon| hm0 hm1 _ hks k).2 ?_
      intro e he
      obtain ⟨x, hx, rfl⟩ := List.mem_map.mp he
      refine le_trans ?_ (hdel x hx)
      apply div_le_div_of_nonneg_right _ (by norm_num)
      exact_mod_cast (by simp; omega)
    · have e1 : ∀ X : Buf (Meas P), (X.filter (fun e => decide (m.t < e.1))).filter (fun e => e.1 == k) = [] := by
        intro X
        rw [List.filter_filter, List.filter_eq_nil_iff]
        intro e _
        simp; omega
      rw [e1, e1]
  obtain ⟨p1, p2⟩ := skf_process_bel fp U s hI.delayed m
  obtain ⟨q1, q2, q3⟩ := skf_process_meas fp U s m
  have hrun1 : ((SKF.delegate U s.bel m).1.filter (fun e => decide (e.1 ≤ m.t))) = (skfRun U b0 (L1 ++ [m])).1 := by
    rw [C.causal s.bel m hGs mM hpreb, hrestr, skfRun_snoc]
  have hnd : (SKF.delegate U s.bel m).2 ≠ .discarded := by
    by_cases hl : ∃ e ∈ s.bel, m.t < e.1
    · rw [C.late s.bel m hGs mM hpreb hl]; simp
    · push Not at hl
      exact (C.current s.bel m hGs mM hpreb hl).2
  have hmeas' : (SKF.process fp U s m).1.meas = ((pre ++ [m]).map (fun m => (m.t, m))).foldl (insertTrim fp |horizon|) [] := by
    rw [q3, if_pos ⟨hI.delayed, by rw [p2]; simpa using hnd⟩, List.map_append, List.foldl_append, ← hI.meas, hI.hor]; rfl
  have hpreL2 : (pre.filter (fun x => decide (m.t < x.t))).Perm L2 := by
    have hp : (F.map (·.2)).Perm pre := by
      have : ∀ ms : List (Meas P), ((chronBuf ms).map (·.2)).Perm ms := by
        intro ms
        induction ms using List.reverseRecOn with
        | nil => exact List.Perm.refl _
        | append_singleton ms m ih =>
          rw [chronBuf_snoc]
          refine ((Buf.perm_insertMulti _ _ _).map _).trans ?_
          simp only [List.map_cons]
          exact (ih.cons m).trans (List.perm_append_singleton m ms).symm
      exact this pre
    have e2 : L2 = (F.map (·.2)).filter (fun x => decide (m.t < x.t)) := by
      rw [hL2, List.filter_map]
      congr 1
      apply List.filter_congr
      intro e he
      simp [(c2 e he).1]
    rw [e2]
    exact (hp.filter _).symm
  by_cases hL2e : L2 = []
  · -- nothing later
    have hcur : ∀ e ∈ s.bel, e.1 ≤ m.t := by
      intro e he
      rw [hI.bel, ← hF] at he
      rcases r3 e he with h | ⟨x, hx, h⟩
      · omega
      · rw [hsplit, hL2e, List.append_nil] at hx
        rw [h]; exact h1le x hx
    refine ⟨fun _ => ⟨?_, by rw [q1]; exact hI.delayed, by rw [q2]; exact hI.hor, hmeas'⟩, ?_⟩
    · rw [p1, if_neg (fun h => (C.current s.bel m hGs mM hpreb hcur).1 h.1), hF', hL2e, ← hrun1]
      symm
      rw [List.filter_eq_self]
      intro e he
      have hid : s.bel.filter (fun e => decide (e.1 ≤ m.t)) = s.bel := by
        rw [List.filter_eq_self]; intro e he; simpa using hcur e he
      have hc := C.causal s.bel m hGs mM hpreb
      rw [hid] at hc
      rw [← hc] at he
      exact (List.mem_filter.mp he).2
    · intro x r hx hr _
      rw [hL2e] at hpreL2
      rw [hx] at hpreL2
      simp at hpreL2
  · have hex : ∃ x, x ∈ L2 := List.exists_mem_of_ne_nil _ hL2e
    have hlate : ∃ e ∈ s.bel, m.t < e.1 := by
      obtain ⟨x, hx⟩ := hex
      obtain ⟨e, he, h⟩ := r4 x (by rw [hsplit]; simp [hx])
      refine ⟨e, by rw [hI.bel, ← hF]; exact he, ?_⟩
      rw [h]; exact h2gt x hx
    have hea : s.meas.existAfter m.t = true := by
      rw [Buf.existAfter_iff _ hst]
      obtain ⟨x, hx⟩ := hex
      obtain ⟨e, he, rfl⟩ := List.mem_map.mp hx
      rw [← hlater] at he
      obtain ⟨he1, he2⟩ := List.mem_filter.mp he
      exact ⟨e, he1, by simpa using he2⟩
    have hstat := C.late s.bel m hGs mM hpreb hlate
    have hGr := C.keep s.bel m hGs mM hpreb
    have hbs : Buf.SortedKeys (SKF.delegate U s.bel m).1 :=
      Buf.StrictKeys.sorted (C.strict _ hGr)
    rw [if_pos ⟨hstat, hea⟩] at p1
    refine ⟨fun hcl => ⟨?_, by rw [q1]; exact hI.delayed, by rw [q2]; exact hI.hor, hmeas'⟩, ?_⟩
    · have hR := c33_redo_after_partial U { s with bel := (SKF.delegate U s.bel m).1 } hbs hst m.t (by
        intro hall
        show (s.meas.filter (fun e => decide (m.t < e.1))).length ≤ 1
        have hh : (pre.filter (fun x => decide (m.t < x.t))).length ≤ 1 := by
          apply hcl
          intro x hx y hy htx hty
          have hx' : (x.t, x) ∈ s.meas := by
            have : (x.t, x) ∈ s.meas.filter (fun e => decide (m.t < e.1)) := by
              rw [hlater]; exact List.mem_filter.mpr ⟨c3 x hx, by simpa using htx⟩
            exact (List.mem_filter.mp this).1
          have hy' : (y.t, y) ∈ s.meas := by
            have : (y.t, y) ∈ s.meas.filter (fun e => decide (m.t < e.1)) := by
              rw [hlater]; exact List.mem_filter.mpr ⟨c3 y hy, by simpa using hty⟩
            exact (List.mem_filter.mp this).1
          exact hall _ hx' _ hy' htx hty
        rw [hlater]
        have := hpreL2.length_eq
        rw [hL2, List.length_map] at this
        omega)
      have hR2 := congrArg Prod.fst hR.2
      rw [p1, hF']
      simp only at hR2
      rw [hR2, hrun1, hlater, ← hL2, ← skfRun_append, List.append_assoc]
      rfl
    · intro x r hx hr hsame
      have hall : ∀ y ∈ L2, y.t = x.t := by
        intro y hy
        have : y ∈ pre.filter (fun x => decide (m.t < x.t)) := hpreL2.mem_iff.mpr hy
        rw [hx] at this
        rcases List.mem_cons.mp this with h | h
        · rw [h]
        · exact hsame y h
      have hgrp : F.filter (fun e => decide (m.t < e.1)) = (x :: r).map (fun m => (m.t, m)) := by
        have e1 : F.filter (fun e => decide (m.t < e.1)) = F.filter (fun e => e.1 == x.t) := by
          apply List.filter_congr
          intro e he
          rw [Bool.eq_iff_iff]; simp
          constructor
          · intro h
            rw [(c2 e he).1]
            exact hall e.2 (List.mem_map.mpr ⟨e, List.mem_filter.mpr ⟨he, by simpa using h⟩, rfl⟩)
          · intro h
            rw [h]
            have : x ∈ pre.filter (fun x => decide (m.t < x.t)) := by rw [hx]; simp
            simpa using (List.mem_filter.mp this).2
        rw [e1, c4, ← hx, List.filter_map]
        congr 1
        apply List.filter_congr
        intro y hy
        rw [Bool.eq_iff_iff]; simp
        constructor
        · intro h
          rw [h]
          have : x ∈ pre.filter (fun x => decide (m.t < x.t)) := by rw [hx]; simp
          simpa using (List.mem_filter.mp this).2
        · intro h
          exact hall y (hpreL2.mem_iff.mp (List.mem_filter.mpr ⟨hy, by simpa using h⟩))
      have hR := (c33_redo_after_fails U { s with bel := (SKF.delegate U s.bel m).1 } hbs hst m.t x.t (x.t, x)
        (r.map (fun m => (m.t, m))) (by show s.meas.filter _ = _; rw [hlater, hgrp]; rfl) (by simpa using hr) (by
          intro e he
          rcases List.mem_cons.mp he with h | h
          · rw [h]
          · obtain ⟨y, hy, rfl⟩ := List.mem_map.mp h
            exact hsame y hy)).1
      have hR2 := congrArg Prod.fst hR
      simp only at hR2
      rw [p1, hR2, hrun1, ← skfRun_append]
      congr 2
      -- the chronological order of what was processed
      symm
      obtain ⟨d1, d2, d3, d4⟩ := chronBuf_facts (pre.filter (fun x => decide (x.t ≤ m.t)))
      have hmx : m.t < x.t := by
        have : x ∈ pre.filter (fun x => decide (m.t < x.t)) := by rw [hx]; simp
        simpa using (List.mem_filter.mp this).2
      have hfil : chronBuf (pre.filter (fun x => decide (x.t ≤ m.t))) = F.filter (fun e => decide (e.1 ≤ m.t)) := by
        apply sorted_ext' d1 (c1.filter _)
        intro k
        rw [d4, List.filter_filter]
        by_cases hkm : k ≤ m.t
        · have : F.filter (fun a => decide (a.1 == k) && decide (a.1 ≤ m.t)) = F.filter (fun e => e.1 == k) := by
            apply List.filter_congr
            intro e _
            rw [Bool.eq_iff_iff]; simp; omega
          simp only [Bool.decide_eq_true] at this
          rw [this, c4, List.filter_map, List.filter_map, List.filter_filter]
          congr 1
          apply List.filter_congr
          intro e _
          rw [Bool.eq_iff_iff]; simp; omega
        · have e1 : F.filter (fun a => (a.1 == k) && decide (a.1 ≤ m.t)) = [] := by
            rw [List.filter_eq_nil_iff]; intro e _; simp; omega
          rw [e1, List.filter_map, List.filter_filter, List.map_eq_nil_iff, List.filter_eq_nil_iff]
          intro e _; simp; omega
      have : pre.filter (fun x => decide (x.t ≤ m.t)) ++ [m, x] = (pre.filter (fun x => decide (x.t ≤ m.t)) ++ [m]) ++ [x] := by simp
      rw [this, chronBuf_snoc, chronBuf_snoc, hfil]
      have i1 : ∀ (X : Buf (Meas P)) (k : Int) (v : Meas P), X.SortedKeys → (∀ e ∈ X, e.1 ≤ k) → X.insertMulti k v = X ++ [(k, v)] := by
        intro X k v hX hle
        rw [Buf.insertMulti_eq, Buf.belowUB_eq X hX, Buf.upperBound_eq X hX]
        rw [List.filter_eq_self.mpr (fun e he => by simpa using hle e he),
          List.filter_eq_nil_iff.mpr (fun e he => by simpa using hle e he)]
      have hA : ∀ e ∈ F.filter (fun e => decide (e.1 ≤ m.t)), e.1 ≤ m.t := by
        intro e he; simpa using (List.mem_filter.mp he).2
      rw [i1 _ m.t m (c1.filter _) hA, i1 _ x.t x]
      · simp [hL1]
      · rw [← i1 _ m.t m (c1.filter _) hA]; exact Buf.sorted_insertMulti _ (c1.filter _) _ _
      · intro e he
        rcases List.mem_append.mp he with h | h
        · have := hA e h; omega
        · simp only [List.mem_singleton] at h; rw [h]; exact hmx.le

end

/-- The belief history after a stream into a new filter with delay handling, initialised at `t0`. -/
def skfBeliefs (fp : FP) (U : KFUser B P) (horizon : ℚ) (t0 : Int) (b : B) (ms : List (Meas P)) : Buf B :=
  (ms.foldl (fun s m => (SKF.process fp U s m).1) (SKF.doInit (SKF.new horizon true) b t0)).bel

/-- What C101 asks: the beliefs are those of the chronological run from the initial belief. -/
def InTimeOrder (fp : FP) (U : KFUser B P) (horizon : ℚ) (t0 : Int) (b : B) (ms : List (Meas P)) : Prop :=
  ∀ L, IsChron ms L → skfBeliefs fp U horizon t0 b ms = (skfRun U [(t0, b)] L).1

/-- No measurement of the stream overtakes two or more others that all carry one stamp. -/
def NoClash (ms : List (Meas P)) : Prop :=
  ∀ pre m post, ms = pre ++ m :: post →
    (∀ x ∈ pre, ∀ y ∈ pre, m.t < x.t → m.t < y.t → x.t = y.t) → (pre.filter (fun x => decide (m.t < x.t))).length ≤ 1

/-- No measurement comes later than the horizon (10 µs margin for the arithmetic in double seconds). -/
def InHorizon (horizon : ℚ) (ms : List (Meas P)) : Prop :=
  ∀ pre m post, ms = pre ++ m :: post → ∀ x ∈ pre, ((x.t - m.t : ℤ) : ℚ) / 1000000000 ≤ |horizon| - 1/100000

theorem delay_run {U : KFUser B P} {G : Buf B → Prop} {M : Meas P → Prop} (C : Causal U G M) (fp : FP) (horizon : ℚ)
    (hm0 : 1/100000 ≤ |horizon|) (hm1 : |horizon| ≤ 8589934592) (t0 : Int) (b : B) (hG : G [(t0, b)]) (ms : List (Meas P))
    (hM : ∀ m ∈ ms, M m ∧ t0 < m.t) (hk : ∀ m ∈ ms, 0 ≤ m.t ∧ m.t ≤ 8589934590000000000)
    (hh : InHorizon horizon ms) (hc : NoClash ms) :
    DelayInv fp U horizon [(t0, b)] ms (ms.foldl (fun s m => (SKF.process fp U s m).1) (SKF.doInit (SKF.new horizon true) b t0)) := by
  induction ms using List.reverseRecOn with
  | nil => exact ⟨rfl, rfl, rfl, rfl⟩
  | append_singleton ms m ih =>
    rw [List.foldl_append]
    have i := ih (fun x hx => hM x (by simp [hx])) (fun x hx => hk x (by simp [hx]))
      (fun pre x post h => hh pre x (post ++ [m]) (by rw [h]; simp))
      (fun pre x post h => hc pre x (post ++ [m]) (by rw [h]; simp))
    exact (delay_step C fp horizon hm0 hm1 hG (t0 := t0) (by simp) ⟨(t0, b), by simp, le_refl _⟩ ms m hM
      (fun x hx => hk x (by simp [hx])) (hh ms m [] (by simp)) _ i).1 (hc ms m [] (by simp))

/-- C101, as far as it holds: for a causal filter, delays within the horizon and no clash. -/
theorem c101_chronological_partial {U : KFUser B P} {G : Buf B → Prop} {M : Meas P → Prop} (C : Causal U G M) (fp : FP)
    (horizon : ℚ) (hm0 : 1/100000 ≤ |horizon|) (hm1 : |horizon| ≤ 8589934592) (t0 : Int) (b : B) (hG : G [(t0, b)])
    (ms : List (Meas P)) (hM : ∀ m ∈ ms, M m ∧ t0 < m.t) (hk : ∀ m ∈ ms, 0 ≤ m.t ∧ m.t ≤ 8589934590000000000)
    (hh : InHorizon horizon ms) (hc : NoClash ms) : InTimeOrder fp U horizon t0 b ms := by
  intro L hL
  rw [isChron_eq hL]
  exact (delay_run C fp horizon hm0 hm1 t0 b hG ms hM hk hh hc).bel

/-- C101. The order of arrival does not matter: two streams with the same measurements per stamp end in the same beliefs. -/
theorem c101_order_free {U : KFUser B P} {G : Buf B → Prop} {M : Meas P → Prop} (C : Causal U G M) (fp fp' : FP)
    (horizon horizon' : ℚ) (hm0 : 1/100000 ≤ |horizon|) (hm1 : |horizon| ≤ 8589934592) (hm0' : 1/100000 ≤ |horizon'|)
    (hm1' : |horizon'| ≤ 8589934592) (t0 : Int) (b : B) (hG : G [(t0, b)])
    (ms ms' : List (Meas P)) (hM : ∀ m ∈ ms, M m ∧ t0 < m.t) (hk : ∀ m ∈ ms, 0 ≤ m.t ∧ m.t ≤ 8589934590000000000)
    (hh : InHorizon horizon ms) (hc : NoClash ms) (hh' : InHorizon horizon' ms') (hc' : NoClash ms')
    (hsame : ∀ k, ms.filter (fun m => m.t == k) = ms'.filter (fun m => m.t == k)) :
    skfBeliefs fp U horizon t0 b ms = skfBeliefs fp' U horizon' t0 b ms' := by
  have hmem : ∀ m ∈ ms', m ∈ ms := by
    intro m hm
    have : m ∈ ms'.filter (fun x => x.t == m.t) := List.mem_filter.mpr ⟨hm, by simp⟩
    rw [← hsame] at this
    exact (List.mem_filter.mp this).1
  obtain ⟨L, hL, _⟩ := c101_order_exists ms
  rw [c101_chronological_partial C fp horizon hm0 hm1 t0 b hG ms hM hk hh hc L hL,
    c101_chronological_partial C fp' horizon' hm0' hm1' t0 b hG ms' (fun m hm => hM m (hmem m hm))
      (fun m hm => hk m (hmem m hm)) hh' hc' L ⟨hL.1, fun k => by rw [hL.2, hsame]⟩]

/-- C101. What a clash does: of the measurements overtaken only the first is processed again, the others are lost from the
beliefs. -/
theorem c101_clash {U : KFUser B P} {G : Buf B → Prop} {M : Meas P → Prop} (C : Causal U G M) (fp : FP)
    (horizon : ℚ) (hm0 : 1/100000 ≤ |horizon|) (hm1 : |horizon| ≤ 8589934592) (t0 : Int) (b : B) (hG : G [(t0, b)])
    (pre : List (Meas P)) (m x : Meas P) (r : List (Meas P)) (hM : ∀ y ∈ pre ++ [m], M y ∧ t0 < y.t)
    (hk : ∀ y ∈ pre ++ [m], 0 ≤ y.t ∧ y.t ≤ 8589934590000000000)
    (hh : InHorizon horizon (pre ++ [m])) (hc : NoClash pre)
    (hx : pre.filter (fun x => decide (m.t < x.t)) = x :: r) (hr : r ≠ []) (hsame : ∀ y ∈ r, y.t = x.t)
    (L : List (Meas P)) (hL : IsChron (pre.filter (fun y => decide (y.t ≤ m.t)) ++ [m, x]) L) :
    skfBeliefs fp U horizon t0 b (pre ++ [m]) = (skfRun U [(t0, b)] L).1 := by
  have i := delay_run C fp horizon hm0 hm1 t0 b hG pre (fun y hy => hM y (by simp [hy])) (fun y hy => hk y (by simp [hy]))
    (fun p y post h => hh p y (post ++ [m]) (by rw [h]; simp)) hc
  have := (delay_step C fp horizon hm0 hm1 hG (t0 := t0) (by simp) ⟨(t0, b), by simp, le_refl _⟩ pre m hM
      (fun y hy => hk y (by simp [hy])) (hh pre m [] (by simp)) _ i).2 x r hx hr hsame
  rw [isChron_eq hL]
  unfold skfBeliefs
  rw [List.foldl_append]
  exact this

/-! ## Filters that replace the belief at the time of the measurement -/

theorem strict_ext {α : Type _} {a b : Buf α} (ha : a.StrictKeys) (hb : b.StrictKeys) (h : ∀ e, e ∈ a ↔ e ∈ b) : a = b := by
  have na : a.Nodup := List.Pairwise.imp (fun {x y} hxy => by intro he; rw [he] at hxy; omega) ha
  have nb : b.Nodup := List.Pairwise.imp (fun {x y} hxy => by intro he; rw [he] at hxy; omega) hb
  exact List.Perm.eq_of_pairwise (le := fun x y : Int × α => x.1 < y.1) (fun x y _ _ h1 h2 => by omega) ha hb
    ((List.perm_ext_iff_of_nodup na nb).mpr h)

theorem filter_insertMap {α : Type _} {h : Buf α} (hs : h.StrictKeys) (t : Int) (v : α) :
    (h.insertMap t v).filter (fun e => decide (e.1 ≤ t)) = Buf.insertMap (h.filter (fun e => decide (e.1 ≤ t))) t v ∧
    (h.insertMap t v).filter (fun e => decide (e.1 < t)) = h.filter (fun e => decide (e.1 < t)) := by
  constructor
  · apply strict_ext ((Buf.strict_insertMap h hs t v).filter _) (Buf.strict_insertMap _ (hs.filter _) t v)
    intro e
    rw [List.mem_filter, Buf.mem_insertMap h hs, Buf.mem_insertMap _ (hs.filter _), List.mem_filter]
    constructor
    · rintro ⟨h1 | h1, h2⟩
      · exact .inl h1
      · exact .inr ⟨⟨h1.1, h2⟩, h1.2⟩
    · rintro (h1 | h1)
      · exact ⟨.inl h1, by rw [h1]; simp⟩
      · exact ⟨.inr ⟨h1.1.1, h1.2⟩, h1.1.2⟩
  · apply strict_ext ((Buf.strict_insertMap h hs t v).filter _) (hs.filter _)
    intro e
    rw [List.mem_filter, Buf.mem_insertMap h hs, List.mem_filter]
    constructor
    · rintro ⟨h1 | h1, h2⟩
      · rw [h1] at h2; simp at h2
      · exact ⟨h1.1, h2⟩
    · rintro ⟨h1, h2⟩
      exact ⟨.inr ⟨h1, by simp at h2; omega⟩, h2⟩

/-- Such a filter is causal if the new belief depends on older and present beliefs only. -/
theorem causal_of_value {U : KFUser B P} {G : Buf B → Prop} {M : Meas P → Prop} (val : Buf B → Meas P → B)
    (hstrict : ∀ h, G h → h.Pairwise (fun x y => x.1 < y.1))
    (hsub : ∀ h t, G h → G (h.filter (fun e => decide (e.1 ≤ t))))
    (hkeep : ∀ h m, G h → M m → (∃ e ∈ h, e.1 < m.t) → G (h.insertMap m.t (val h m)))
    (hval : ∀ h m, G h → M m → (∃ e ∈ h, e.1 < m.t) → val (h.filter (fun e => decide (e.1 ≤ m.t))) m = val h m)
    (hdel : ∀ h m, G h → M m → (∃ e ∈ h, e.1 < m.t) →
      SKF.delegate U h m = (h.insertMap m.t (val h m), if h.existAfter m.t then .outOfOrder else .processed)) :
    Causal U G M where
  strict := hstrict
  sub := hsub
  keep := fun h m hG hM he => by rw [hdel h m hG hM he]; exact hkeep h m hG hM he
  before := fun h m hG hM he => by rw [hdel h m hG hM he]; exact (filter_insertMap (hstrict h hG) m.t _).2
  causal := fun h m hG hM he => by
    rw [hdel h m hG hM he, hdel _ m (hsub h m.t hG) hM (by
      obtain ⟨e, he, h1⟩ := he
      exact ⟨e, List.mem_filter.mpr ⟨he, by simp; omega⟩, h1⟩), hval h m hG hM he]
    exact (filter_insertMap (hstrict h hG) m.t _).1
  made := fun h m hG hM he => by
    rw [hdel h m hG hM he]
    exact ⟨(m.t, val h m), (Buf.mem_insertMap h (hstrict h hG) _ _ _).mpr (.inl rfl), rfl⟩
  late := fun h m hG hM he hl => by
    rw [hdel h m hG hM he]
    simp only
    rw [if_pos ((Buf.existAfter_iff h (Buf.StrictKeys.sorted (hstrict h hG)) m.t).mpr hl)]
  current := fun h m hG hM he hl => by
    rw [hdel h m hG hM he]
    simp only
    rw [if_neg]
    · simp
    · intro hc
      obtain ⟨e, he, h1⟩ := (Buf.existAfter_iff h (Buf.StrictKeys.sorted (hstrict h hG)) m.t).mp hc
      have := hl e he
      omega

/-! ### A filter that keeps the list of what it has seen -/

namespace DelayExample

/-- The newest belief at or before `t`. -/
def upTo (h : Buf (List ℕ)) (t : Int) : List ℕ := (((h.filter (fun e => decide (e.1 ≤ t))).getLast?).map (·.2)).getD []

def stepL (h : Buf (List ℕ)) (m : Meas Unit) : Buf (List ℕ) × Status :=
  (h.insertMap m.t (upTo h m.t ++ [m.id]), if h.existAfter m.t then .outOfOrder else .processed)

def listUser : KFUser (List ℕ) Unit := ⟨stepL, stepL, fun h _ => (h, false)⟩

theorem listUser_causal : Causal listUser (fun h => h.Pairwise (fun x y => x.1 < y.1))
    (fun m => m.kind = .propagation ∨ m.kind = .priv) := by
  refine causal_of_value (fun h m => upTo h m.t ++ [m.id]) (fun h hh => hh) (fun h t hh => List.Pairwise.filter _ hh)
    (fun h m hh _ _ => Buf.strict_insertMap h hh _ _) ?_ ?_
  · intro h m _ _ _
    unfold upTo
    rw [List.filter_filter]
    simp
  · intro h m _ hM _
    rcases hM with hM | hM <;> simp only [SKF.delegate, hM] <;> rfl

/-- One second. -/
def s1 : Int := 1000000000

def a : Meas Unit := ⟨1, 1 * s1, .propagation, ()⟩
def b : Meas Unit := ⟨2, 2 * s1, .propagation, ()⟩
def c : Meas Unit := ⟨3, 2 * s1, .priv, ()⟩
def d : Meas Unit := ⟨4, 1 * s1, .priv, ()⟩
def e : Meas Unit := ⟨5, 3 * s1, .propagation, ()⟩

/-- The hypotheses of C101 hold of a stream with a delayed measurement that overtakes three others. -/
example : InHorizon 10 [a, b, c, e, d] ∧ NoClash [a, b, c, e, d] := by
  constructor
  · intro pre m post h x hx
    have hx' : x ∈ [a, b, c, e, d] := by rw [h]; simp [hx]
    have hm' : m ∈ [a, b, c, e, d] := by rw [h]; simp
    have : ∀ y ∈ [a, b, c, e, d], 1 * s1 ≤ y.t ∧ y.t ≤ 3 * s1 := by decide
    have h1 : x.t - m.t ≤ 2000000000 := by
      have h3 := (this x hx').2; have h4 := (this m hm').1; unfold s1 at *; omega
    have h2 : ((x.t - m.t : ℤ) : ℚ) ≤ 2000000000 := by exact_mod_cast h1
    have : |(10:ℚ)| = 10 := by norm_num
    rw [this]; linarith
  · intro pre m post h hall
    have hl : pre.length < 5 := by
      have := congrArg List.length h; simp at this; omega
    have hp : pre = [a, b, c, e, d].take pre.length := by rw [h]; simp
    have hm : [a, b, c, e, d][pre.length]? = some m := by rw [h]; simp
    generalize pre.length = n at *
    subst hp
    interval_cases n
    all_goals first
      | (simp at hm; subst hm; decide)
      | (exfalso
         simp at hm; subst hm
         have := hall b (by simp) e (by simp) (by decide) (by decide)
         exact absurd this (by decide))

/-- C101 fails: after 1 and 2, 3 at the same stamp, the late 4 leaves 3 out. -/
theorem c101_chronological_fails (fp : FP) :
    skfBeliefs fp listUser 10 0 [] [a, b, c, d] = [(0, []), (1 * s1, [1, 4]), (2 * s1, [1, 4, 2])] ∧
    (skfRun listUser [(0, [])] [a, d, b, c]).1 = [(0, []), (1 * s1, [1, 4]), (2 * s1, [1, 4, 2, 3])] ∧
    ¬ InTimeOrder fp listUser 10 0 [] [a, b, c, d] := by
  have hA : |(10:ℚ)| = 10 := by norm_num
  have h1 : skfBeliefs fp listUser 10 0 [] ([a, b, c] ++ [d]) = (skfRun listUser [(0, [])] [a, d, b]).1 := by
    refine c101_clash listUser_causal fp 10 (by rw [hA]; norm_num) (by rw [hA]; norm_num) 0 [] (List.pairwise_singleton _ _)
      [a, b, c] d b [c] (by decide) (by decide) ?_ ?_ (by decide) (by simp) (by decide) _ ?_
    · intro pre m post h x hx
      have hx' : x ∈ [a, b, c] ++ [d] := by rw [h]; simp [hx]
      have hm' : m ∈ [a, b, c] ++ [d] := by rw [h]; simp
      have : ∀ y ∈ [a, b, c] ++ [d], 1 * s1 ≤ y.t ∧ y.t ≤ 2 * s1 := by decide
      have h1 : x.t - m.t ≤ 1000000000 := by
        have h3 := (this x hx').2; have h4 := (this m hm').1; unfold s1 at *; omega
      have h2 : ((x.t - m.t : ℤ) : ℚ) ≤ 1000000000 := by exact_mod_cast h1
      rw [hA]; linarith
    · intro pre m post h hall
      have hl : pre.length < 3 := by
        have := congrArg List.length h; simp at this; omega
      have hp : pre = [a, b, c].take pre.length := by rw [h]; simp
      have hm : [a, b, c][pre.length]? = some m := by rw [h]; simp
      generalize pre.length = n at *
      subst hp
      interval_cases n
      all_goals (simp at hm; subst hm; decide)
    · refine ⟨by decide, ?_⟩
      intro k
      have hf : [a, b, c].filter (fun y => decide (y.t ≤ d.t)) ++ [d, b] = [a, d, b] := by decide
      rw [hf]
  have h2 : (skfRun listUser [(0, [])] [a, d, b]).1 = [(0, []), (1 * s1, [1, 4]), (2 * s1, [1, 4, 2])] := by decide
  have h3 : (skfRun listUser [(0, [])] [a, d, b, c]).1 = [(0, []), (1 * s1, [1, 4]), (2 * s1, [1, 4, 2, 3])] := by decide
  have h1' : skfBeliefs fp listUser 10 0 [] [a, b, c, d] = [(0, []), (1 * s1, [1, 4]), (2 * s1, [1, 4, 2])] := by
    rw [← h2, ← h1]; rfl
  refine ⟨h1', h3, ?_⟩
  intro hC
  have := hC [a, d, b, c] ⟨by decide, fun k => by
    by_cases hk1 : k = 1 * s1
    · subst hk1; decide
    · by_cases hk2 : k = 2 * s1
      · subst hk2; decide
      · rw [List.filter_eq_nil_iff.mpr, List.filter_eq_nil_iff.mpr]
        · intro m hm hc
          simp only [List.mem_cons, List.not_mem_nil, or_false] at hm
          rcases hm with rfl | rfl | rfl | rfl <;> simp [a, b, c, d] at hc <;> omega
        · intro m hm hc
          simp only [List.mem_cons, List.not_mem_nil, or_false] at hm
          rcases hm with rfl | rfl | rfl | rfl <;> simp [a, b, c, d] at hc <;> omega⟩
  rw [h1', h3] at this
  exact absurd this (by decide)

def y : Meas Unit := ⟨6, 10 * s1, .propagation, ()⟩

/-- C101 fails beyond the horizon: with a horizon of 1 s, 2 at 2 s is no longer stored when 6 at 10 s is in; the late 1 at 1 s
then leaves 2 out, although its belief was kept until then. -/
theorem c101_horizon_fails (fp : FP) :
    skfBeliefs fp listUser 1 0 [] [b, y] = [(0, []), (2 * s1, [2]), (10 * s1, [2, 6])] ∧
    skfBeliefs fp listUser 1 0 [] [b, y, a] = [(0, []), (1 * s1, [1]), (10 * s1, [1, 6])] ∧
    (skfRun listUser [(0, [])] [a, b, y]).1 = [(0, []), (1 * s1, [1]), (2 * s1, [1, 2]), (10 * s1, [1, 2, 6])] ∧
    ¬ InTimeOrder fp listUser 1 0 [] [b, y, a] := by
  have hA : |(1:ℚ)| = 1 := by norm_num
  have hin : InHorizon 1 [b, y] := by
    intro pre m post h x hx
    have hl : pre.length < 2 := by
      have := congrArg List.length h; simp at this; omega
    have hp : pre = [b, y].take pre.length := by rw [h]; simp
    have hm : [b, y][pre.length]? = some m := by rw [h]; simp
    generalize pre.length = n at *
    subst hp
    interval_cases n
    · simp at hx
    · simp at hm hx
      subst hm hx
      rw [hA]; norm_num [b, y, s1]
  have hnc : NoClash [b, y] := by
    intro pre m post h hall
    have hl : pre.length < 2 := by
      have := congrArg List.length h; simp at this; omega
    have hp : pre = [b, y].take pre.length := by rw [h]; simp
    have hm : [b, y][pre.length]? = some m := by rw [h]; simp
    generalize pre.length = n at *
    subst hp
    interval_cases n
    all_goals (simp at hm; subst hm; decide)
  have hI := delay_run listUser_causal fp 1 (by rw [hA]; norm_num) (by rw [hA]; norm_num) 0 [] (List.pairwise_singleton _ _)
    [b, y] (by decide) (by decide) hin hnc
  set s := [b, y].foldl (fun s m => (SKF.process fp listUser s m).1) (SKF.doInit (SKF.new 1 true) [] 0) with hs
  have hbel : s.bel = [(0, []), (2 * s1, [2]), (10 * s1, [2, 6])] := by
    rw [hI.bel]; decide
  have hmeas : s.meas = [(10 * s1, y)] := by
    have h1 := hI.meas
    have hks : ∀ e ∈ [b, y].map (fun m => (m.t, m)), 0 ≤ e.1 ∧ e.1 ≤ 8589934590000000000 := by decide
    obtain ⟨l, hl1, hl2, hl3, hl4, hl5⟩ := c15_stream fp |1| (by rw [hA]; norm_num) (by rw [hA]; norm_num)
      ([b, y].map (fun m => (m.t, m))) (by simp) hks
    rw [← h1] at hl3 hl4 hl5
    have hl : 10 * s1 ≤ l.1 := hl2 (10 * s1, y) (by simp [y])
    have hnob : ∀ e ∈ s.meas, e = (10 * s1, y) := by
      intro e he
      have h2 := (hl5 e he).1
      simp only [List.map_cons, List.map_nil, List.mem_cons, List.not_mem_nil, or_false] at h2
      rcases h2 with h2 | h2
      · exfalso
        have h3 := (hl5 e he).2
        rw [h2, hA] at h3
        have h4 : (8000000000 : ℤ) ≤ l.1 - b.t := by
          have : b.t = 2 * s1 := rfl
          unfold s1 at *; omega
        have h5 : (8000000000 : ℚ) ≤ ((l.1 - b.t : ℤ) : ℚ) := by exact_mod_cast h4
        have h6 : ((l.1 - b.t : ℤ) : ℚ) / 1000000000 ≤ 1 + 1/100000 := h3
        rw [div_le_iff₀ (by norm_num)] at h6
        norm_num at h6
        linarith
      · exact h2
    have hg := (insertTrim_groups fp |1| (by rw [hA]; norm_num) (by rw [hA]; norm_num) _ hks (10 * s1)).2 (by
      intro e he
      have h1 : e.1 ≤ 10 * s1 := by
        revert e; decide
      have h2 : ((e.1 - 10 * s1 : ℤ) : ℚ) ≤ 0 := by exact_mod_cast (by omega)
      rw [hA]
      have h3 : ((e.1 - 10 * s1 : ℤ) : ℚ) / 1000000000 ≤ 0 := div_nonpos_of_nonpos_of_nonneg h2 (by norm_num)
      linarith)
    rw [← h1] at hg
    have h2 : s.meas.filter (fun e => e.1 == 10 * s1) = s.meas := by
      rw [List.filter_eq_self]; intro e he; rw [hnob e he]; simp
    rw [← h2, hg]; decide
  have hproc : skfBeliefs fp listUser 1 0 [] [b, y, a] = (SKF.process fp listUser s a).1.bel := rfl
  obtain ⟨p1, _⟩ := skf_process_bel fp listUser s hI.delayed a
  have hd : SKF.delegate listUser s.bel a = ([(0, []), (1 * s1, [1]), (2 * s1, [2]), (10 * s1, [2, 6])], .outOfOrder) := by
    rw [hbel]; decide
  have hea : s.meas.existAfter a.t = true := by rw [hmeas]; decide
  rw [hd, if_pos ⟨rfl, hea⟩] at p1
  have hredo : (SKF.redoAfter listUser { s with bel := [(0, []), (1 * s1, [1]), (2 * s1, [2]), (10 * s1, [2, 6])] } a.t).1.bel =
      [(0, []), (1 * s1, [1]), (10 * s1, [1, 6])] := by
    have h1 : (SKF.redoAfter listUser { s with bel := [(0, []), (1 * s1, [1]), (2 * s1, [2]), (10 * s1, [2, 6])] } a.t).1.bel =
      (SKF.redoAfter listUser ⟨[(0, []), (1 * s1, [1]), (2 * s1, [2]), (10 * s1, [2, 6])], [(10 * s1, y)], 1, 1, true⟩ a.t).1.bel := by
      unfold SKF.redoAfter
      rw [hmeas]
      rfl
    rw [h1]; decide
  have h3 : (skfRun listUser [(0, [])] [a, b, y]).1 = [(0, []), (1 * s1, [1]), (2 * s1, [1, 2]), (10 * s1, [1, 2, 6])] := by decide
  have h2 : skfBeliefs fp listUser 1 0 [] [b, y, a] = [(0, []), (1 * s1, [1]), (10 * s1, [1, 6])] := by
    rw [hproc, p1, hredo]
  refine ⟨hbel, h2, h3, ?_⟩
  intro hC
  have := hC [a, b, y] ⟨by decide, fun k => by
    by_cases hk1 : k = 1 * s1
    · subst hk1; decide
    · by_cases hk2 : k = 2 * s1
      · subst hk2; decide
      · by_cases hk3 : k = 10 * s1
        · subst hk3; decide
        · rw [List.filter_eq_nil_iff.mpr, List.filter_eq_nil_iff.mpr]
          · intro m hm hc
            simp only [List.mem_cons, List.not_mem_nil, or_false] at hm
            rcases hm with rfl | rfl | rfl <;> simp [a, b, y] at hc <;> omega
          · intro m hm hc
            simp only [List.mem_cons, List.not_mem_nil, or_false] at hm
            rcases hm with rfl | rfl | rfl <;> simp [a, b, y] at hc <;> omega⟩
  rw [h2, h3] at this
  exact absurd this (by decide)

end DelayExample

/-! ## C103 -/

/-- C103 fails: whatever the horizon, after any chronological stream the filter still holds its initial belief and a belief at
the time of every measurement ever processed. -/
theorem c103_beliefs_bounded_fails {U : KFUser B P} {G : Buf B → Prop} {M : Meas P → Prop} (C : Causal U G M) (fp : FP)
    (horizon : ℚ) (hm0 : 1/100000 ≤ |horizon|) (hm1 : |horizon| ≤ 8589934592) (t0 : Int) (b : B) (hG : G [(t0, b)])
    (ms : List (Meas P)) (hM : ∀ m ∈ ms, M m ∧ t0 < m.t) (hk : ∀ m ∈ ms, 0 ≤ m.t ∧ m.t ≤ 8589934590000000000)
    (hs : ms.Pairwise (fun a b => a.t ≤ b.t)) :
    (∃ e ∈ skfBeliefs fp U horizon t0 b ms, e.1 ≤ t0) ∧ (∀ m ∈ ms, ∃ e ∈ skfBeliefs fp U horizon t0 b ms, e.1 = m.t) ∧
    ∀ m ∈ ms, |horizon| + 1/100000 < ((m.t - t0 : ℤ) : ℚ) / 1000000000 →
      ¬ ∀ e ∈ skfBeliefs fp U horizon t0 b ms, ∀ e' ∈ skfBeliefs fp U horizon t0 b ms,
        ((e'.1 - e.1 : ℤ) : ℚ) / 1000000000 ≤ |horizon| + 1/100000 := by
  have hle : ∀ pre m post, ms = pre ++ m :: post → ∀ x ∈ pre, x.t ≤ m.t := by
    intro pre m post h x hx
    rw [h, List.pairwise_append] at hs
    exact hs.2.2 x hx m (by simp)
  have hh : InHorizon horizon ms := by
    intro pre m post h x hx
    have h1 : ((x.t - m.t : ℤ) : ℚ) ≤ 0 := by exact_mod_cast (by have := hle pre m post h x hx; omega)
    have h2 : ((x.t - m.t : ℤ) : ℚ) / 1000000000 ≤ 0 := div_nonpos_of_nonpos_of_nonneg h1 (by norm_num)
    linarith
  have hc : NoClash ms := by
    intro pre m post h _
    rw [List.filter_eq_nil_iff.mpr]
    · simp
    · intro x hx; have := hle pre m post h x hx; simp; omega
  have hT := c101_chronological_partial C fp horizon hm0 hm1 t0 b hG ms hM hk hh hc ms ⟨hs, fun _ => rfl⟩
  obtain ⟨_, r2, _, r4⟩ := run_facts C hG (t0 := t0) (by simp) ⟨(t0, b), by simp, le_refl _⟩ ms hs hM
  rw [hT]
  refine ⟨r2, r4, ?_⟩
  intro m hm hlt hall
  obtain ⟨e, he, h1⟩ := r2
  obtain ⟨e', he', h2⟩ := r4 m hm
  have h3 := hall e he e' he'
  have h4 : ((m.t - t0 : ℤ) : ℚ) ≤ ((e'.1 - e.1 : ℤ) : ℚ) := by exact_mod_cast (by omega)
  have h5 : ((m.t - t0 : ℤ) : ℚ) / 1000000000 ≤ ((e'.1 - e.1 : ℤ) : ℚ) / 1000000000 := by
    apply div_le_div_of_nonneg_right h4; norm_num
  linarith

/-- C103, as far as it holds: an explicit `check_horizon` keeps the newest belief and everything within the horizon, and
drops what is older. -/
theorem c103_check_horizon_partial (fp : FP) (s : KFState B P) (horizon : ℚ) (hm0 : 1/100000 ≤ |horizon|)
    (hm1 : |horizon| ≤ 8589934592) (hb : s.bel.Pairwise (fun x y => x.1 < y.1))
    (hk : ∀ e ∈ s.bel, 0 ≤ e.1 ∧ e.1 ≤ 8589934590000000000) (l : Int × B) (hl : s.bel.getLast? = some l) :
    let s' := SKF.checkHorizon fp (SKF.setHorizon s horizon)
    s'.bel.getLast? = some l ∧ s'.bel <:+ s.bel ∧
    (∀ e ∈ s'.bel, ((l.1 - e.1 : ℤ) : ℚ) / 1000000000 ≤ |horizon| + 1/100000) ∧
    (∀ e ∈ s.bel, ((l.1 - e.1 : ℤ) : ℚ) / 1000000000 ≤ |horizon| - 1/100000 → e ∈ s'.bel) := by
  intro s'
  have h1 := c15_newest_kept fp |horizon| s.bel
  have h2 := c15_span fp |horizon| s.bel (Buf.StrictKeys.sorted hb) hm0 hm1 hk l hl
  exact ⟨by rw [← hl]; exact h1.1, h1.2.1, h2.1, h2.2⟩

/-- C103, the other half: `check_horizon` also trims the measurements. -/
theorem c103_check_horizon_meas (fp : FP) (s : KFState B P) (horizon : ℚ) (hm0 : 1/100000 ≤ |horizon|)
    (hm1 : |horizon| ≤ 8589934592) (hb : s.meas.Pairwise (fun x y => x.1 ≤ y.1))
    (hk : ∀ e ∈ s.meas, 0 ≤ e.1 ∧ e.1 ≤ 8589934590000000000) (l : Int × Meas P) (hl : s.meas.getLast? = some l) :
    let s' := SKF.checkHorizon fp (SKF.setHorizon s horizon)
    s'.meas.getLast? = some l ∧ s'.meas <:+ s.meas ∧
    (∀ e ∈ s'.meas, ((l.1 - e.1 : ℤ) : ℚ) / 1000000000 ≤ |horizon| + 1/100000) ∧
    (∀ e ∈ s.meas, ((l.1 - e.1 : ℤ) : ℚ) / 1000000000 ≤ |horizon| - 1/100000 → e ∈ s'.meas) := by
  intro s'
  have h1 := c15_newest_kept fp |horizon| s.meas
  have h2 := c15_span fp |horizon| s.meas hb hm0 hm1 hk l hl
  exact ⟨by rw [← hl]; exact h1.1, h1.2.1, h2.1, h2.2⟩

/-- A stream that grows beyond its horizon. -/
example : ∃ ms : List (Meas Unit), ms.Pairwise (fun a b => a.t ≤ b.t) ∧ (∀ m ∈ ms, m.kind = .propagation ∧ 0 < m.t) ∧
    ∃ m ∈ ms, |(1:ℚ)| + 1/100000 < ((m.t - 0 : ℤ) : ℚ) / 1000000000 :=
  ⟨[DelayExample.b, DelayExample.y], by decide, by decide, DelayExample.y, by simp, by norm_num [DelayExample.y, DelayExample.s1]⟩

end Ikf
