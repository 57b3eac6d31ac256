import Verif.Lemmas.HandlerRun

/-! # Properties C34, C35, C37–C40: the handler of delayed measurements -/

namespace Ikf
open Handler
variable {W P : Type _}

/-! ## C34 -/

/-- C34. Unknown ID: exactly one DISCARED, no effect. -/
theorem c34_unknown_id (fp : FP) (S : Insts W P) (h : HState W P) (m : Meas P)
    (hk : S.known h.w m.id = false) : process fp S h m = (h, [.discarded]) := by
  unfold process; rw [if_pos (by simp [hk])]

/-- C34. A measurement that is not newer than the oldest stored one: exactly one DISCARED, no effect
(not even on open redo requests), whatever the rounding of times in seconds. -/
theorem c34_too_old (fp : FP) (S : Insts W P) (h : HState W P) (m : Meas P)
    (o : Int × Meas P) (ho : h.meas.head? = some o) (hm : m.t ≤ o.1) (h0 : 0 ≤ m.t)
    (hr : ∀ e ∈ h.meas, e.1 ≤ 9223372036854775807) :
    process fp S h m = (h, [.discarded]) := by
  by_cases hk : S.known h.w m.id = true
  · unfold process
    rw [if_neg (by simp [hk])]
    by_cases hto : tooOld fp h m = true
    · rw [if_pos hto]
    · exfalso
      have := accept_lt fp h.meas h.w h.hMeas h.hOoo h.hRedo h.ooo h.redo m h0 hr (by simpa using hto) o ho
      omega
  · exact c34_unknown_id fp S h m (by simpa using hk)

/-- C34. In particular a measurement with the stamp of the only stored stamp is discarded. -/
theorem c34_same_stamp (fp : FP) (S : Insts W P) (h : HState W P) (m : Meas P) (hne : h.meas ≠ [])
    (hall : ∀ e ∈ h.meas, e.1 = m.t) (h0 : 0 ≤ m.t) (h1 : m.t ≤ 9223372036854775807) :
    process fp S h m = (h, [.discarded]) := by
  obtain ⟨o, _, ho, _⟩ := head_last_of_ne h.meas hne
  exact c34_too_old fp S h m o ho (by rw [hall o (List.mem_of_head? ho)]) h0
    (fun e he => by rw [hall e he]; exact h1)

/-- C34, converse. A measurement of a known instance at least 13 µs newer than the oldest stored one
passes the delay test. -/
theorem c34_accepted (fp : FP) (h : HState W P) (m : Meas P) (hs : h.meas.SortedKeys)
    (hr : ∀ e ∈ h.meas, 0 ≤ e.1 ∧ e.1 ≤ 8589934590000000000) (hm : m.t ≤ 8589934590000000000)
    (hnew : ∀ o, h.meas.head? = some o → o.1 + 13000 ≤ m.t) : tooOld fp h m = false := by
  by_cases hne : h.meas = []
  · unfold tooOld; rw [hne]; rfl
  obtain ⟨o, l, ho, hl⟩ := head_last_of_ne h.meas hne
  have hno := hnew o ho
  have hom := hr o (List.mem_of_head? ho)
  have hlm := hr l (List.mem_of_getLast? hl)
  have hlat : h.meas.latest = some l := hl
  unfold tooOld
  rw [hlat]
  simp only [decide_eq_false_iff_not, not_le]
  rw [horizon_eq fp h.meas o l ho hl]
  have e1 := fp.secOfKey_err o.1 hom.1 (by omega)
  have e2 := fp.secOfKey_err l.1 hlm.1 (by omega)
  have e3 := fp.secOfKey_err m.t (by omega) (by omega)
  unfold FP.secOfKey
  set so := fp.toSec (Timestamp.ofStampNs o.1)
  set sl := fp.toSec (Timestamp.ofStampNs l.1)
  set sm := fp.toSec (Timestamp.ofStampNs m.t)
  rw [abs_le] at e1 e2 e3
  have q0 : (0:ℚ) ≤ o.1 := by exact_mod_cast hom.1
  have q1 : (o.1:ℚ) ≤ 8589934590000000000 := by exact_mod_cast hom.2
  have q2 : (0:ℚ) ≤ l.1 := by exact_mod_cast hlm.1
  have q3 : (l.1:ℚ) ≤ 8589934590000000000 := by exact_mod_cast hlm.2
  have q4 : (o.1:ℚ) + 13000 ≤ m.t := by exact_mod_cast hno
  have q5 : (m.t:ℚ) ≤ 8589934590000000000 := by exact_mod_cast hm
  have r1 := fp.rnd_err (sl - so) 8589934591 (by rw [abs_le]; constructor <;> linarith)
  have r2 := fp.rnd_err (sl - sm) 8589934591 (by rw [abs_le]; constructor <;> linarith)
  rw [abs_le] at r1 r2
  norm_num at r1 r2 ⊢
  linarith [r1.1, r2.2]

/-! ## C35 -/

/-- What may happen to a handler: a measurement arrives, or somebody schedules a redo. -/
inductive HOp (P : Type _) where
  | meas (m : Meas P)
  | request (t : Int) (after : Bool)

/-- One event. -/
def hStep (fp : FP) (S : Insts W P) (h : HState W P) : HOp P → HState W P
  | .meas m => (process fp S h m).1
  | .request t after => schedule fp h t after

/-- The measurements of a list of events, in arrival order. -/
def arrivals (ops : List (HOp P)) : List (Meas P) :=
  ops.filterMap (fun o => match o with | .meas m => some m | .request _ _ => none)

/-- `Kept fp S h ops A`: `A` are the arrivals of `ops` without some that were answered by exactly
one DISCARED and left the stored measurements alone. -/
inductive Kept (fp : FP) (S : Insts W P) : HState W P → List (HOp P) → List (Meas P) → Prop
  | nil (h) : Kept fp S h [] []
  | request (h t a ops A) : Kept fp S (schedule fp h t a) ops A → Kept fp S h (.request t a :: ops) A
  | keep (h m ops A) : Kept fp S (process fp S h m).1 ops A → Kept fp S h (.meas m :: ops) (m :: A)
  | drop (h m ops A) : (process fp S h m).2 = [.discarded] → (process fp S h m).1.meas = h.meas →
      Kept fp S (process fp S h m).1 ops A → Kept fp S h (.meas m :: ops) A

theorem Kept.sublist {fp : FP} {S : Insts W P} {h : HState W P} {ops A} (hk : Kept fp S h ops A) :
    A.Sublist (arrivals ops) := by
  induction hk with
  | nil h => simp [arrivals]
  | request h t a ops A _ ih => simpa [arrivals] using ih
  | keep h m ops A _ ih => simpa [arrivals] using ih
  | drop h m ops A _ _ _ ih =>
    have : arrivals (HOp.meas m :: ops) = m :: arrivals ops := rfl
    rw [this]; exact ih.trans (List.sublist_cons_self _ _)

/-- Stamps and types the theorems below are about. -/
def MeasOk (m : Meas P) : Prop := m.kind ≠ .unknown ∧ 0 ≤ m.t ∧ m.t ≤ 9223372036854775807

theorem inv_process (fp : FP) (S : Insts W P) (h : HState W P) (hmax : 0 ≤ h.hMeas) (m : Meas P)
    (hm : MeasOk m) (A : List (Meas P)) (D : Buf (Meas P)) (hI : MInv fp h.hMeas A D h.meas) :
    ((process fp S h m).2 = [.discarded] ∧ (process fp S h m).1.meas = h.meas) ∨
    (∃ X, MInv fp h.hMeas (A ++ [m]) (D ++ X) (process fp S h m).1.meas) := by
  obtain ⟨_, hc⟩ := process_meas fp S h m
  rcases hc with hc | ⟨ho, _, hc⟩
  · exact Or.inl ⟨hc.2, hc.1⟩
  · right
    have hold : ∀ o, h.meas.head? = some o → o.1 < m.t := by
      intro o hoo
      exact accept_lt fp h.meas h.w h.hMeas h.hOoo h.hRedo h.ooo h.redo m hm.2.1
        (fun e he => (hI.range e (by simp [he])).2) ho o hoo
    have kb : Keyed h.meas := fun e he => hI.keyed e (by simp [he])
    have nb : Known h.meas := fun e he => hI.known e (by simp [he])
    have pb : POrd h.meas := List.Pairwise.sublist (List.sublist_append_right D h.meas) hI.pord
    rcases hc with ⟨ts, hts, hc⟩ | ⟨hv, hc⟩
    · obtain ⟨X, _, _, hI'⟩ := hI.step hmax m hm.1 hm.2.1 hm.2.2 hold ts hts
      exact ⟨X, by rw [hc]; exact hI'⟩
    · obtain ⟨X, h1, _, hI'⟩ := hI.step hmax m hm.1 hm.2.1 hm.2.2 hold m.t le_rfl
      obtain ⟨e1, p1⟩ := pord_insert_of_not_violated h.meas pb kb nb m hm.1 hv
      refine ⟨X, ?_⟩
      rw [hc]
      rw [sortFrom_of_pord] at hI'
      · exact hI'
      · have : (Buf.checkHorizon fp h.hMeas (Buf.insertMulti h.meas m.t m)).Sublist
            (Buf.insertMulti h.meas m.t m) := by
          conv_rhs => rw [h1]
          exact List.sublist_append_right _ _
        rw [e1] at this ⊢
        exact List.Pairwise.sublist this p1
      · intro e he
        apply keyed_insertMulti h.meas kb m e
        rw [h1]; simp [he]
      · intro e he
        apply known_insertMulti h.meas nb m hm.1 e
        rw [h1]; simp [he]

theorem inv_run (fp : FP) (S : Insts W P) (ops : List (HOp P)) (h : HState W P) (hmax : 0 ≤ h.hMeas)
    (hops : ∀ m ∈ arrivals ops, MeasOk m) (A : List (Meas P)) (D : Buf (Meas P))
    (hI : MInv fp h.hMeas A D h.meas) :
    ∃ A' X, Kept fp S h ops A' ∧
      MInv fp h.hMeas (A ++ A') (D ++ X) (ops.foldl (hStep fp S) h).meas := by
  induction ops generalizing h A D with
  | nil => exact ⟨[], [], Kept.nil h, by simpa using hI⟩
  | cons op ops ih =>
    cases op with
    | request t a =>
      obtain ⟨A', X, k, i⟩ := ih (schedule fp h t a) hmax (by simpa [arrivals] using hops) A D hI
      exact ⟨A', X, Kept.request h t a ops A' k, i⟩
    | meas m =>
      have hmok : MeasOk m := hops m (by simp [arrivals])
      have hrest : ∀ m ∈ arrivals ops, MeasOk m := fun x hx => hops x (by
        have : arrivals (HOp.meas m :: ops) = m :: arrivals ops := rfl
        rw [this]; simp [hx])
      have hh := (process_meas fp S h m).1
      rcases inv_process fp S h hmax m hmok A D hI with ⟨hd, hu⟩ | ⟨X1, hI1⟩
      · obtain ⟨A', X, k, i⟩ := ih (process fp S h m).1 (by rw [hh]; exact hmax) hrest A D
          (by rw [hh, hu]; exact hI)
        rw [hh] at i
        exact ⟨A', X, Kept.drop h m ops A' hd hu k, i⟩
      · obtain ⟨A', X, k, i⟩ := ih (process fp S h m).1 (by rw [hh]; exact hmax) hrest (A ++ [m]) (D ++ X1)
          (by rw [hh]; exact hI1)
        rw [hh] at i
        refine ⟨m :: A', X1 ++ X, Kept.keep h m ops A' k, ?_⟩
        simp only [List.append_assoc, List.singleton_append] at i
        exact i

/-- The elements of one time and type, in order. -/
def ofClass (L : List (Meas P)) (t : Int) (K : ObsType) : List (Meas P) :=
  L.filter (fun m => m.t == t && m.kind == K)

/-- `L` is `A` arranged by time, then propagation before private before joint, then order in `A`. -/
def Chronological (A L : List (Meas P)) : Prop :=
  L.Perm A ∧ L.Pairwise Meas.before ∧ ∀ t K, ofClass L t K = ofClass A t K

theorem ofClass_map_snd (b : Buf (Meas P)) (hk : Keyed b) (t : Int) (K : ObsType) :
    ofClass (b.map (·.2)) t K = (cls b t K).map (·.2) := by
  unfold ofClass cls
  rw [List.filter_map]
  congr 1
  apply List.filter_congr
  intro e he
  simp [hk e he]

theorem cls_asStored (A : List (Meas P)) (t : Int) (K : ObsType) :
    (cls (asStored A) t K).map (·.2) = ofClass A t K := by
  rw [← ofClass_map_snd]
  · unfold asStored; simp [Function.comp_def]
  · intro e he
    unfold asStored at he
    rw [List.mem_map] at he
    obtain ⟨m, _, rfl⟩ := he; rfl

theorem perm_of_classes (A L : List (Meas P)) (h : ∀ t K, ofClass L t K = ofClass A t K) : L.Perm A := by
  classical
  rw [List.perm_iff_count]
  intro m
  have hc : ∀ c : List (Meas P), c.count m = (ofClass c m.t m.kind).count m := by
    intro c; unfold ofClass; rw [List.count_filter (by simp)]
  rw [hc, hc A, h]

theorem MInv.chronological {fp : FP} {max : ℚ} {A : List (Meas P)} {D b : Buf (Meas P)}
    (hI : MInv fp max A D b) : Chronological A ((D ++ b).map (·.2)) := by
  have hc : ∀ t K, ofClass ((D ++ b).map (·.2)) t K = ofClass A t K := by
    intro t K
    rw [ofClass_map_snd _ hI.keyed, hI.cls, cls_asStored]
  refine ⟨perm_of_classes _ _ hc, ?_, hc⟩
  rw [List.pairwise_map]; exact hI.pord

/-- C35. Whatever the filters do and answer: after any events, the stored measurements are the newest
part (everything dropped is older than everything stored) of the accepted arrivals in chronological
order. Only arrivals answered by DISCARED are not accepted. -/
theorem c35_history_ordered (fp : FP) (S : Insts W P) (w0 : W) (horizon : ℚ) (ops : List (HOp P))
    (hops : ∀ m ∈ arrivals ops, MeasOk m) :
    ∃ A D, Kept fp S (Handler.init w0 horizon) ops A ∧
      Chronological A (D ++ (ops.foldl (hStep fp S) (Handler.init w0 horizon)).meas.map (·.2)) ∧
      (∀ d ∈ D, ∀ e ∈ (ops.foldl (hStep fp S) (Handler.init w0 horizon)).meas, d.t < e.2.t) ∧
      (∀ e ∈ (ops.foldl (hStep fp S) (Handler.init w0 horizon)).meas, e.1 = e.2.t) ∧
      (A ≠ [] → (ops.foldl (hStep fp S) (Handler.init w0 horizon)).meas ≠ []) := by
  obtain ⟨A, D, k, i⟩ := inv_run fp S ops (Handler.init w0 horizon) (abs_nonneg _) hops [] []
    (MInv.nil fp _)
  simp only [List.nil_append] at i
  refine ⟨A, D.map (·.2), k, ?_, ?_, ?_, ?_⟩
  · have := i.chronological
    rwa [List.map_append] at this
  · intro d hd e he
    obtain ⟨x, hx, rfl⟩ := List.mem_map.mp hd
    have := i.below x hx e he
    rw [i.keyed x (by simp [hx]), i.keyed e (by simp [he])] at this
    exact this
  · intro e he; exact i.keyed e (by simp [he])
  · intro hA hb
    have hD := i.empty hb
    have hp := i.chronological.1
    rw [hb, hD] at hp
    exact hA (List.nil_perm.mp hp)

/-- C35, read off: sorted by time and priority, arrival order among equals. -/
theorem c35_sorted (fp : FP) (S : Insts W P) (w0 : W) (horizon : ℚ) (ops : List (HOp P))
    (hops : ∀ m ∈ arrivals ops, MeasOk m) :
    let st := (ops.foldl (hStep fp S) (Handler.init w0 horizon)).meas.map (·.2)
    st.Pairwise Meas.before ∧ ∀ t K, (ofClass st t K).Sublist (ofClass (arrivals ops) t K) := by
  obtain ⟨A, D, k, ⟨_, hp, hc⟩, _⟩ := c35_history_ordered fp S w0 horizon ops hops
  refine ⟨(List.pairwise_append.mp hp).2.1, ?_⟩
  intro t K
  have h1 : (ofClass A t K).Sublist (ofClass (arrivals ops) t K) := k.sublist.filter _
  rw [← hc t K] at h1
  refine List.Sublist.trans ?_ h1
  unfold ofClass
  rw [List.filter_append]
  exact List.sublist_append_right _ _

/-! ## C37 -/

/-- C37. The order-violation test is exact. -/
theorem c37_order_violated_iff (b : Buf (Meas P)) (hs : b.SortedKeys) (hk : ∀ e ∈ b, e.1 = e.2.t)
    (hn : ∀ e ∈ b, e.2.kind ≠ .unknown) (m : Meas P) (hm : m.kind ≠ .unknown) :
    isOrderViolated b m = true ↔
      ∃ e ∈ b, m.t < e.2.t ∨ (e.2.t = m.t ∧ m.kind.prio < e.2.kind.prio) :=
  violated_iff b hs hk hn m hm

/-- C37. The same, in terms of where the measurement belongs: no violation iff appending it keeps the
time and priority order. -/
theorem c37_no_violation_iff_append (b : Buf (Meas P)) (hs : b.SortedKeys) (hk : ∀ e ∈ b, e.1 = e.2.t)
    (hn : ∀ e ∈ b, e.2.kind ≠ .unknown) (m : Meas P) (hm : m.kind ≠ .unknown) :
    isOrderViolated b m = false ↔ ∀ e ∈ b, e.2.before m := by
  rw [Bool.eq_false_iff, Ne, c37_order_violated_iff b hs hk hn m hm]
  push Not
  apply forall_congr'; intro e
  apply forall_congr'; intro _
  unfold Meas.before
  constructor
  · rintro ⟨h1, h2⟩
    rcases lt_or_eq_of_le h1 with h | h
    · exact Or.inl h
    · exact Or.inr ⟨h, h2 h⟩
  · rintro (h | ⟨h1, h2⟩)
    · exact ⟨by omega, fun hc => by omega⟩
    · exact ⟨by omega, fun _ => h2⟩

/-! ## C40 -/

/-- C40. Re-sorting permutes the stored measurements, is stable per time and type, orders everything
from `t` on and leaves what is before `t` untouched. -/
theorem c40_sort_permutes (b : Buf (Meas P)) (hs : b.SortedKeys) (hk : ∀ e ∈ b, e.1 = e.2.t)
    (hn : ∀ e ∈ b, e.2.kind ≠ .unknown) (t : Int) :
    (sortFrom b t).Perm b ∧
    (∀ k K, ofClass ((sortFrom b t).map (·.2)) k K = ofClass (b.map (·.2)) k K) ∧
    (sortFrom b t).filter (fun e => decide (e.1 < t)) = b.filter (fun e => decide (e.1 < t)) ∧
    ((sortFrom b t).filter (fun e => decide (t ≤ e.1))).Pairwise (fun x y => x.2.before y.2) := by
  obtain ⟨h1, h2, h3, h4, h5⟩ := sortFrom_spec b hs hk hn t
  have hcls := fun k K hK => cls_sortFrom b hs hk hn t k K hK
  have hclsu : ∀ c : Buf (Meas P), Known c → ∀ k, cls c k .unknown = [] := by
    intro c hc k
    unfold cls; rw [List.filter_eq_nil_iff]
    intro e he; have := hc e he; simp [this]
  refine ⟨perm_of_cls _ _ h3 hn hcls, ?_, ?_, ?_⟩
  · intro k K
    rw [ofClass_map_snd _ h2, ofClass_map_snd _ hk]
    by_cases hK : K = .unknown
    · subst hK; rw [hclsu _ h3, hclsu _ hn]
    · rw [hcls k K hK]
  · apply sorted_ext _ _ (h1.filter _) (hs.filter _)
    intro k
    rw [filter_filter_key _ (fun x => decide (x < t)), filter_filter_key b (fun x => decide (x < t))]
    by_cases hkt : k < t
    · simp only [hkt, decide_true, if_true]; exact h4 k hkt
    · simp [hkt]
  · apply pord_of_groups _ (h1.filter _) (h2.filter _)
    intro k
    rw [filter_filter_key _ (fun x => decide (t ≤ x))]
    by_cases hkt : t ≤ k
    · simp only [hkt, decide_true, if_true]
      have hp := pord_sortFrom (b.filter (fun e => decide (t ≤ e.1))) (hs.filter _) (Keyed.filter hk _)
        (Known.filter hn _) t (by
          have : (b.filter (fun e => decide (t ≤ e.1))).filter (fun e => decide (e.1 < t)) = [] := by
            rw [List.filter_eq_nil_iff]
            intro e he; have := (List.mem_filter.mp he).2; simp at this ⊢; omega
          rw [this]; exact List.Pairwise.nil)
      rw [h5 k hkt]
      have hg := groups_of_pord _ (sortFrom_spec _ (hs.filter _) (Keyed.filter hk _) (Known.filter hn _) t).2.1 hp k
      rw [(sortFrom_spec _ (hs.filter _) (Keyed.filter hk _) (Known.filter hn _) t).2.2.2.2 k hkt] at hg
      simp only [cls_filter_key b (fun x => decide (t ≤ x)), hkt, decide_true, if_true] at hg
      exact hg
    · simp [hkt]

/-- C40 fails for UNKNOWN observation types: stored at or after `t`, they are lost by re-sorting. -/
theorem c40_sort_fails (b : Buf (Meas P)) (hs : b.SortedKeys) (t : Int)
    (e : Int × Meas P) (he : e ∈ b) (ht : t ≤ e.1) (hu : e.2.kind = .unknown) : e ∉ sortFrom b t := by
  have hre : ∀ K src dst, K ≠ .unknown → e ∈ Handler.reinsert (P := P) K src dst → e ∈ dst := by
    intro K src dst hK hm
    unfold Handler.reinsert at hm
    induction src generalizing dst with
    | nil => exact hm
    | cons x r ih =>
      simp only [List.foldl_cons] at hm
      have := ih _ hm
      split at this
      · rename_i hx
        rw [Buf.mem_insertMulti] at this
        rcases this with rfl | h
        · exact absurd (hx.symm.trans hu) hK
        · exact h
      · exact this
  intro hm
  unfold sortFrom at hm
  have hne : b ≠ [] := List.ne_nil_of_mem he
  obtain ⟨_, l, _, hl⟩ := head_last_of_ne b hne
  have hlat : b.latest = some l := hl
  have htl : t ≤ l.1 := le_trans ht (hs.le_getLast hl e he)
  rw [hlat] at hm
  simp only at hm
  rw [if_neg] at hm
  · have h3 := hre _ _ _ (by simp) (hre _ _ _ (by simp) (hre _ _ _ (by simp) hm))
    rw [(c10_remove_exact b hs t).1] at h3
    unfold Buf.removeAt at h3
    rw [List.mem_filter, List.mem_filter] at h3
    simp at h3; omega
  · rw [(c08_multi b hs t l.1 htl).1]
    simp only [List.isEmpty_iff]
    exact List.ne_nil_of_mem (List.mem_filter.mpr ⟨he, by
      simp only [decide_eq_true_eq]; exact ⟨ht, hs.le_getLast hl e he⟩⟩)

/-! ## C38 -/

/-- Delegate the measurements of a list one after the other; final state and results in order. -/
def delegateAll (S : Insts W P) (w : W) : List (Meas P) → W × List Status
  | [] => (w, [])
  | m :: L =>
    let r := delegate S w m
    let q := delegateAll S r.1 L
    (q.1, r.2 :: q.2)

/-- Outcome of a redo over the stored measurements `ms`, starting from the instances `w`:
all of `A` and only the propagations of `B` are delegated, once, in order; nothing in `A` but its last
one is out-of-order and `B` is what follows the first out-of-order; `flags` are the times of skipped
and of out-of-order measurements. -/
def RedoOutcome (S : Insts W P) (w : W) (ms : List (Meas P)) (w' : W) (flags : Buf Bool)
    (res : List Status) : Prop :=
  ∃ A B, ms = A ++ B ∧
    (w', res) = delegateAll S w (A ++ B.filter (fun m => m.kind == .propagation)) ∧
    (∀ s ∈ (delegateAll S w A).2.dropLast, s ≠ .outOfOrder) ∧
    (B ≠ [] → (delegateAll S w A).2.getLast? = some .outOfOrder) ∧
    (∀ k, (∃ e ∈ flags, e.1 = k) ↔
      (∃ m ∈ B, m.kind ≠ .propagation ∧ m.t = k) ∨
      (∃ x ∈ (A ++ B.filter (fun m => m.kind == .propagation)).zip res, x.2 = .outOfOrder ∧ x.1.t = k))

theorem delegateAll_append (S : Insts W P) (w : W) (L M : List (Meas P)) :
    delegateAll S w (L ++ M) =
      ((delegateAll S (delegateAll S w L).1 M).1,
        (delegateAll S w L).2 ++ (delegateAll S (delegateAll S w L).1 M).2) := by
  induction L generalizing w with
  | nil => simp [delegateAll]
  | cons m L ih => simp [delegateAll, ih]

theorem delegateAll_length (S : Insts W P) (w : W) (L : List (Meas P)) :
    (delegateAll S w L).2.length = L.length := by
  induction L generalizing w with
  | nil => rfl
  | cons m L ih => simp [delegateAll, ih]

theorem mem_insertMap_key (b : Buf Bool) (k : Int) (v : Bool) (x : Int) :
    (∃ e ∈ b.insertMap k v, e.1 = x) ↔ x = k ∨ ∃ e ∈ b, e.1 = x := by
  induction b with
  | nil => simp [Buf.insertMap, eq_comm]
  | cons e r ih =>
    unfold Buf.insertMap
    split
    · simp [eq_comm]
    · split
      · rename_i h1 h2
        have h2 : k = e.1 := by simpa using h2
        simp only [List.mem_cons, exists_eq_or_imp]
        constructor
        · rintro (h | h)
          · left; exact h.symm
          · right; right; exact h
        · rintro (h | h | h)
          · left; exact h.symm
          · left; rw [h2]; exact h
          · right; exact h
      · simp only [List.mem_cons, exists_eq_or_imp, ih]
        constructor
        · rintro (h | h | h)
          · exact Or.inr (Or.inl h)
          · exact Or.inl h
          · exact Or.inr (Or.inr h)
        · rintro (h | h | h)
          · exact Or.inr (Or.inl h)
          · exact Or.inl h
          · exact Or.inr (Or.inr h)

theorem insertMap_ne_nil (b : Buf Bool) (k : Int) (v : Bool) : b.insertMap k v ≠ [] := by
  intro h
  have := (mem_insertMap_key b k v k).mpr (Or.inl rfl)
  rw [h] at this; simp at this

/-- After the first out-of-order. -/
theorem redo_flagged (S : Insts W P) (B : List (Meas P)) (w : W) (f : Buf Bool) (hf : f ≠ [])
    (rs : List Status) :
    ∃ w' f' res, B.foldl (redoStep S) (w, f, rs) = (w', f', rs ++ res) ∧
      (w', res) = delegateAll S w (B.filter (fun m => m.kind == .propagation)) ∧
      (∀ k, (∃ e ∈ f', e.1 = k) ↔ (∃ e ∈ f, e.1 = k) ∨
        (∃ m ∈ B, m.kind ≠ .propagation ∧ m.t = k) ∨
        (∃ x ∈ (B.filter (fun m => m.kind == .propagation)).zip res, x.2 = .outOfOrder ∧ x.1.t = k)) := by
  induction B generalizing w f rs with
  | nil => exact ⟨w, f, [], by simp, by simp [delegateAll], by simp⟩
  | cons m B ih =>
    simp only [List.foldl_cons]
    by_cases hk : m.kind = .propagation
    · have hst : redoStep S (w, f, rs) m = ((delegate S w m).1,
          (if (delegate S w m).2 = .outOfOrder then f.insertMap m.t true else f),
          rs ++ [(delegate S w m).2]) := by
        unfold redoStep; simp [hk]
      rw [hst]
      obtain ⟨w', f', res, h1, h2, h3⟩ := ih (delegate S w m).1
        (if (delegate S w m).2 = .outOfOrder then f.insertMap m.t true else f)
        (by split
            · exact insertMap_ne_nil _ _ _
            · exact hf) (rs ++ [(delegate S w m).2])
      refine ⟨w', f', (delegate S w m).2 :: res, ?_, ?_, ?_⟩
      · rw [h1]; simp
      · rw [List.filter_cons_of_pos (by simp [hk])]
        simp only [delegateAll, ← h2]
      · intro k
        rw [h3, List.filter_cons_of_pos (by simp [hk]), List.zip_cons_cons]
        simp only [List.mem_cons, exists_eq_or_imp, hk, ne_eq, not_true_eq_false, false_and, false_or]
        split
        · rename_i ho
          rw [mem_insertMap_key]
          simp only [ho, true_and]
          constructor
          · rintro ((h | h) | h | h)
            · exact Or.inr (Or.inr (Or.inl h.symm))
            · exact Or.inl h
            · exact Or.inr (Or.inl h)
            · exact Or.inr (Or.inr (Or.inr h))
          · rintro (h | h | h | h)
            · exact Or.inl (Or.inr h)
            · exact Or.inr (Or.inl h)
            · exact Or.inl (Or.inl h.symm)
            · exact Or.inr (Or.inr h)
        · rename_i ho
          simp only [ho, false_and, false_or]
    · have hst : redoStep S (w, f, rs) m = (w, f.insertMap m.t true, rs) := by
        unfold redoStep
        have : f.isEmpty = false := by simpa using hf
        simp [hk, this]
      rw [hst]
      obtain ⟨w', f', res, h1, h2, h3⟩ := ih w (f.insertMap m.t true) (insertMap_ne_nil _ _ _) rs
      refine ⟨w', f', res, h1, ?_, ?_⟩
      · rw [List.filter_cons_of_neg (by simp [hk])]; exact h2
      · intro k
        rw [h3, List.filter_cons_of_neg (by simp [hk]), mem_insertMap_key]
        simp only [List.mem_cons, exists_eq_or_imp, hk, ne_eq, not_false_eq_true, true_and]
        constructor
        · rintro ((h | h) | h | h)
          · exact Or.inr (Or.inl (Or.inl h.symm))
          · exact Or.inl h
          · exact Or.inr (Or.inl (Or.inr h))
          · exact Or.inr (Or.inr h)
        · rintro (h | (h | h) | h)
          · exact Or.inl (Or.inr h)
          · exact Or.inl (Or.inl h.symm)
          · exact Or.inr (Or.inl h)
          · exact Or.inr (Or.inr h)

theorem redo_outcome (S : Insts W P) (ms : List (Meas P)) (w : W) (rs : List Status) :
    ∃ w' f' res, ms.foldl (redoStep S) (w, [], rs) = (w', f', rs ++ res) ∧
      RedoOutcome S w ms w' f' res := by
  induction ms generalizing w rs with
  | nil => exact ⟨w, [], [], by simp, [], [], rfl, by simp [delegateAll], by simp [delegateAll], by simp, by simp⟩
  | cons m ms ih =>
    simp only [List.foldl_cons]
    have hst : redoStep S (w, [], rs) m = ((delegate S w m).1,
        (if (delegate S w m).2 = .outOfOrder then [(m.t, true)] else []),
        rs ++ [(delegate S w m).2]) := by
      unfold redoStep; simp [Buf.insertMap]
    rw [hst]
    by_cases ho : (delegate S w m).2 = .outOfOrder
    · rw [if_pos ho]
      obtain ⟨w', f', res, h1, h2, h3⟩ := redo_flagged S ms (delegate S w m).1 [(m.t, true)] (by simp)
        (rs ++ [(delegate S w m).2])
      refine ⟨w', f', (delegate S w m).2 :: res, by rw [h1]; simp, [m], ms, rfl, ?_, ?_, ?_, ?_⟩
      · simp only [List.singleton_append, delegateAll, ← h2]
      · simp [delegateAll]
      · intro _; simp [delegateAll, ho]
      · intro k
        rw [h3]
        simp only [List.singleton_append, List.zip_cons_cons, List.mem_cons, exists_eq_or_imp, ho,
          true_and, List.not_mem_nil, or_false, exists_eq_left]
        constructor
        · rintro (h | h | h)
          · exact Or.inr (Or.inl h)
          · exact Or.inl h
          · exact Or.inr (Or.inr h)
        · rintro (h | h | h)
          · exact Or.inr (Or.inl h)
          · exact Or.inl h
          · exact Or.inr (Or.inr h)
    · rw [if_neg ho]
      obtain ⟨w', f', res, h1, A, B, g1, g2, g3, g4, g5⟩ := ih (delegate S w m).1 (rs ++ [(delegate S w m).2])
      refine ⟨w', f', (delegate S w m).2 :: res, by rw [h1]; simp, m :: A, B, by rw [g1]; rfl, ?_, ?_, ?_, ?_⟩
      · simp only [List.cons_append, delegateAll, ← g2]
      · intro s hs
        simp only [delegateAll] at hs
        cases hA : (delegateAll S (delegate S w m).1 A).2 with
        | nil => rw [hA] at hs; simp at hs
        | cons y ys =>
          rw [hA, List.dropLast_cons_of_ne_nil (by simp), List.mem_cons] at hs
          rcases hs with rfl | hs
          · exact ho
          · exact g3 s (by rw [hA]; exact hs)
      · intro hB
        have := g4 hB
        simp only [delegateAll]
        rw [List.getLast?_cons, this]; rfl
      · intro k
        rw [g5]
        simp only [List.cons_append, List.zip_cons_cons, List.mem_cons, exists_eq_or_imp, ho, false_and,
          false_or]

/-- C38. `redo_updates_from_t`: beliefs from `t` on are removed, then the stored measurements from
`t` on are re-processed; none is removed from the store. -/
theorem c38_redo_from (S : Insts W P) (h : HState W P) (hs : h.meas.SortedKeys) (t : Int) :
    (redoFrom S h t).1.meas = h.meas ∧
    RedoOutcome S (S.removeFrom h.w t) ((h.meas.filter (fun e => decide (t ≤ e.1))).map (·.2))
      (redoFrom S h t).1.w (redoFrom S h t).1.ooo (redoFrom S h t).2 := by
  refine ⟨(redoFrom_frame S h t).1, ?_⟩
  unfold redoFrom
  cases hl : h.meas.latest with
  | none =>
    have : h.meas = [] := List.getLast?_eq_none_iff.mp hl
    rw [this]
    exact ⟨[], [], rfl, by simp [delegateAll], by simp [delegateAll], by simp, by simp⟩
  | some l =>
    simp only
    rw [redoFrom_list h.meas hs t l hl]
    obtain ⟨w', f', res, h1, h2⟩ := redo_outcome S
      ((h.meas.filter (fun e => decide (t ≤ e.1))).map (·.2)) (S.removeFrom h.w t) []
    rw [h1]
    simpa using h2

/-- C38. `redo_updates_after_t`: the same strictly after `t`. -/
theorem c38_redo_after (S : Insts W P) (h : HState W P) (hs : h.meas.SortedKeys) (t : Int) :
    (redoAfter S h t).1.meas = h.meas ∧
    RedoOutcome S (S.removeAfter h.w t) ((h.meas.filter (fun e => decide (t < e.1))).map (·.2))
      (redoAfter S h t).1.w (redoAfter S h t).1.ooo (redoAfter S h t).2 := by
  refine ⟨(redoAfter_frame S h t).1, ?_⟩
  have hnil : h.meas.filter (fun e => decide (t < e.1)) = [] →
      RedoOutcome S (S.removeAfter h.w t) ((h.meas.filter (fun e => decide (t < e.1))).map (·.2))
        (S.removeAfter h.w t) [] [] := by
    intro hn; rw [hn]
    exact ⟨[], [], rfl, by simp [delegateAll], by simp [delegateAll], by simp, by simp⟩
  unfold redoAfter
  simp only
  split
  · rename_i a l ha hl
    rw [redoAfter_list h.meas hs t a l ha hl]
    obtain ⟨w', f', res, h1, h2⟩ := redo_outcome S
      ((h.meas.filter (fun e => decide (t < e.1))).map (·.2)) (S.removeAfter h.w t) []
    simp only at h1 ⊢
    rw [h1]
    simpa using h2
  · rename_i hno
    apply hnil
    by_contra hne
    obtain ⟨a, ha⟩ := List.exists_mem_of_ne_nil _ hne
    have hm : h.meas ≠ [] := List.ne_nil_of_mem (List.mem_filter.mp ha).1
    obtain ⟨_, l, _, hl⟩ := head_last_of_ne h.meas hm
    obtain ⟨a', _, ha', _⟩ := head_last_of_ne _ hne
    exact hno a' l (by rw [Buf.getAfter_eq h.meas hs]; exact ha') hl

/-- C38. Flagged measurements are picked up again: an accepted measurement not older than some flag
(inside the flag horizon) re-processes the (re-sorted) history from the oldest flag. -/
theorem c38_flag_redone (fp : FP) (S : Insts W P) (h : HState W P) (m : Meas P)
    (f : Int × Bool) (hf : (Buf.checkHorizonFrom fp h.hOoo h.ooo (fp.secOfKey m.t)).head? = some f)
    (hfs : (Buf.checkHorizonFrom fp h.hOoo h.ooo (fp.secOfKey m.t)).SortedKeys) (hle : f.1 ≤ m.t) :
    processTail fp S h m = redoFrom S
      { h with ooo := []
               meas := sortFrom (Buf.checkHorizon fp h.hMeas (Buf.insertMulti h.meas m.t m)) f.1 } f.1 := by
  have hex : (Buf.existBefore (Buf.checkHorizonFrom fp h.hOoo h.ooo (fp.secOfKey m.t)) m.t ||
      Buf.existAt (Buf.checkHorizonFrom fp h.hOoo h.ooo (fp.secOfKey m.t)) m.t) = true := by
    rw [Bool.or_eq_true, Buf.existBefore_iff _ hfs, Buf.existAt_iff]
    rcases lt_or_eq_of_le hle with h | h
    · exact Or.inl ⟨f, List.mem_of_head? hf, h⟩
    · exact Or.inr ⟨f, List.mem_of_head? hf, h⟩
  have ho : (Buf.checkHorizonFrom fp h.hOoo h.ooo (fp.secOfKey m.t)).oldest = some f := hf
  have hts : (if f.1 < m.t then f.1 else m.t) = f.1 := by split <;> omega
  unfold processTail
  simp only [hex, Bool.or_true, if_true, trim, insertMeas, ho, hts]

/-! ## C39 -/

/-- C39. Serving requests: `o` is the oldest request that is inside the redo horizon (seen from the
newest stored measurement). An accepted measurement first redoes from/after it if it is newer than the
oldest stored measurement, and otherwise ignores it with no effect on instances, measurements and
flags. -/
theorem c39_request_served (fp : FP) (S : Insts W P) (h : HState W P) (m : Meas P)
    (hk : S.known h.w m.id = true) (hacc : tooOld fp h m = false) (hs : h.redo.SortedKeys)
    (oldest newest : Int × Meas P) (ho : h.meas.head? = some oldest) (hl : h.meas.getLast? = some newest)
    (o : Int × Bool) (hom : o ∈ h.redo) (hin : fp.cutKey (fp.secOfKey newest.1) h.hRedo ≤ o.1)
    (hmin : ∀ e ∈ h.redo, e ≠ o → fp.cutKey (fp.secOfKey newest.1) h.hRedo ≤ e.1 → o.1 < e.1) :
    process fp S h m = processTail fp S
      (if oldest.1 < o.1 then
        (if o.2 then (redoAfter S { h with redo := [] } o.1).1 else (redoFrom S { h with redo := [] } o.1).1)
       else { h with redo := [] }) m := by
  have hlive : (Buf.checkHorizonFrom fp h.hRedo h.redo (fp.secOfKey newest.1)).oldest = some o := by
    unfold Buf.checkHorizonFrom Buf.oldest
    rw [if_pos (List.length_pos_of_mem hom), Buf.removeBefore_eq _ hs, if_pos ⟨o, hom, hin⟩]
    have hmem : o ∈ h.redo.filter (fun e => decide (fp.cutKey (fp.secOfKey newest.1) h.hRedo ≤ e.1)) :=
      List.mem_filter.mpr ⟨hom, by simpa using hin⟩
    obtain ⟨x, _, hx, _⟩ := head_last_of_ne _ (List.ne_nil_of_mem hmem)
    have hle := Buf.SortedKeys.head_le (hs.filter _) hx o hmem
    have hxm := List.mem_filter.mp (List.mem_of_head? hx)
    rw [hx]
    by_contra hne
    have := hmin x hxm.1 (fun hc => hne (by rw [hc])) (by simpa using hxm.2)
    omega
  have hlat : h.meas.latest = some newest := hl
  have hold : h.meas.oldest = some oldest := ho
  unfold process
  rw [if_neg (by simp [hk]), if_neg (by simp [hacc])]
  simp only [discardMeasurement, Bool.false_eq_true, if_false]
  congr 1
  unfold serveRequests
  simp only [hlat, hlive, hold]

/-- C39. After any accepted measurement no request is left; a discarded one leaves them alone. -/
theorem c39_requests_gone (fp : FP) (S : Insts W P) (h : HState W P) (m : Meas P) :
    (S.known h.w m.id = true → tooOld fp h m = false → (process fp S h m).1.redo = []) ∧
    (S.known h.w m.id = false ∨ tooOld fp h m = true → (process fp S h m).1.redo = h.redo) := by
  constructor
  · intro hk hacc
    unfold process
    rw [if_neg (by simp [hk]), if_neg (by simp [hacc])]
    simp only [discardMeasurement, Bool.false_eq_true, if_false]
    obtain ⟨_, _, _, _, f5⟩ := serveRequests_frame fp S h
    unfold processTail
    simp only
    split
    · rw [(redoFrom_frame S _ _).2.2.2.2]
      split <;> simp [trim, insertMeas, f5]
    · split <;> split <;> simp [trim, insertMeas, f5]
  · intro hd
    unfold process
    rcases hd with hd | hd
    · rw [if_pos (by simp [hd])]
    · split
      · rfl
      · simp [hd]

/-- C39. Scheduling adds one request (the last one per stamp wins) and touches nothing else. -/
theorem c39_schedule (fp : FP) (h : HState W P) (t : Int) (after : Bool) (hs : h.redo.StrictKeys) :
    (schedule fp h t after).w = h.w ∧ (schedule fp h t after).meas = h.meas ∧
    (schedule fp h t after).ooo = h.ooo ∧
    (∀ e ∈ (schedule fp h t after).redo, e = (t, after) ∨ (e ∈ h.redo ∧ e.1 ≠ t)) ∧
    (schedule fp h t after).redo.StrictKeys ∧
    (Buf.horizon fp (h.redo.insertMap t after) ≤ h.hRedo →
      ∀ e, (e = (t, after) ∨ (e ∈ h.redo ∧ e.1 ≠ t)) → e ∈ (schedule fp h t after).redo) := by
  obtain ⟨_, hsuf, hid⟩ := c15_newest_kept fp h.hRedo (h.redo.insertMap t after)
  refine ⟨rfl, rfl, rfl, ?_, ?_, ?_⟩
  · intro e he
    exact (Buf.mem_insertMap h.redo hs t after e).mp (hsuf.subset he)
  · exact List.Pairwise.sublist hsuf.sublist (Buf.strict_insertMap h.redo hs t after)
  · intro hh e he
    have : (schedule fp h t after).redo = h.redo.insertMap t after := hid hh
    rw [this]
    exact (Buf.mem_insertMap h.redo hs t after e).mpr he

end Ikf
