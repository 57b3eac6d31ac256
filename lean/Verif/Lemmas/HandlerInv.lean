import Verif.Lemmas.HandlerSort

/-! Invariants of the handler over streams. -/

namespace Ikf
variable {α W P : Type _}

/-! ## Trimming -/

/-- Nothing (more) to trim; depends on the oldest and newest key and the size only. -/
def Trimmed (fp : FP) (max : ℚ) (b : Buf α) : Prop :=
  ∀ o l, b.head? = some o → b.getLast? = some l → 1 < b.length →
    max < fp.rnd (fp.secOfKey l.1 - fp.secOfKey o.1) →
    fp.cutKey (fp.secOfKey l.1) max ≤ o.1 ∨ l.1 < fp.cutKey (fp.secOfKey l.1) max

theorem horizon_eq (fp : FP) (b : Buf α) (o l : Int × α) (ho : b.head? = some o)
    (hl : b.getLast? = some l) : Buf.horizon fp b = fp.rnd (fp.secOfKey l.1 - fp.secOfKey o.1) := by
  unfold Buf.horizon
  split
  · have e1 : Buf.oldest b = some o := ho
    have e2 : Buf.latest b = some l := hl
    rw [e1, e2]
  · rename_i hlen
    cases b with
    | nil => simp at ho
    | cons x r =>
      cases r with
      | nil => simp at ho hl; subst ho; subst hl; rw [sub_self, fp.rnd_zero]
      | cons y s => simp at hlen

theorem head_last_of_ne (b : Buf α) (h : b ≠ []) : ∃ o l, b.head? = some o ∧ b.getLast? = some l := by
  cases b with
  | nil => exact absurd rfl h
  | cons x r => exact ⟨x, (x :: r).getLast (by simp), rfl, List.getLast?_eq_some_getLast (by simp)⟩

theorem checkHorizon_of_trimmed (fp : FP) (max : ℚ) (hm : 0 ≤ max) (b : Buf α) (hs : b.SortedKeys)
    (ht : Trimmed fp max b) : Buf.checkHorizon fp max b = b := by
  by_cases hne : b = []
  · subst hne; simp [Buf.checkHorizon]
  obtain ⟨o, l, ho, hl⟩ := head_last_of_ne b hne
  unfold Buf.checkHorizon
  split
  · rename_i hc
    rw [horizon_eq fp b o l ho hl] at hc
    have hlen : 1 < b.length := by
      by_contra hlen
      cases b with
      | nil => exact hne rfl
      | cons x r =>
        cases r with
        | nil =>
          simp at ho hl; subst ho; subst hl
          rw [sub_self, fp.rnd_zero] at hc
          exact absurd hc.2 (not_lt.mpr hm)
        | cons y s => simp at hlen
    have hlat : Buf.latest b = some l := hl
    rw [hlat]
    simp only
    rw [Buf.removeBefore_eq b hs]
    rcases ht o l ho hl hlen hc.2 with h | h
    · split
      · rw [List.filter_eq_self]
        intro e he
        have := hs.head_le ho e he
        simp; omega
      · rfl
    · rw [if_neg]
      rintro ⟨e, he, hce⟩
      have := hs.le_getLast hl e he
      omega
  · rfl

/-- Trimming splits off a prefix of strictly older elements; the newest stays. -/
theorem checkHorizon_split (fp : FP) (max : ℚ) (b : Buf α) (hs : b.SortedKeys) :
    ∃ X, b = X ++ Buf.checkHorizon fp max b ∧
      (∀ x ∈ X, ∀ e ∈ Buf.checkHorizon fp max b, x.1 < e.1) ∧ Trimmed fp max (Buf.checkHorizon fp max b) := by
  have htriv : (∀ o l, b.head? = some o → b.getLast? = some l → 1 < b.length →
      max < fp.rnd (fp.secOfKey l.1 - fp.secOfKey o.1) →
      fp.cutKey (fp.secOfKey l.1) max ≤ o.1 ∨ l.1 < fp.cutKey (fp.secOfKey l.1) max) →
      Buf.checkHorizon fp max b = b →
    ∃ X, b = X ++ Buf.checkHorizon fp max b ∧
      (∀ x ∈ X, ∀ e ∈ Buf.checkHorizon fp max b, x.1 < e.1) ∧ Trimmed fp max (Buf.checkHorizon fp max b) := by
    intro h1 h2
    refine ⟨[], by simp [h2], by simp, ?_⟩
    rw [h2]; exact h1
  by_cases hne : b = []
  · subst hne; apply htriv <;> simp [Buf.checkHorizon]
  obtain ⟨o, l, ho, hl⟩ := head_last_of_ne b hne
  have hlat : Buf.latest b = some l := hl
  have hlen : 0 < b.length := List.length_pos_iff.mpr hne
  by_cases hc : max < fp.rnd (fp.secOfKey l.1 - fp.secOfKey o.1)
  · have hch : Buf.checkHorizon fp max b = Buf.removeBefore b (fp.cutKey (fp.secOfKey l.1) max) := by
      unfold Buf.checkHorizon
      rw [horizon_eq fp b o l ho hl, if_pos ⟨hlen, hc⟩, hlat]
    rw [Buf.removeBefore_eq b hs] at hch
    set c := fp.cutKey (fp.secOfKey l.1) max with hcdef
    by_cases hex : ∃ e ∈ b, c ≤ e.1
    · rw [if_pos hex] at hch
      have hsplit : b = b.filter (fun e => decide (e.1 < c)) ++ b.filter (fun e => decide (c ≤ e.1)) := by
        have h1 := Buf.belowLB_eq b hs c
        have h2 := Buf.lowerBound_eq b hs c
        have : b = b.belowLB c ++ b.lowerBound c := by
          unfold Buf.belowLB Buf.lowerBound; exact (List.takeWhile_append_dropWhile).symm
        rw [h1, h2] at this; exact this
      refine ⟨b.filter (fun e => decide (e.1 < c)), ?_, ?_, ?_⟩
      · rw [hch]; exact hsplit
      · intro x hx e he
        rw [hch] at he
        rw [List.mem_filter] at hx he
        have h1 := hx.2; have h2 := he.2
        simp at h1 h2; omega
      · intro o' l' ho' hl' _ _
        have hll : Buf.checkHorizon fp max b ≠ [] → True := fun _ => trivial
        have : (Buf.checkHorizon fp max b).getLast? = b.getLast? := (c15_newest_kept fp max b).1
        rw [this, hl] at hl'
        simp at hl'; subst hl'
        left
        have hm := List.mem_of_head? ho'
        rw [hch, List.mem_filter] at hm
        simpa using hm.2
    · rw [if_neg hex] at hch
      apply htriv _ hch
      intro o' l' ho' hl' _ _
      rw [hl] at hl'; simp at hl'; subst hl'
      right
      by_contra hcon
      exact hex ⟨l, List.mem_of_getLast? hl, by omega⟩
  · apply htriv
    · intro o' l' ho' hl' _ hlt
      rw [ho] at ho'; rw [hl] at hl'
      simp at ho' hl'; subst ho'; subst hl'
      exact absurd hlt hc
    · unfold Buf.checkHorizon
      rw [horizon_eq fp b o l ho hl, if_neg (fun h => hc h.2)]

theorem trimmed_congr (fp : FP) (max : ℚ) (a b : Buf α) (h : a.map (·.1) = b.map (·.1))
    (ht : Trimmed fp max a) : Trimmed fp max b := by
  intro o l ho hl hlen hmax
  have hla : a.length = b.length := by
    have := congrArg List.length h; simpa using this
  have h1 : (a.head?).map (·.1) = some o.1 := by
    rw [← List.head?_map, h, List.head?_map, ho]; rfl
  have h2 : (a.getLast?).map (·.1) = some l.1 := by
    rw [← List.getLast?_map, h, List.getLast?_map, hl]; rfl
  obtain ⟨o', ho', hoo⟩ := Option.map_eq_some_iff.mp h1
  obtain ⟨l', hl', hll⟩ := Option.map_eq_some_iff.mp h2
  have := ht o' l' ho' hl' (by omega)
  rw [hoo, hll] at this
  exact this hmax

/-! ## Acceptance -/

theorem secOfKey_mono (fp : FP) (a b : Int) (h0 : 0 ≤ a) (h1 : b ≤ 9223372036854775807) (h : a ≤ b) :
    fp.secOfKey a ≤ fp.secOfKey b := by
  obtain ⟨n1, v1, s1⟩ := ofStampNs_normal a h0
  obtain ⟨n2, v2, s2⟩ := ofStampNs_normal b (by omega)
  unfold FP.secOfKey
  exact fp.toSec_mono _ _ n1 n2 (by rw [s1]; omega) (by rw [s2]; omega) (by rw [v1, v2]; exact h)

/-- An accepted measurement is strictly newer than the oldest stored one. -/
theorem accept_lt (fp : FP) (b : Buf (Meas P)) (w : W) (hM hO hR : ℚ) (ooo redo : Buf Bool)
    (m : Meas P) (hr0 : 0 ≤ m.t)
    (hrb : ∀ e ∈ b, e.1 ≤ 9223372036854775807)
    (hacc : Handler.tooOld fp ⟨w, b, ooo, redo, hM, hO, hR⟩ m = false) (o : Int × Meas P)
    (ho : b.head? = some o) : o.1 < m.t := by
  have hne : b ≠ [] := by rintro rfl; simp at ho
  obtain ⟨o', l, ho', hl⟩ := head_last_of_ne b hne
  rw [ho] at ho'; simp at ho'; subst ho'
  unfold Handler.tooOld at hacc
  have hlat : Buf.latest b = some l := hl
  simp only [hlat, horizon_eq fp b o l ho hl] at hacc
  simp only [decide_eq_false_iff_not, not_le] at hacc
  by_contra hcon
  push Not at hcon
  have hm := secOfKey_mono fp m.t o.1 hr0 (hrb o (List.mem_of_head? ho)) hcon
  have := fp.mono (fp.secOfKey l.1 - fp.secOfKey o.1) (fp.secOfKey l.1 - fp.secOfKey m.t) (by linarith)
  exact absurd hacc (not_lt.mpr this)

/-- Inserting an accepted measurement and trimming: only elements older than it are trimmed. -/
theorem insert_trim_split (fp : FP) (max : ℚ) (hm : 0 ≤ max) (b : Buf (Meas P)) (hs : b.SortedKeys)
    (ht : Trimmed fp max b) (m : Meas P) (hold : ∀ o, b.head? = some o → o.1 < m.t) :
    ∃ X, Buf.insertMulti b m.t m = X ++ Buf.checkHorizon fp max (Buf.insertMulti b m.t m) ∧
      (∀ x ∈ X, x.1 < m.t) ∧
      (∀ x ∈ X, ∀ e ∈ Buf.checkHorizon fp max (Buf.insertMulti b m.t m), x.1 < e.1) ∧
      Trimmed fp max (Buf.checkHorizon fp max (Buf.insertMulti b m.t m)) := by
  have hs' := Buf.sorted_insertMulti b hs m.t m
  by_cases hlater : ∃ e ∈ b, m.t < e.1
  · obtain ⟨e, he, hlt⟩ := hlater
    obtain ⟨o, l, ho, hl⟩ := head_last_of_ne b (List.ne_nil_of_mem he)
    have hom := hold o ho
    have hhead : (Buf.insertMulti b m.t m).head? = some o := by
      cases b with
      | nil => simp at ho
      | cons x r =>
        simp at ho; subst ho
        unfold Buf.insertMulti; rw [if_neg (by omega)]; rfl
    have hlast : (Buf.insertMulti b m.t m).getLast? = some l := by
      rw [Buf.insertMulti_eq]
      have hub : b.upperBound m.t ≠ [] := by
        rw [Buf.upperBound_eq b hs]
        exact List.ne_nil_of_mem (List.mem_filter.mpr ⟨he, by simpa using hlt⟩)
      have hb : b = b.belowUB m.t ++ b.upperBound m.t := by
        unfold Buf.belowUB Buf.upperBound; exact (List.takeWhile_append_dropWhile).symm
      have : b.getLast? = (b.upperBound m.t).getLast? := by
        conv_lhs => rw [hb]
        rw [List.getLast?_append_of_ne_nil _ hub]
      rw [List.getLast?_append_of_ne_nil _ (by simp), List.getLast?_cons_of_ne_nil hub, ← this, hl]
    have hlen : 1 < b.length := by
      cases b with
      | nil => simp at ho
      | cons x r =>
        cases r with
        | nil => simp at ho he; subst ho; subst he; omega
        | cons y s => simp
    have ht' : Trimmed fp max (Buf.insertMulti b m.t m) := by
      intro o' l' ho' hl' _ hmax
      rw [hhead] at ho'; rw [hlast] at hl'
      simp at ho' hl'; subst ho'; subst hl'
      exact ht o l ho hl hlen hmax
    have hid := checkHorizon_of_trimmed fp max hm _ hs' ht'
    rw [hid]
    exact ⟨[], by simp, by simp, by simp, ht'⟩
  · obtain ⟨X, h1, h2, h3⟩ := checkHorizon_split fp max (Buf.insertMulti b m.t m) hs'
    refine ⟨X, h1, ?_, h2, h3⟩
    intro x hx
    have hne : Buf.insertMulti b m.t m ≠ [] :=
      List.ne_nil_of_mem ((Buf.mem_insertMulti b m.t m _).mpr (Or.inl rfl))
    obtain ⟨_, l, _, hl⟩ := head_last_of_ne _ hne
    have hlc : l ∈ Buf.checkHorizon fp max (Buf.insertMulti b m.t m) := by
      apply List.mem_of_getLast?
      rw [(c15_newest_kept fp max (Buf.insertMulti b m.t m)).1]; exact hl
    have hxl := h2 x hx l hlc
    have hlm := List.mem_of_getLast? hl
    rw [Buf.mem_insertMulti] at hlm
    rcases hlm with rfl | hlm
    · exact hxl
    · have : ¬ m.t < l.1 := fun hc => hlater ⟨l, hlm, hc⟩
      omega

/-! ## Order violation -/

theorem violated_iff (b : Buf (Meas P)) (hs : b.SortedKeys) (hk : Keyed b) (hn : Known b) (m : Meas P)
    (hm : m.kind ≠ .unknown) :
    Handler.isOrderViolated b m = true ↔
      ∃ e ∈ b, m.t < e.2.t ∨ (e.2.t = m.t ∧ m.kind.prio < e.2.kind.prio) := by
  have hall : ∀ x, x ∈ Buf.getAllAt b m.t ↔ ∃ e ∈ b, e.2 = x ∧ e.2.t = m.t := by
    intro x
    unfold Buf.getAllAt
    split
    · unfold Buf.equalRange
      rw [List.mem_map]
      constructor
      · rintro ⟨e, he, rfl⟩
        rw [List.mem_filter] at he
        refine ⟨e, he.1, rfl, ?_⟩
        rw [← hk e he.1]; simpa using he.2
      · rintro ⟨e, he, rfl, ht⟩
        refine ⟨e, List.mem_filter.mpr ⟨he, ?_⟩, rfl⟩
        rw [hk e he, ht]; simp
    · rename_i hne
      constructor
      · intro h; simp at h
      · rintro ⟨e, he, _, ht⟩
        exact absurd ((Buf.existAt_iff b m.t).mpr ⟨e, he, by rw [hk e he, ht]⟩) hne
  unfold Handler.isOrderViolated
  by_cases hafter : Buf.existAfter b m.t = true
  · rw [if_pos hafter]
    simp only [true_iff]
    obtain ⟨e, he, hlt⟩ := (Buf.existAfter_iff b hs m.t).mp hafter
    exact ⟨e, he, Or.inl (by rw [← hk e he]; exact hlt)⟩
  · rw [if_neg hafter]
    have hno : ∀ e ∈ b, ¬ m.t < e.2.t := by
      intro e he hlt
      exact hafter ((Buf.existAfter_iff b hs m.t).mpr ⟨e, he, by rw [hk e he]; exact hlt⟩)
    cases hkind : m.kind with
    | unknown => exact absurd hkind hm
    | joint =>
      simp only [ne_eq, not_true_eq_false, if_false, Bool.false_eq_true, false_iff]
      rintro ⟨e, he, h | h⟩
      · exact hno e he h
      · have := h.2
        have hne := hn e he
        cases hek : e.2.kind <;> simp_all [ObsType.prio]
    | propagation =>
      simp only [ne_eq, reduceCtorEq, not_false_eq_true, if_true]
      rw [List.any_eq_true]
      constructor
      · rintro ⟨x, hx, hp⟩
        obtain ⟨e, he, rfl, ht⟩ := (hall x).mp hx
        refine ⟨e, he, Or.inr ⟨ht, ?_⟩⟩
        simp at hp
        rcases hp with h | h <;> rw [h] <;> decide
      · rintro ⟨e, he, h | h⟩
        · exact absurd h (hno e he)
        · refine ⟨e.2, (hall e.2).mpr ⟨e, he, rfl, h.1⟩, ?_⟩
          have h2 := h.2
          have hne := hn e he
          cases hek : e.2.kind <;> simp_all [ObsType.prio]
    | priv =>
      simp only [ne_eq, reduceCtorEq, not_false_eq_true, if_true, if_false]
      rw [List.any_eq_true]
      constructor
      · rintro ⟨x, hx, hp⟩
        obtain ⟨e, he, rfl, ht⟩ := (hall x).mp hx
        refine ⟨e, he, Or.inr ⟨ht, ?_⟩⟩
        simp at hp
        rw [hp]; decide
      · rintro ⟨e, he, h | h⟩
        · exact absurd h (hno e he)
        · refine ⟨e.2, (hall e.2).mpr ⟨e, he, rfl, h.1⟩, ?_⟩
          have h2 := h.2
          have hne := hn e he
          cases hek : e.2.kind <;> simp_all [ObsType.prio]

/-! ## The history invariant -/

/-- Arrivals as stored pairs. -/
def asStored (A : List (Meas P)) : Buf (Meas P) := A.map (fun m => (m.t, m))

/-- `D ++ b` is the time-and-priority ordered, stable arrangement of the arrivals `A`; `D` has been
trimmed, `b` is stored. -/
structure MInv (fp : FP) (max : ℚ) (A : List (Meas P)) (D b : Buf (Meas P)) : Prop where
  pord : POrd (D ++ b)
  keyed : Keyed (D ++ b)
  known : Known (D ++ b)
  cls : ∀ k K, cls (D ++ b) k K = cls (asStored A) k K
  below : ∀ d ∈ D, ∀ e ∈ b, d.1 < e.1
  trimmed : Trimmed fp max b
  empty : b = [] → D = []
  range : ∀ e ∈ D ++ b, 0 ≤ e.1 ∧ e.1 ≤ 9223372036854775807

theorem MInv.nil (fp : FP) (max : ℚ) : MInv fp max ([] : List (Meas P)) [] [] := by
  refine ⟨List.Pairwise.nil, ?_, ?_, fun _ _ => rfl, by simp, ?_, fun _ => rfl, by simp⟩
  · intro e he; simp at he
  · intro e he; simp at he
  · intro o l ho; simp at ho

theorem keys_sortFrom (b : Buf (Meas P)) (hs : b.SortedKeys) (hk : Keyed b) (hn : Known b) (t : Int) :
    (Handler.sortFrom b t).map (·.1) = b.map (·.1) := by
  obtain ⟨h1, h2, h3, _, _⟩ := sortFrom_spec b hs hk hn t
  have hp := (perm_of_cls _ _ h3 hn (fun k K hK => cls_sortFrom b hs hk hn t k K hK)).map (·.1)
  apply List.Perm.eq_of_pairwise (le := (· ≤ ·)) _ _ _ hp
  · intro a b _ _ h1 h2; omega
  · rw [List.pairwise_map]; exact h1
  · rw [List.pairwise_map]; exact hs

/-- One accepted arrival: insert, trim, sort from any time not after the arrival. -/
theorem MInv.step {fp : FP} {max : ℚ} (hmax : 0 ≤ max) {A : List (Meas P)} {D b : Buf (Meas P)}
    (hI : MInv fp max A D b) (m : Meas P) (hm : m.kind ≠ .unknown) (hr0 : 0 ≤ m.t)
    (hr1 : m.t ≤ 9223372036854775807) (hold : ∀ o, b.head? = some o → o.1 < m.t)
    (ts : Int) (hts : ts ≤ m.t) :
    ∃ X, Buf.insertMulti b m.t m = X ++ Buf.checkHorizon fp max (Buf.insertMulti b m.t m) ∧
      (∀ x ∈ X, x.1 < m.t) ∧
      MInv fp max (A ++ [m]) (D ++ X)
        (Handler.sortFrom (Buf.checkHorizon fp max (Buf.insertMulti b m.t m)) ts) := by
  have kb : Keyed b := fun e he => hI.keyed e (by simp [he])
  have nb : Known b := fun e he => hI.known e (by simp [he])
  have pb : POrd b := List.Pairwise.sublist (List.sublist_append_right D b) hI.pord
  have sb := pb.sorted kb
  obtain ⟨X, h1, h2, h3, h4⟩ := insert_trim_split fp max hmax b sb hI.trimmed m hold
  refine ⟨X, h1, h2, ?_⟩
  set c := Buf.checkHorizon fp max (Buf.insertMulti b m.t m) with hc
  have hs' := Buf.sorted_insertMulti b sb m.t m
  have hk' := keyed_insertMulti b kb m
  have hn' := known_insertMulti b nb m hm
  have csub : ∀ e ∈ c, e ∈ Buf.insertMulti b m.t m := by
    intro e he; rw [h1]; simp [he]
  have xsub : ∀ e ∈ X, e ∈ Buf.insertMulti b m.t m := by
    intro e he; rw [h1]; simp [he]
  have sc : Buf.SortedKeys c := by
    unfold Buf.SortedKeys at hs' ⊢; rw [h1] at hs'
    exact List.Pairwise.sublist (List.sublist_append_right X c) hs'
  have kc : Keyed c := fun e he => hk' e (csub e he)
  have nc : Known c := fun e he => hn' e (csub e he)
  have xb : ∀ x ∈ X, x ∈ b := by
    intro x hx
    have := xsub x hx
    rw [Buf.mem_insertMulti] at this
    rcases this with rfl | h
    · have := h2 _ hx; simp at this
    · exact h
  -- X and the part of c before ts consist of old elements in old order
  have hpre : ∀ t', t' ≤ m.t → (Buf.insertMulti b m.t m).filter (fun e => decide (e.1 < t')) =
      b.filter (fun e => decide (e.1 < t')) := by
    intro t' ht'
    rw [Buf.insertMulti_eq, List.filter_append]
    have hb : b = b.belowUB m.t ++ b.upperBound m.t := by
      unfold Buf.belowUB Buf.upperBound; exact (List.takeWhile_append_dropWhile).symm
    conv_rhs => rw [hb, List.filter_append]
    rw [List.filter_cons_of_neg (by simp; omega)]
  have pcts : POrd (c.filter (fun e => decide (e.1 < ts))) := by
    have : (c.filter (fun e => decide (e.1 < ts))).Sublist
        ((Buf.insertMulti b m.t m).filter (fun e => decide (e.1 < ts))) := by
      conv_rhs => rw [h1]
      exact (List.sublist_append_right X c).filter _
    rw [hpre ts hts] at this
    exact List.Pairwise.sublist this (pb.filter _)
  have hXeq : X.Sublist (b.filter (fun e => decide (e.1 < m.t))) := by
    rw [← hpre m.t le_rfl]
    conv_rhs => rw [h1]
    rw [List.filter_append]
    have : X.filter (fun e => decide (e.1 < m.t)) = X := by
      rw [List.filter_eq_self]; intro e he; simpa using h2 e he
    rw [this]; exact List.sublist_append_left _ _
  have pX : POrd X := List.Pairwise.sublist hXeq (pb.filter _)
  obtain ⟨q1, q2, q3, q4, q5⟩ := sortFrom_spec c sc kc nc ts
  have pR := pord_sortFrom c sc kc nc ts pcts
  set R := Handler.sortFrom c ts with hR
  have hperm : R.Perm c := perm_of_cls _ _ q3 nc (fun k K hK => cls_sortFrom c sc kc nc ts k K hK)
  have hDm : ∀ d ∈ D, d.1 < m.t := by
    intro d hd
    by_cases hbe : b = []
    · rw [hI.empty hbe] at hd; simp at hd
    · obtain ⟨o, _, ho, _⟩ := head_last_of_ne b hbe
      have := hI.below d hd o (List.mem_of_head? ho)
      have := hold o ho
      omega
  have hDc : ∀ d ∈ D, ∀ e ∈ c, d.1 < e.1 := by
    intro d hd e he
    have := csub e he
    rw [Buf.mem_insertMulti] at this
    rcases this with rfl | h
    · exact hDm d hd
    · exact hI.below d hd e h
  have hDXc : ∀ d ∈ D ++ X, ∀ e ∈ c, d.1 < e.1 := by
    intro d hd e he
    rcases List.mem_append.mp hd with hd | hd
    · exact hDc d hd e he
    · exact h3 d hd e he
  have kDX : Keyed (D ++ X) := by
    intro e he
    rcases List.mem_append.mp he with he | he
    · exact hI.keyed e (by simp [he])
    · exact kb e (xb e he)
  have pDX : POrd (D ++ X) :=
    List.Pairwise.sublist ((hXeq.trans List.filter_sublist).append_left D) hI.pord
  refine ⟨?_, ?_, ?_, ?_, ?_, ?_, ?_, ?_⟩
  · unfold POrd
    rw [List.pairwise_append]
    refine ⟨pDX, pR, ?_⟩
    intro d hd e he
    left
    rw [← kDX d hd, ← q2 e he]
    exact hDXc d hd e (hperm.subset he)
  · intro e he
    rcases List.mem_append.mp he with he | he
    · exact kDX e he
    · exact q2 e he
  · intro e he
    rcases List.mem_append.mp he with he | he
    · rcases List.mem_append.mp he with he | he
      · exact hI.known e (by simp [he])
      · exact nb e (xb e he)
    · exact q3 e he
  · intro k K
    by_cases hK : K = .unknown
    · subst hK
      have hz : ∀ L : Buf (Meas P), Known L → Ikf.cls L k .unknown = [] := by
        intro L hL
        unfold Ikf.cls
        rw [List.filter_eq_nil_iff]
        intro e he hc'
        simp at hc'
        exact hL e he hc'.2
      have hA : Ikf.cls (asStored A) k .unknown = [] := by
        rw [← hI.cls]; exact hz _ hI.known
      have hA' : Ikf.cls (asStored (A ++ [m])) k .unknown = [] := by
        unfold asStored at hA ⊢
        rw [List.map_append]
        unfold Ikf.cls at hA ⊢
        rw [List.filter_append, hA]
        simp [hm]
      rw [hA']
      apply hz
      intro e he
      rcases List.mem_append.mp he with he | he
      · rcases List.mem_append.mp he with he | he
        · exact hI.known e (by simp [he])
        · exact nb e (xb e he)
      · exact q3 e he
    · have e1 : Ikf.cls (D ++ X ++ R) k K = Ikf.cls D k K ++ (Ikf.cls X k K ++ Ikf.cls c k K) := by
        have := cls_sortFrom c sc kc nc ts k K hK
        unfold Ikf.cls at this ⊢
        rw [List.filter_append, List.filter_append, this, List.append_assoc]
      have e2 : Ikf.cls X k K ++ Ikf.cls c k K = Ikf.cls (Buf.insertMulti b m.t m) k K := by
        conv_rhs => rw [h1]
        unfold Ikf.cls; rw [List.filter_append]
      have e3 : Ikf.cls D k K ++ Ikf.cls b k K = Ikf.cls (asStored A) k K := by
        rw [← hI.cls]; unfold Ikf.cls; rw [List.filter_append]
      rw [e1, e2, cls_insertMulti b sb, ← List.append_assoc, e3]
      unfold asStored
      rw [List.map_append]
      unfold Ikf.cls
      rw [List.filter_append]
      congr 1
      by_cases hc1 : m.t = k ∧ m.kind = K
      · simp [hc1]
      · rw [if_neg hc1]; symm; rw [List.filter_eq_nil_iff]
        intro e he; simp at he; subst he
        simpa using hc1
  · intro d hd e he; exact hDXc d hd e (hperm.subset he)
  · exact trimmed_congr fp max c R (keys_sortFrom c sc kc nc ts).symm h4
  · intro hRe
    have hce : c = [] := by
      have := hperm.length_eq
      rw [hRe] at this
      exact List.length_eq_zero_iff.mp this.symm
    exfalso
    have hne : Buf.insertMulti b m.t m ≠ [] :=
      List.ne_nil_of_mem ((Buf.mem_insertMulti b m.t m _).mpr (Or.inl rfl))
    have hlast := (c15_newest_kept fp max (Buf.insertMulti b m.t m)).1
    rw [← hc, hce] at hlast
    exact hne (List.getLast?_eq_none_iff.mp hlast.symm)
  · intro e he
    have : e ∈ D ++ b ∨ e = (m.t, m) := by
      rcases List.mem_append.mp he with he | he
      · rcases List.mem_append.mp he with he | he
        · left; simp [he]
        · left; simp [xb e he]
      · have := csub e (hperm.subset he)
        rw [Buf.mem_insertMulti] at this
        rcases this with h | h
        · right; exact h
        · left; simp [h]
    rcases this with h | rfl
    · exact hI.range e h
    · exact ⟨hr0, hr1⟩

/-- Without order violation, inserting keeps the order, so sorting is not needed. -/
theorem pord_insert_of_not_violated (b : Buf (Meas P)) (pb : POrd b) (kb : Keyed b) (nb : Known b)
    (m : Meas P) (hm : m.kind ≠ .unknown) (hv : Handler.isOrderViolated b m = false) :
    Buf.insertMulti b m.t m = b ++ [(m.t, m)] ∧ POrd (b ++ [(m.t, m)]) := by
  have hno : ∀ e ∈ b, ¬ (m.t < e.2.t ∨ (e.2.t = m.t ∧ m.kind.prio < e.2.kind.prio)) := by
    intro e he hc
    have := (violated_iff b (pb.sorted kb) kb nb m hm).mpr ⟨e, he, hc⟩
    rw [hv] at this; simp at this
  refine ⟨insertMulti_last b m.t m ?_, ?_⟩
  · intro e he; have := hno e he; rw [kb e he]; omega
  · unfold POrd
    rw [List.pairwise_append]
    refine ⟨pb, by simp, ?_⟩
    intro x hx y hy
    simp at hy; subst hy
    have := hno x hx
    unfold Meas.before
    simp only
    omega

end Ikf
