import Verif.Lemmas.Central

/-!
# Storage of beliefs and cross-covariance factors (C21, C25, C27)
-/

namespace Ikf
open Mat

namespace Hdl

/-- All maps of the handler are maps: increasing keys (always the case for `std::map`). -/
structure Ordered (h : Hdl) : Prop where
  sorted : h.Sorted
  inst : ∀ p i, h.find p = some i → i.Ord

theorem keys_bounded {α : Type _} (l : Buf α) : ∃ B : Int, ∀ e ∈ l, e.1 ≤ B := by
  induction l with
  | nil => exact ⟨0, by simp⟩
  | cons e r ih =>
    obtain ⟨B, hB⟩ := ih
    refine ⟨max B e.1, ?_⟩
    intro x hx
    rcases List.mem_cons.mp hx with rfl | hx
    · exact le_max_right _ _
    · exact le_trans (hB x hx) (le_max_left _ _)

theorem inst_bounded (i : Inst) : ∃ B, i.UpTo B := by
  obtain ⟨B1, h1⟩ := keys_bounded i.bel
  have h2 : ∀ l : SMap (Buf Mat), ∃ B : Int, ∀ x ∈ l, ∀ e ∈ x.2, e.1 ≤ B := by
    intro l
    induction l with
    | nil => exact ⟨0, by simp⟩
    | cons x r ih =>
      obtain ⟨B, hB⟩ := ih
      obtain ⟨B', hB'⟩ := keys_bounded x.2
      refine ⟨max B B', ?_⟩
      intro y hy e he
      rcases List.mem_cons.mp hy with rfl | hy
      · exact le_trans (hB' e he) (le_max_right _ _)
      · exact le_trans (hB y hy e he) (le_max_left _ _)
  obtain ⟨B2, h2⟩ := h2 i.ccf
  refine ⟨max B1 B2, ⟨fun e he => le_trans (h1 e he) (le_max_left _ _), ?_⟩⟩
  intro J b hb e he
  exact le_trans (h2 (J, b) (SMap.mem_of_find hb) e he) (le_max_right _ _)

/-- Histories are finite, so they have a newest entry. -/
theorem Ordered.hok {h : Hdl} (ho : Ordered h) (t : Int) : ∃ T, HOk T h ∧ ∀ p, t ≤ T p := by
  have hb : ∀ p, ∃ B : Int, t ≤ B ∧ ∀ i, h.find p = some i → i.UpTo B := by
    intro p
    cases hf : h.find p with
    | none => exact ⟨t, le_rfl, by simp⟩
    | some i =>
      obtain ⟨B, hB⟩ := inst_bounded i
      refine ⟨max t B, le_max_left _ _, ?_⟩
      intro j hj
      rw [← Option.some.inj hj]
      exact hB.mono (le_max_right _ _)
  choose T hT using hb
  exact ⟨T, ⟨ho.sorted, ho.inst, fun p i hi => (hT p).2 i hi⟩, fun p => (hT p).1⟩

theorem HOk.ordered {T : ℕ → Int} {h : Hdl} (hk : HOk T h) : Ordered h := ⟨hk.sorted, hk.ord⟩

theorem get_unknown {h : Hdl} {p : ℕ} (hf : h.find p = none) : get h p = .ub := by unfold get; rw [hf]

/-- Reading in terms of the stored factors. -/
theorem getSigma_eq {h : Hdl} {I J : ℕ} (hI : (h.find I).isSome) (hJ : (h.find J).isSome) (t : Int) :
    getSigma h I J t =
      (let F := (fc h I J t).getD Mat.empty
       let G := (fc h J I t).getD Mat.empty
       if F.size ≠ 0 ∧ G.size ≠ 0 then
         if I < J then F *! G.tr
         else do
           let X ← G *! F.tr
           .ok X.tr
       else .ok Mat.empty) := by
  obtain ⟨i, hi⟩ := Option.isSome_iff_exists.mp hI
  obtain ⟨j, hj⟩ := Option.isSome_iff_exists.mp hJ
  unfold getSigma
  rw [get_ok hi, Res.bind_ok, get_ok hj, Res.bind_ok, Inst.getCCF_eq, Inst.getCCF_eq, ← fc_of_find hi, ← fc_of_find hj]

/-- A read depends only on the two factors of that pair and time. -/
theorem getSigma_congr {h h' : Hdl} (hd : SameDom h h') {a b : ℕ} {t : Int} (h1 : fc h' a b t = fc h a b t) (h2 : fc h' b a t = fc h b a t) :
    getSigma h' a b t = getSigma h a b t := by
  cases ha : h.find a with
  | none =>
    have : h'.find a = none := by
      have := hd a; rw [ha] at this
      exact Option.not_isSome_iff_eq_none.mp (by rw [this]; simp)
    unfold getSigma
    rw [get_unknown ha, get_unknown this]; rfl
  | some i =>
    have ha' : (h.find a).isSome := by rw [ha]; rfl
    cases hb : h.find b with
    | none =>
      have hb2 : h'.find b = none := by
        have := hd b; rw [hb] at this
        exact Option.not_isSome_iff_eq_none.mp (by rw [this]; simp)
      obtain ⟨i', hi'⟩ := Option.isSome_iff_exists.mp (sameDom_isSome hd ha')
      unfold getSigma
      rw [get_ok ha, get_ok hi', Res.bind_ok, Res.bind_ok, get_unknown hb, get_unknown hb2]; rfl
    | some j =>
      have hb' : (h.find b).isSome := by rw [hb]; rfl
      rw [getSigma_eq ha' hb', getSigma_eq (sameDom_isSome hd ha') (sameDom_isSome hd hb'), h1, h2]

/-- The belief `get_belief_at_t` of instance `p` returns. -/
def belief (h : Hdl) (p : ℕ) (t : Int) : Option Belief := (h.find p).bind (fun i => i.beliefAt t)

/-! ## C21 -/

/-- C21: writing the cross-covariance of two registered instances and reading it back gives the same
matrix, with swapped IDs its transpose; no other pair, time or belief changes. -/
theorem c21_roundtrip {h : Hdl} (ho : Ordered h) {I J : ℕ} (hIJ : I ≠ J) (hI : (h.find I).isSome) (hJ : (h.find J).isSome)
    (S : Mat) (hS : S.size ≠ 0) (t : Int) :
    ∃ h', setSigma h I J S t = .ok h' ∧ Ordered h' ∧ (∀ p, (h'.find p).isSome = (h.find p).isSome) ∧
      getSigma h' I J t = .ok S ∧ getSigma h' J I t = .ok S.tr ∧
      (∀ p t', belief h' p t' = belief h p t') ∧
      ∀ a b t', ¬ (t' = t ∧ ((a = I ∧ b = J) ∨ (a = J ∧ b = I))) → getSigma h' a b t' = getSigma h a b t' := by
  obtain ⟨T, hk, hT⟩ := ho.hok t
  have hr : S.rows ≠ 0 := fun e => hS (by unfold Mat.size; rw [e, Nat.zero_mul])
  have hc : S.cols ≠ 0 := fun e => hS (by unfold Mat.size; rw [e, Nat.mul_zero])
  have hone : ∀ n, n ≠ 0 → (one n).size ≠ 0 := fun n hn => Nat.mul_ne_zero hn hn
  rcases Nat.lt_or_gt_of_ne hIJ with hlt | hgt
  · obtain ⟨h', e, k', d', b', f'⟩ := setSigma_lt hk hlt S t hI hJ (hT I) (hT J)
    refine ⟨h', e, k'.ordered, d', ?_, ?_, b', ?_⟩
    · rw [getSigma_eq (sameDom_isSome d' hI) (sameDom_isSome d' hJ), f' I J t, f' J I t]
      simp only [hIJ, hIJ.symm, and_self, if_true, false_and, if_false, Option.getD_some]
      rw [if_pos ⟨hS, hone _ hc⟩, if_pos hlt, tr_one, mulC_ok rfl, Mat.mul_one S _ rfl]
    · rw [getSigma_eq (sameDom_isSome d' hJ) (sameDom_isSome d' hI), f' I J t, f' J I t]
      simp only [hIJ, hIJ.symm, and_self, if_true, false_and, if_false, Option.getD_some]
      rw [if_pos ⟨hone _ hc, hS⟩, if_neg (by omega), tr_one, mulC_ok rfl, Mat.mul_one S _ rfl]
      rfl
    · intro a b t' hne
      apply getSigma_congr d'
      · rw [f' a b t', if_neg (fun x => hne ⟨x.2.2, Or.inl ⟨x.1, x.2.1⟩⟩), if_neg (fun x => hne ⟨x.2.2, Or.inr ⟨x.1, x.2.1⟩⟩)]
      · rw [f' b a t', if_neg (fun x => hne ⟨x.2.2, Or.inr ⟨x.2.1, x.1⟩⟩), if_neg (fun x => hne ⟨x.2.2, Or.inl ⟨x.2.1, x.1⟩⟩)]
  · obtain ⟨h', e, k', d', b', f'⟩ := setSigma_gt hk hgt S t hI hJ (hT I) (hT J)
    have hS' : S.tr.size ≠ 0 := by unfold Mat.size; exact Nat.mul_ne_zero hc hr
    refine ⟨h', e, k'.ordered, d', ?_, ?_, b', ?_⟩
    · rw [getSigma_eq (sameDom_isSome d' hI) (sameDom_isSome d' hJ), f' I J t, f' J I t]
      simp only [hIJ, hIJ.symm, and_self, if_true, false_and, if_false, Option.getD_some]
      rw [if_pos ⟨hone _ hr, hS'⟩, if_neg (by omega), tr_one, mulC_ok rfl, Mat.mul_one S.tr S.rows rfl]
      rfl
    · rw [getSigma_eq (sameDom_isSome d' hJ) (sameDom_isSome d' hI), f' I J t, f' J I t]
      simp only [hIJ, hIJ.symm, and_self, if_true, false_and, if_false, Option.getD_some]
      rw [if_pos ⟨hS', hone _ hr⟩, if_pos hgt, tr_one, mulC_ok rfl, Mat.mul_one S.tr S.rows rfl]
    · intro a b t' hne
      apply getSigma_congr d'
      · rw [f' a b t', if_neg (fun x => hne ⟨x.2.2, Or.inr ⟨x.1, x.2.1⟩⟩), if_neg (fun x => hne ⟨x.2.2, Or.inl ⟨x.1, x.2.1⟩⟩)]
      · rw [f' b a t', if_neg (fun x => hne ⟨x.2.2, Or.inl ⟨x.2.1, x.1⟩⟩), if_neg (fun x => hne ⟨x.2.2, Or.inr ⟨x.2.1, x.1⟩⟩)]

/-- C21, unregistered ID: a null pointer is dereferenced. -/
theorem c21_unregistered (h : Hdl) (I J : ℕ) (hIJ : I ≠ J) (hn : h.find I = none ∨ h.find J = none) (S : Mat) (t : Int) :
    setSigma h I J S t = .ub ∧ getSigma h I J t = .ub := by
  constructor
  · unfold setSigma
    rcases hn with hn | hn
    · split
      · rw [get_unknown hn]; rfl
      · simp only
        cases hj : h.find J with
        | none => rw [get_unknown hj]; rfl
        | some j =>
          rw [get_ok hj, Res.bind_ok, get_unknown (by rw [SMap.find_set, if_neg (fun e => hIJ e.symm)]; exact hn)]; rfl
    · split
      · cases hi : h.find I with
        | none => rw [get_unknown hi]; rfl
        | some i =>
          rw [get_ok hi, Res.bind_ok]
          simp only
          rw [get_unknown (by rw [SMap.find_set, if_neg hIJ]; exact hn)]; rfl
      · simp only
        rw [get_unknown hn]; rfl
  · unfold getSigma
    rcases hn with hn | hn
    · rw [get_unknown hn]; rfl
    · cases hi : h.find I with
      | none => rw [get_unknown hi]; rfl
      | some i => rw [get_ok hi, Res.bind_ok, get_unknown hn]; rfl

/-- One `set_Sigma_IJ_at_t(I, J, S, t)` call. -/
structure SetCall where
  I : ℕ
  J : ℕ
  S : Mat
  t : Int

/-- Specification: what the calls so far (oldest first) leave as the cross-covariance of `a` and `b` at `t`:
the last one of that pair, transposed if it was given the other way round. -/
def lastSet (a b : ℕ) (t : Int) : List SetCall → Option Mat
  | [] => none
  | c :: r =>
    match lastSet a b t r with
    | some S => some S
    | none => if c.t = t ∧ c.I = a ∧ c.J = b then some c.S
      else if c.t = t ∧ c.I = b ∧ c.J = a then some c.S.tr
      else none

/-- The calls in order. -/
def setAll : Hdl → List SetCall → Res Hdl
  | h, [] => .ok h
  | h, c :: r => do
    let h1 ← setSigma h c.I c.J c.S c.t
    setAll h1 r

/-- C21 over any history of calls: the last written value is read, in either order of the IDs; a pair never
written reads as before. -/
theorem c21_history (l : List SetCall) {h : Hdl} (ho : Ordered h)
    (hl : ∀ c ∈ l, c.I ≠ c.J ∧ (h.find c.I).isSome ∧ (h.find c.J).isSome ∧ c.S.size ≠ 0) :
    ∃ h', setAll h l = .ok h' ∧ Ordered h' ∧ (∀ p, (h'.find p).isSome = (h.find p).isSome) ∧
      (∀ p t', belief h' p t' = belief h p t') ∧
      ∀ a b t, getSigma h' a b t = match lastSet a b t l with
        | some S => .ok S
        | none => getSigma h a b t := by
  induction l generalizing h with
  | nil => exact ⟨h, rfl, ho, fun _ => rfl, fun _ _ => rfl, fun _ _ _ => rfl⟩
  | cons c r ih =>
    obtain ⟨c1, c2, c3, c4⟩ := hl c List.mem_cons_self
    obtain ⟨h1, e1, o1, d1, g1, g2, b1, f1⟩ := c21_roundtrip ho c1 c2 c3 c.S c4 c.t
    obtain ⟨h2, e2, o2, d2, b2, f2⟩ := ih o1 (fun x hx => by
      obtain ⟨x1, x2, x3, x4⟩ := hl x (List.mem_cons_of_mem _ hx)
      exact ⟨x1, by rw [d1]; exact x2, by rw [d1]; exact x3, x4⟩)
    refine ⟨h2, by simp only [setAll]; rw [e1, Res.bind_ok, e2], o2, fun p => (d2 p).trans (d1 p), fun p t' => (b2 p t').trans (b1 p t'), ?_⟩
    intro a b t
    rw [f2 a b t]
    simp only [lastSet]
    cases hls : lastSet a b t r with
    | some S => rfl
    | none =>
      simp only
      by_cases h1' : c.t = t ∧ c.I = a ∧ c.J = b
      · rw [if_pos h1']
        obtain ⟨rfl, rfl, rfl⟩ := h1'
        exact g1
      · rw [if_neg h1']
        by_cases h2' : c.t = t ∧ c.I = b ∧ c.J = a
        · rw [if_pos h2']
          obtain ⟨rfl, rfl, rfl⟩ := h2'
          exact g2
        · rw [if_neg h2']
          apply f1
          rintro ⟨x1, ⟨x2, x3⟩ | ⟨x2, x3⟩⟩
          · exact h1' ⟨x1.symm, x2.symm, x3.symm⟩
          · exact h2' ⟨x1.symm, x3.symm, x2.symm⟩

/-- C21, an empty matrix does not keep its shape: it is read as 0 × 0. -/
theorem c21_empty {h : Hdl} (ho : Ordered h) {I J : ℕ} (hIJ : I ≠ J) (hI : (h.find I).isSome) (hJ : (h.find J).isSome)
    (S : Mat) (hS : S.size = 0) (t : Int) :
    ∃ h', setSigma h I J S t = .ok h' ∧ getSigma h' I J t = .ok Mat.empty ∧ getSigma h' J I t = .ok Mat.empty := by
  obtain ⟨T, hk, hT⟩ := ho.hok t
  rcases Nat.lt_or_gt_of_ne hIJ with hlt | hgt
  · obtain ⟨h', e, k', d', b', f'⟩ := setSigma_lt hk hlt S t hI hJ (hT I) (hT J)
    refine ⟨h', e, ?_, ?_⟩
    · rw [getSigma_eq (sameDom_isSome d' hI) (sameDom_isSome d' hJ), f' I J t]
      simp [hS]
    · rw [getSigma_eq (sameDom_isSome d' hJ) (sameDom_isSome d' hI), f' I J t]
      simp [hS]
  · obtain ⟨h', e, k', d', b', f'⟩ := setSigma_gt hk hgt S t hI hJ (hT I) (hT J)
    have hS' : S.tr.size = 0 := by unfold Mat.size at hS ⊢; rw [tr_rows, tr_cols, Nat.mul_comm]; exact hS
    refine ⟨h', e, ?_, ?_⟩
    · rw [getSigma_eq (sameDom_isSome d' hI) (sameDom_isSome d' hJ), f' J I t]
      simp [hS']
    · rw [getSigma_eq (sameDom_isSome d' hJ) (sameDom_isSome d' hI), f' J I t]
      simp [hS']

/-! ## C27 -/

end Hdl

namespace Inst

theorem fac_mapV {i : Inst} (f : Buf Mat → Buf Mat) (J : ℕ) (k : Int) :
    ({ i with ccf := i.ccf.mapV f } : Inst).fac J k = (i.ccf.find J).bind (fun b => (f b).absMap k) := by
  unfold fac
  show (SMap.find (i.ccf.mapV f) J).bind _ = _
  rw [SMap.find_mapV]
  cases i.ccf.find J <;> rfl

/-- C27: `remove_after_t(t)` leaves exactly the beliefs and the factors towards every instance at or before
`t`, in the same order. -/
theorem c27_removeAfter {i : Inst} (ho : i.Ord) (t : Int) :
    (i.removeAfter t).bel = i.bel.filter (fun e => decide (e.1 ≤ t)) ∧
    (∀ t', (i.removeAfter t).beliefAt t' = if t' ≤ t then i.beliefAt t' else none) ∧
    ∀ J t', (i.removeAfter t).getCCF t' J = if t' ≤ t then i.getCCF t' J else Mat.empty := by
  refine ⟨Buf.removeAfter_eq _ ho.bel.sorted t, fun t' => Buf.absMap_removeAfter _ ho.bel t t', ?_⟩
  intro J t'
  rw [getCCF_eq, getCCF_eq]
  have : (i.removeAfter t).fac J t' = if t' ≤ t then i.fac J t' else none := by
    unfold fac
    show (SMap.find (i.ccf.mapV (fun b => b.removeAfter t)) J).bind _ = _
    rw [SMap.find_mapV (fun b => Buf.removeAfter b t)]
    cases hf : i.ccf.find J with
    | none => simp
    | some b => exact Buf.absMap_removeAfter b (ho.buf J b hf) t t'
  rw [this]
  split <;> rfl

/-- C27: `remove_from_t(t)` leaves exactly the beliefs and the factors towards every instance before `t`. -/
theorem c27_removeFrom {i : Inst} (ho : i.Ord) (t : Int) :
    (i.removeFrom t).bel = i.bel.filter (fun e => decide (e.1 < t)) ∧
    (∀ t', (i.removeFrom t).beliefAt t' = if t' < t then i.beliefAt t' else none) ∧
    ∀ J t', (i.removeFrom t).getCCF t' J = if t' < t then i.getCCF t' J else Mat.empty := by
  have key : ∀ {α : Type} (b : Buf α), b.StrictKeys → ∀ t', ((b.removeAfter t).removeAt t).absMap t' = if t' < t then b.absMap t' else none := by
    intro α b hb t'
    rw [Buf.absMap_removeAt _ (Buf.strict_removeAfter b hb t), Buf.absMap_removeAfter b hb]
    by_cases h1 : t' = t
    · simp [h1]
    · rw [if_neg h1]
      by_cases h2 : t' ≤ t
      · rw [if_pos h2, if_pos (by omega)]
      · rw [if_neg h2, if_neg (by omega)]
  refine ⟨?_, fun t' => key _ ho.bel t', ?_⟩
  · show (i.bel.removeAfter t).removeAt t = _
    rw [Buf.removeAfter_eq _ ho.bel.sorted]
    unfold Buf.removeAt
    rw [List.filter_filter]
    apply List.filter_congr
    intro e _
    by_cases h1 : e.1 = t
    · simp [h1]
    · have : (e.1 == t) = false := by simpa using h1
      rw [this]
      simp only [Bool.not_false, Bool.true_and, decide_eq_decide]
      omega
  intro J t'
  rw [getCCF_eq, getCCF_eq]
  have : (i.removeFrom t).fac J t' = if t' < t then i.fac J t' else none := by
    unfold fac
    show (SMap.find (i.ccf.mapV (fun b => (b.removeAfter t).removeAt t)) J).bind _ = _
    rw [SMap.find_mapV (fun b => Buf.removeAt (Buf.removeAfter b t) t)]
    cases hf : i.ccf.find J with
    | none => simp
    | some b => exact key b (ho.buf J b hf) t'
  rw [this]
  split <;> rfl

/-- C27, `reset`: nothing is left. -/
theorem c27_reset (i : Inst) (t : Int) (J : ℕ) : i.reset.bel = [] ∧ i.reset.beliefAt t = none ∧ i.reset.getCCF t J = Mat.empty :=
  ⟨rfl, rfl, rfl⟩

/-- C31, an isolated instance: after `initialize(bel, t)` the given belief at `t` is the only one, and no factor
towards any instance at any time is left. -/
theorem c31_isolated (i : Inst) (b : Belief) (t : Int) :
    (i.doInit b t).bel = [(t, b)] ∧
    (∀ t', (i.doInit b t).beliefAt t' = if t' = t then some b else none) ∧
    (∀ J t', (i.doInit b t).getCCF t' J = Mat.empty) ∧ (i.doInit b t).hor = i.hor := by
  have h1 : (i.doInit b t).bel = [(t, b)] := rfl
  refine ⟨h1, ?_, fun _ _ => rfl, rfl⟩
  intro t'
  have := Buf.absMap_insertMap ([] : Buf Belief) (by constructor) t b t'
  exact this.trans (by split <;> rfl)

theorem Ord.removeAfter {i : Inst} (ho : i.Ord) (t : Int) : (i.removeAfter t).Ord where
  bel := Buf.strict_removeAfter _ ho.bel t
  ccf := ho.ccf.mapV (fun b => Buf.removeAfter b t)
  buf := by
    intro J b hb
    have := SMap.find_mapV (fun b => Buf.removeAfter b t) i.ccf J
    rw [show (i.removeAfter t).ccf.find J = _ from this] at hb
    obtain ⟨b0, h0, rfl⟩ := Option.map_eq_some_iff.mp hb
    exact Buf.strict_removeAfter _ (ho.buf J b0 h0) t

theorem Ord.removeFrom {i : Inst} (ho : i.Ord) (t : Int) : (i.removeFrom t).Ord where
  bel := (Buf.strict_removeAfter _ ho.bel t).filter _
  ccf := ho.ccf.mapV (fun b => Buf.removeAt (Buf.removeAfter b t) t)
  buf := by
    intro J b hb
    have := SMap.find_mapV (fun b => Buf.removeAt (Buf.removeAfter b t) t) i.ccf J
    rw [show (i.removeFrom t).ccf.find J = _ from this] at hb
    obtain ⟨b0, h0, rfl⟩ := Option.map_eq_some_iff.mp hb
    exact (Buf.strict_removeAfter _ (ho.buf J b0 h0) t).filter _

end Inst

namespace Hdl

/-- C27, the handler: `remove_beliefs_after_t(t)` does it for every instance that keeps at least one belief
and leaves the others alone, so no initialised instance loses all its beliefs. -/
theorem c27_handler_after {h : Hdl} (ho : Ordered h) (t : Int) (p : ℕ) (i : Inst) (hi : h.find p = some i) :
    (h.removeBeliefsAfter t).find p = some (if ∃ e ∈ i.bel, e.1 ≤ t then i.removeAfter t else i) ∧
    (i.bel ≠ [] → ∃ j, (h.removeBeliefsAfter t).find p = some j ∧ j.bel ≠ []) := by
  have hb := (ho.inst p i hi).bel
  have e : (i.bel.existAt t || i.bel.existBefore t) = true ↔ ∃ e ∈ i.bel, e.1 ≤ t := by
    rw [Bool.or_eq_true, Buf.existAt_iff, Buf.existBefore_iff _ hb.sorted]
    constructor
    · rintro (⟨e, h1, h2⟩ | ⟨e, h1, h2⟩)
      · exact ⟨e, h1, by omega⟩
      · exact ⟨e, h1, by omega⟩
    · rintro ⟨e, h1, h2⟩
      rcases lt_or_eq_of_le h2 with h3 | h3
      · exact Or.inr ⟨e, h1, h3⟩
      · exact Or.inl ⟨e, h1, h3⟩
  have key : (h.removeBeliefsAfter t).find p = some (if ∃ e ∈ i.bel, e.1 ≤ t then i.removeAfter t else i) := by
    unfold removeBeliefsAfter
    rw [SMap.find_mapV (fun i : Inst => if (i.bel.existAt t || i.bel.existBefore t) = true then i.removeAfter t else i), hi]
    simp only [Option.map_some]
    by_cases hc : ∃ e ∈ i.bel, e.1 ≤ t
    · rw [if_pos hc, if_pos (e.mpr hc)]
    · rw [if_neg hc, if_neg (fun x => hc (e.mp x))]
  refine ⟨key, fun hne => ⟨_, key, ?_⟩⟩
  split
  · rename_i hc
    obtain ⟨x, hx, hxt⟩ := hc
    rw [(Inst.c27_removeAfter (ho.inst p i hi) t).1]
    intro h0
    have : x ∈ i.bel.filter (fun e => decide (e.1 ≤ t)) := List.mem_filter.mpr ⟨hx, by simpa using hxt⟩
    rw [h0] at this; simp at this
  · exact hne

/-- C27, the handler: `remove_beliefs_from_t(t)`. -/
theorem c27_handler_from {h : Hdl} (ho : Ordered h) (t : Int) (p : ℕ) (i : Inst) (hi : h.find p = some i) :
    (h.removeBeliefsFrom t).find p = some (if ∃ e ∈ i.bel, e.1 < t then i.removeFrom t else i) ∧
    (i.bel ≠ [] → ∃ j, (h.removeBeliefsFrom t).find p = some j ∧ j.bel ≠ []) := by
  have hb := (ho.inst p i hi).bel
  have e := Buf.existBefore_iff i.bel hb.sorted t
  have key : (h.removeBeliefsFrom t).find p = some (if ∃ e ∈ i.bel, e.1 < t then i.removeFrom t else i) := by
    unfold removeBeliefsFrom
    rw [SMap.find_mapV (fun i : Inst => if i.bel.existBefore t = true then i.removeFrom t else i), hi]
    simp only [Option.map_some]
    by_cases hc : ∃ e ∈ i.bel, e.1 < t
    · rw [if_pos hc, if_pos (e.mpr hc)]
    · rw [if_neg hc, if_neg (fun x => hc (e.mp x))]
  refine ⟨key, fun hne => ⟨_, key, ?_⟩⟩
  split
  · rename_i hc
    obtain ⟨x, hx, hxt⟩ := hc
    rw [(Inst.c27_removeFrom (ho.inst p i hi) t).1]
    intro h0
    have : x ∈ i.bel.filter (fun e => decide (e.1 < t)) := List.mem_filter.mpr ⟨hx, by simpa using hxt⟩
    rw [h0] at this; simp at this
  · exact hne

/-! ## C25 -/

/-- C25: stacking is symmetric, whatever is stored. -/
theorem c25_stack_symm (h : Hdl) (d : SMap Belief) (t : Int) (S : Mat) (hS : stackSigma h d t = .ok S) : S.tr = S := by
  unfold stackSigma at hS
  cases hM : stackRows h t d d 0 (Mat.zero (getDim d) (getDim d)) with
  | throws => rw [hM] at hS; simp at hS
  | ub => rw [hM] at hS; simp at hS
  | ok M =>
    rw [hM, Res.bind_ok] at hS
    unfold symmetrize at hS
    by_cases hsq : M.rows = M.cols
    · have hsh : M.Shape M.rows M.rows := ⟨rfl, hsq.symm⟩
      have : symmetrize M = .ok (symM M) := symmetrize_ok hsh
      unfold symmetrize at this
      rw [this] at hS
      rw [← Res.ok.inj hS]
      exact symM_tr hsh
    · unfold Mat.addC at hS
      rw [if_neg (by rintro ⟨a, -⟩; exact hsq a)] at hS
      simp at hS

/-- The blocks of the participants that take part (fixed beliefs do not): ID and size, in ID order. -/
def blocks (d : SMap Belief) : List (ℕ × ℕ) := (d.filter (fun e => !e.2.fixed)).map (fun e => (e.1, e.2.dim))

theorem blocks_eq (d : SMap Belief) : blocks d = bdims (unfixed d) := rfl

/-- C25: splitting a symmetric matrix stores every off-diagonal block, for any number of participants and
block sizes; the reads of all other pairs and times, and all beliefs, stay. -/
theorem c25_split {h : Hdl} (ho : Ordered h) {d : SMap Belief} (hd : d.Sorted) (t : Int) {P : Mat}
    (hP : P.Shape (tot (blocks d)) (tot (blocks d))) (hsym : P.tr = P) (hne : blocks d ≠ [])
    (hreg : ∀ p ∈ blocks d, (h.find p.1).isSome) (hpos : ∀ p ∈ blocks d, 0 < p.2) :
    ∃ h', splitRightUpper P d t h = .ok h' ∧ Ordered h' ∧ (∀ p, (h'.find p).isSome = (h.find p).isSome) ∧
      (∀ p ∈ blocks d, ∀ q ∈ blocks d, p.1 ≠ q.1 →
        getSigma h' p.1 q.1 t = .ok (P.block (off (blocks d) p.1) (off (blocks d) q.1) p.2 q.2)) ∧
      (∀ p t', belief h' p t' = belief h p t') ∧
      ∀ a b t', ¬ (t' = t ∧ a ≠ b ∧ a ∈ (blocks d).map (·.1) ∧ b ∈ (blocks d).map (·.1)) → getSigma h' a b t' = getSigma h a b t' := by
  obtain ⟨T, hk, hT⟩ := ho.hok t
  have hs : (blocks d).Pairwise (fun a b => a.1 < b.1) := by
    rw [blocks_eq]; unfold bdims
    rw [List.pairwise_map]
    exact unfixed_sorted hd
  obtain ⟨h', e, k', d', b', f1, f2, f3⟩ := splitRows_spec hs hP (fun p _ => hT p.1) (blocks d) [] rfl h hk hreg
  refine ⟨h', ?_, k'.ordered, d', ?_, b', ?_⟩
  · unfold splitRightUpper
    rw [if_neg (by simpa [blocks, unfixed] using hne)]
    exact e
  · intro p hp q hq hpq
    have hp' := sameDom_isSome d' (hreg p hp)
    have hq' := sameDom_isSome d' (hreg q hq)
    have z : ∀ a b c e, a ≠ 0 → b ≠ 0 → (P.block c e a b).size ≠ 0 := fun a b _ _ h1 h2 => Nat.mul_ne_zero h1 h2
    have z1 : ∀ n, n ≠ 0 → (one n).size ≠ 0 := fun n hn => Nat.mul_ne_zero hn hn
    have p0 := (hpos p hp).ne'
    have q0 := (hpos q hq).ne'
    rw [getSigma_eq hp' hq']
    rcases Nat.lt_or_gt_of_ne hpq with hlt | hgt
    · rw [f1 p hp q hq hlt, f2 p hp q hq hlt]
      simp only [Option.getD_some]
      rw [if_pos ⟨z _ _ _ _ p0 q0, z1 _ q0⟩, if_pos hlt, tr_one, mulC_ok rfl, Mat.mul_one (P.block _ _ p.2 q.2) q.2 rfl]
    · rw [f1 q hq p hp hgt, f2 q hq p hp hgt]
      simp only [Option.getD_some]
      rw [if_pos ⟨z1 _ p0, z _ _ _ _ q0 p0⟩, if_neg (by omega), tr_one, mulC_ok rfl, Mat.mul_one (P.block _ _ q.2 p.2) p.2 rfl, Res.bind_ok, block_tr hsym]
  · intro a b t' hn
    apply getSigma_congr d'
    · exact f3 a b t' hn
    · exact f3 b a t' (fun x => hn ⟨x.1, x.2.1.symm, x.2.2.2, x.2.2.1⟩)

theorem blocks_nodup {d : SMap Belief} (hd : d.Sorted) : ((blocks d).map (·.1)).Nodup := by
  rw [blocks_eq, bdims_keys]; exact Sorted.nodup (unfixed_sorted hd)

/-- C25: splitting and stacking again gives back the matrix (the beliefs carry the diagonal blocks, as
after `correct_beliefs_implace`). -/
theorem c25_split_stack {h h' : Hdl} (ho : Ordered h) {d d' : SMap Belief} (hd : d.Sorted) (t : Int) {P : Mat}
    (hP : P.Shape (tot (blocks d)) (tot (blocks d))) (hsym : P.tr = P) (hne : blocks d ≠ [])
    (hreg : ∀ p ∈ blocks d, (h.find p.1).isSome) (hpos : ∀ p ∈ blocks d, 0 < p.2)
    (hs : splitRightUpper P d t h = .ok h') (hd' : d'.Sorted) (hb : blocks d' = blocks d)
    (hdiag : ∀ e ∈ d', e.2.fixed = false →
      e.2.Sigma = P.block (off (blocks d) e.1) (off (blocks d) e.1) e.2.dim e.2.dim) :
    stackSigma h' d' t = .ok P := by
  obtain ⟨h1, e1, -, -, g, -, -⟩ := c25_split ho hd t hP hsym hne hreg hpos
  rw [hs] at e1
  obtain rfl := Res.ok.inj e1
  let dm : ℕ → ℕ := fun p => ((blocks d).lookup p).getD 0
  let C : ℕ → ℕ → Mat := fun p q => P.block (off (blocks d) p) (off (blocks d) q) (dm p) (dm q)
  have hn := blocks_nodup hd
  have hdm : ∀ p ∈ blocks d, dm p.1 = p.2 := fun p hp => by simp only [dm]; rw [lookup_of_mem hn hp]; rfl
  have hmem : ∀ e ∈ unfixed d', (e.1, e.2.dim) ∈ blocks d := fun e he => by
    rw [← hb]; exact List.mem_map.mpr ⟨e, he, rfl⟩
  have hdm' : ∀ e ∈ unfixed d', dm e.1 = e.2.dim := fun e he => hdm _ (hmem e he)
  have hC : CovOf h' t (unfixed d') C := by
    refine ⟨?_, ?_, ?_, ?_⟩
    · intro e he
      rw [hdiag e (mem_unfixed.mp he).1 (mem_unfixed.mp he).2]
      simp only [C]
      rw [hdm' e he]
    · intro a ha b hb'
      simp only [C]
      rw [hdm' a ha, hdm' b hb']
      exact ⟨rfl, rfl⟩
    · intro a ha b hb'
      exact (block_tr hsym _ _ _ _).symm
    · intro a ha b hb' hab
      refine ⟨C a.1 b.1, ?_, Or.inl ⟨?_, rfl⟩⟩
      · have := g _ (hmem a ha) _ (hmem b hb') (by simp only; omega)
        simp only at this
        simp only [C]
        rw [hdm' a ha, hdm' b hb']
        exact this
      · simp only [C]
        rw [hdm' a ha, hdm' b hb']
        exact Nat.mul_ne_zero (hpos _ (hmem a ha)).ne' (hpos _ (hmem b hb')).ne'
  obtain ⟨S, h2, h3⟩ := stackSigma_spec d' hd' hC
  rw [h2]
  congr 1
  rw [← blocks_eq, hb] at h3
  refine stacked_unique hn h3 ⟨hP, ?_⟩
  intro p hp q hq i hi j hj
  simp only [C]
  rw [hdm p hp, hdm q hq, block_e, if_pos ⟨hi, hj⟩]

/-- C25: stacking and splitting again leaves every cross-covariance as it was (a missing one becomes a
stored zero), and every diagonal block of the stack is the covariance of its belief. -/
theorem c25_stack_split {h : Hdl} (ho : Ordered h) {d : SMap Belief} (hd : d.Sorted) (t : Int) (hne : blocks d ≠ [])
    (hreg : ∀ p ∈ blocks d, (h.find p.1).isSome) (hpos : ∀ p ∈ blocks d, 0 < p.2)
    (hown : ∀ e ∈ d, e.2.fixed = false → e.2.Sigma.tr = e.2.Sigma)
    (X : ℕ → ℕ → Mat) (hX : ∀ p ∈ blocks d, ∀ q ∈ blocks d, p.1 < q.1 → getSigma h p.1 q.1 t = .ok (X p.1 q.1) ∧
      ((X p.1 q.1).Shape p.2 q.2 ∨ (X p.1 q.1).size = 0)) :
    ∃ S h', stackSigma h d t = .ok S ∧ splitRightUpper S d t h = .ok h' ∧
      (∀ e ∈ d, e.2.fixed = false → S.block (off (blocks d) e.1) (off (blocks d) e.1) e.2.dim e.2.dim = e.2.Sigma) ∧
      (∀ p ∈ blocks d, ∀ q ∈ blocks d, p.1 < q.1 →
        getSigma h' p.1 q.1 t = .ok (if (X p.1 q.1).size = 0 then Mat.zero p.2 q.2 else X p.1 q.1)) := by
  have hn := blocks_nodup hd
  have hn2 : ((unfixed d).map (·.1)).Nodup := Sorted.nodup (unfixed_sorted hd)
  let dm : ℕ → ℕ := fun p => ((blocks d).lookup p).getD 0
  let Y : ℕ → ℕ → Mat := fun p q => if (X p q).size = 0 then Mat.zero (dm p) (dm q) else X p q
  let C : ℕ → ℕ → Mat := fun p q =>
    if p = q then ((unfixed d).find p |>.map (·.Sigma)).getD Mat.empty
    else if p < q then Y p q else (Y q p).tr
  have hdm : ∀ p ∈ blocks d, dm p.1 = p.2 := fun p hp => by simp only [dm]; rw [lookup_of_mem hn hp]; rfl
  have hmem : ∀ e ∈ unfixed d, (e.1, e.2.dim) ∈ blocks d := fun e he => List.mem_map.mpr ⟨e, he, rfl⟩
  have hCself : ∀ e ∈ unfixed d, C e.1 e.1 = e.2.Sigma := by
    intro e he
    simp only [C, if_true]
    rw [(SMap.find_eq_some (unfixed_sorted hd) e.1 e.2).mpr he]; rfl
  have hY : ∀ p ∈ blocks d, ∀ q ∈ blocks d, p.1 < q.1 → (Y p.1 q.1).Shape p.2 q.2 := by
    intro p hp q hq hpq
    simp only [Y]
    split
    · rw [hdm p hp, hdm q hq]; exact ⟨rfl, rfl⟩
    · rename_i hx
      rcases (hX p hp q hq hpq).2 with h1 | h1
      · exact h1
      · exact absurd h1 hx
  have hSig : ∀ e ∈ unfixed d, e.2.Sigma.Shape e.2.dim e.2.dim := by
    intro e he
    have := hown e (mem_unfixed.mp he).1 (mem_unfixed.mp he).2
    exact ⟨rfl, by rw [← tr_rows, this]; rfl⟩
  have hC : CovOf h t (unfixed d) C := by
    refine ⟨fun e he => (hCself e he).symm, ?_, ?_, ?_⟩
    · intro a ha b hb
      by_cases hab : a.1 = b.1
      · have : a = b := List.inj_on_of_nodup_map hn2 ha hb hab
        subst this
        rw [hCself a ha]; exact hSig a ha
      · simp only [C]; rw [if_neg hab]
        by_cases hl : a.1 < b.1
        · rw [if_pos hl]; exact hY _ (hmem a ha) _ (hmem b hb) hl
        · rw [if_neg hl]; exact (hY _ (hmem b hb) _ (hmem a ha) (by simp only; omega)).tr
    · intro a ha b hb
      by_cases hab : a.1 = b.1
      · have : a = b := List.inj_on_of_nodup_map hn2 ha hb hab
        subst this
        rw [hCself a ha]; exact (hown a (mem_unfixed.mp ha).1 (mem_unfixed.mp ha).2).symm
      · simp only [C]; rw [if_neg hab, if_neg (fun e => hab e.symm)]
        by_cases hl : a.1 < b.1
        · rw [if_pos hl, if_neg (by omega)]
        · rw [if_neg hl, if_pos (by omega)]; rfl
    · intro a ha b hb hab
      obtain ⟨g1, g2⟩ := hX _ (hmem a ha) _ (hmem b hb) hab
      refine ⟨_, g1, ?_⟩
      have e1 : C a.1 b.1 = Y a.1 b.1 := by simp only [C]; rw [if_neg (by omega), if_pos hab]
      rw [e1]
      by_cases hx : (X a.1 b.1).size = 0
      · right
        refine ⟨hx, fun i j => ?_⟩
        simp only [Y]; rw [if_pos hx, zero_e]
      · left
        rcases g2 with g2 | g2
        · refine ⟨?_, by simp only [Y]; rw [if_neg hx]⟩
          unfold Mat.size
          simp only at g2
          rw [g2.1, g2.2]
          exact Nat.mul_ne_zero (hpos _ (hmem a ha)).ne' (hpos _ (hmem b hb)).ne'
        · exact absurd g2 hx
  obtain ⟨S, h2, h3⟩ := stackSigma_spec d hd hC
  rw [← blocks_eq] at h3
  have hblk : ∀ p ∈ blocks d, ∀ q ∈ blocks d, (C p.1 q.1).Shape p.2 q.2 →
      S.block (off (blocks d) p.1) (off (blocks d) q.1) p.2 q.2 = C p.1 q.1 := by
    intro p hp q hq hsh
    refine Mat.ext' hsh.1.symm hsh.2.symm ?_
    intro i j hi hj
    rw [block_e, if_pos ⟨hi, hj⟩, h3.2 p hp q hq i hi j hj]
  obtain ⟨h', e1, -, -, g, -, -⟩ := c25_split ho hd t h3.1 (c25_stack_symm h d t S h2) hne hreg hpos
  refine ⟨S, h', h2, e1, ?_, ?_⟩
  · intro e he hf
    have hm := mem_unfixed.mpr ⟨he, hf⟩
    have := hblk _ (hmem e hm) _ (hmem e hm) (by rw [hCself e hm]; exact hSig e hm)
    simp only at this
    rw [this, hCself e hm]
  · intro p hp q hq hpq
    have e2 : C p.1 q.1 = Y p.1 q.1 := by simp only [C]; rw [if_neg (by omega), if_pos hpq]
    rw [g p hp q hq (by omega), hblk p hp q hq (by rw [e2]; exact hY p hp q hq hpq), e2]
    simp only [Y]
    rw [hdm p hp, hdm q hq]

end Hdl
end Ikf
