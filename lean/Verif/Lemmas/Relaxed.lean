import Verif.Props.MultiAgent
import Verif.Model.CollabRedo
import Verif.Props.Convergence

/-!
# Order strategy RELAXED: the invariant

As Lemmas/HandlerInv and Props/Convergence, with the weaker order in which only propagations come first among measurements of
equal time.
-/

namespace Ikf
open Handler
variable {W P : Type _}

/-- Earlier, or of equal time and not an observation before a propagation. -/
def Meas.beforeR (a b : Meas P) : Prop := a.t < b.t ∨ (a.t = b.t ∧ (b.kind = .propagation → a.kind = .propagation))

/-- Sorted in that sense. -/
def ROrd (b : Buf (Meas P)) : Prop := b.Pairwise (fun x y => x.2.beforeR y.2)

theorem Meas.before.relax {a b : Meas P} (h : a.before b) : a.beforeR b := by
  rcases h with h | ⟨h1, h2⟩
  · exact Or.inl h
  · refine Or.inr ⟨h1, fun hb => ?_⟩
    rw [hb] at h2
    cases ha : a.kind <;> rw [ha] at h2 <;> simp [ObsType.prio] at h2 ⊢

theorem POrd.relax {b : Buf (Meas P)} (h : POrd b) : ROrd b := List.Pairwise.imp (fun h => h.relax) h
theorem ROrd.filter {b : Buf (Meas P)} (h : ROrd b) (p) : ROrd (b.filter p) := List.Pairwise.filter p h

theorem ROrd.sorted {b : Buf (Meas P)} (h : ROrd b) (hk : Keyed b) : b.SortedKeys := by
  unfold ROrd at h; unfold Buf.SortedKeys
  refine List.Pairwise.imp_of_mem ?_ h
  intro x y hx hy hb
  rw [hk x hx, hk y hy]
  rcases hb with h | h
  · exact h.le
  · exact h.1.le

theorem rord_of_groups (b : Buf (Meas P)) (hs : b.SortedKeys) (hk : Keyed b)
    (hg : ∀ k, ROrd (b.filter (fun e => e.1 == k))) : ROrd b := by
  induction b with
  | nil => exact List.Pairwise.nil
  | cons x r ih =>
    have hs' : Buf.SortedKeys r := by
      unfold Buf.SortedKeys at hs ⊢; exact (List.pairwise_cons.mp hs).2
    unfold ROrd
    rw [List.pairwise_cons]
    constructor
    · intro y hy
      have hle : x.1 ≤ y.1 := by
        unfold Buf.SortedKeys at hs; exact (List.pairwise_cons.mp hs).1 y hy
      rcases lt_or_eq_of_le hle with h | h
      · left; rw [← hk x (by simp), ← hk y (by simp [hy])]; exact h
      · have := hg x.1
        unfold ROrd at this
        rw [List.filter_cons_of_pos (by simp), List.pairwise_cons] at this
        exact this.1 y (List.mem_filter.mpr ⟨hy, by simp [h]⟩)
    · refine ih hs' (fun e he => hk e (by simp [he])) (fun k => ?_)
      have := hg k
      by_cases hxk : x.1 = k
      · rw [List.filter_cons_of_pos (by simp [hxk])] at this
        exact (List.pairwise_cons.mp this).2
      · rwa [List.filter_cons_of_neg (by simp [hxk])] at this

theorem rord_sortFrom (b : Buf (Meas P)) (hs : b.SortedKeys) (hk : Keyed b) (hn : Known b) (t : Int)
    (hp : ROrd (b.filter (fun e => decide (e.1 < t)))) : ROrd (Handler.sortFrom b t) := by
  obtain ⟨h1, h2, h3, h4, h5⟩ := sortFrom_spec b hs hk hn t
  -- from `t` on it is sorted by priority, before `t` nothing changed
  have hhi : POrd (Handler.sortFrom (b.filter (fun e => decide (t ≤ e.1))) t) := by
    refine pord_sortFrom _ (List.Pairwise.filter _ hs) (hk.filter _) (hn.filter _) t ?_
    rw [List.filter_filter]
    have : b.filter (fun e => decide (e.1 < t) && decide (t ≤ e.1)) = [] := by
      rw [List.filter_eq_nil_iff]; intro e _; simp
    rw [this]; exact List.Pairwise.nil
  obtain ⟨_, g2, _, _, g5⟩ := sortFrom_spec (b.filter (fun e => decide (t ≤ e.1))) (List.Pairwise.filter _ hs) (hk.filter _) (hn.filter _) t
  refine rord_of_groups _ h1 h2 (fun k => ?_)
  by_cases hkt : k < t
  · rw [h4 k hkt]
    have := hp.filter (fun e => e.1 == k)
    rw [List.filter_filter] at this
    have e : b.filter (fun e => e.1 == k && decide (e.1 < t)) = b.filter (fun e => e.1 == k) := by
      apply List.filter_congr; intro x _
      by_cases hx : x.1 = k <;> simp [hx, hkt]
    rwa [e] at this
  · rw [h5 k (by omega)]
    have := (hhi.filter (fun e => e.1 == k)).relax
    rw [g5 k (by omega)] at this
    simp only [cls_filter_key b (fun x => decide (t ≤ x))] at this
    simpa [show t ≤ k by omega] using this

/-- `D ++ b` is a time-ordered arrangement of the arrivals `A` with propagations first among those of equal time; `D` has been
trimmed, `b` is stored. -/
structure RInv (fp : FP) (max : ℚ) (A : List (Meas P)) (D b : Buf (Meas P)) : Prop where
  pord : ROrd (D ++ b)
  keyed : Keyed (D ++ b)
  known : Known (D ++ b)
  cls : ∀ k K, cls (D ++ b) k K = cls (asStored A) k K
  below : ∀ d ∈ D, ∀ e ∈ b, d.1 < e.1
  trimmed : Trimmed fp max b
  empty : b = [] → D = []
  range : ∀ e ∈ D ++ b, 0 ≤ e.1 ∧ e.1 ≤ 9223372036854775807

theorem RInv.nil (fp : FP) (max : ℚ) : RInv fp max ([] : List (Meas P)) [] [] := by
  have := MInv.nil (P := P) fp max
  exact ⟨this.pord.relax, this.keyed, this.known, this.cls, this.below, this.trimmed, this.empty, this.range⟩

/-- One accepted arrival: insert, trim, sort from any time not after the arrival. -/
theorem RInv.step {fp : FP} {max : ℚ} (hmax : 0 ≤ max) {A : List (Meas P)} {D b : Buf (Meas P)}
    (hI : RInv fp max A D b) (m : Meas P) (hm : m.kind ≠ .unknown) (hr0 : 0 ≤ m.t)
    (hr1 : m.t ≤ 9223372036854775807) (hold : ∀ o, b.head? = some o → o.1 < m.t)
    (ts : Int) (hts : ts ≤ m.t) :
    ∃ X, Buf.insertMulti b m.t m = X ++ Buf.checkHorizon fp max (Buf.insertMulti b m.t m) ∧
      (∀ x ∈ X, x.1 < m.t) ∧
      RInv fp max (A ++ [m]) (D ++ X)
        (Handler.sortFrom (Buf.checkHorizon fp max (Buf.insertMulti b m.t m)) ts) ∧
      (ROrd (Buf.insertMulti b m.t m) → RInv fp max (A ++ [m]) (D ++ X) (Buf.checkHorizon fp max (Buf.insertMulti b m.t m))) := by
  have kb : Keyed b := fun e he => hI.keyed e (by simp [he])
  have nb : Known b := fun e he => hI.known e (by simp [he])
  have pb : ROrd b := List.Pairwise.sublist (List.sublist_append_right D b) hI.pord
  have sb := pb.sorted kb
  obtain ⟨X, h1, h2, h3, h4⟩ := insert_trim_split fp max hmax b sb hI.trimmed m hold
  refine ⟨X, h1, h2, ?_⟩
  set c := Buf.checkHorizon fp max (Buf.insertMulti b m.t m) with hc
  have hs' := Buf.sorted_insertMulti b sb m.t m
  have hk' := keyed_insertMulti b kb m
  have hn' := known_insertMulti b nb m hm
  have csub : ∀ e ∈ c, e ∈ Buf.insertMulti b m.t m := by
    intro e he; rw [h1]; simp [he]
  have xsub : ∀ e ∈ X, e ∈ Buf.insertMulti b m.t m := by
    intro e he; rw [h1]; simp [he]
  have sc : Buf.SortedKeys c := by
    unfold Buf.SortedKeys at hs' ⊢; rw [h1] at hs'
    exact List.Pairwise.sublist (List.sublist_append_right X c) hs'
  have kc : Keyed c := fun e he => hk' e (csub e he)
  have nc : Known c := fun e he => hn' e (csub e he)
  have xb : ∀ x ∈ X, x ∈ b := by
    intro x hx
    have := xsub x hx
    rw [Buf.mem_insertMulti] at this
    rcases this with rfl | h
    · have := h2 _ hx; simp at this
    · exact h
  -- X and the part of c before ts consist of old elements in old order
  have hpre : ∀ t', t' ≤ m.t → (Buf.insertMulti b m.t m).filter (fun e => decide (e.1 < t')) =
      b.filter (fun e => decide (e.1 < t')) := by
    intro t' ht'
    rw [Buf.insertMulti_eq, List.filter_append]
    have hb : b = b.belowUB m.t ++ b.upperBound m.t := by
      unfold Buf.belowUB Buf.upperBound; exact (List.takeWhile_append_dropWhile).symm
    conv_rhs => rw [hb, List.filter_append]
    rw [List.filter_cons_of_neg (by simp; omega)]
  have pcts : ROrd (c.filter (fun e => decide (e.1 < ts))) := by
    have : (c.filter (fun e => decide (e.1 < ts))).Sublist
        ((Buf.insertMulti b m.t m).filter (fun e => decide (e.1 < ts))) := by
      conv_rhs => rw [h1]
      exact (List.sublist_append_right X c).filter _
    rw [hpre ts hts] at this
    exact List.Pairwise.sublist this (pb.filter _)
  have hXeq : X.Sublist (b.filter (fun e => decide (e.1 < m.t))) := by
    rw [← hpre m.t le_rfl]
    conv_rhs => rw [h1]
    rw [List.filter_append]
    have : X.filter (fun e => decide (e.1 < m.t)) = X := by
      rw [List.filter_eq_self]; intro e he; simpa using h2 e he
    rw [this]; exact List.sublist_append_left _ _
  have pX : ROrd X := List.Pairwise.sublist hXeq (pb.filter _)
  have hDm : ∀ d ∈ D, d.1 < m.t := by
    intro d hd
    by_cases hbe : b = []
    · rw [hI.empty hbe] at hd; simp at hd
    · obtain ⟨o, _, ho, _⟩ := head_last_of_ne b hbe
      have := hI.below d hd o (List.mem_of_head? ho)
      have := hold o ho
      omega
  have hDc : ∀ d ∈ D, ∀ e ∈ c, d.1 < e.1 := by
    intro d hd e he
    have := csub e he
    rw [Buf.mem_insertMulti] at this
    rcases this with rfl | h
    · exact hDm d hd
    · exact hI.below d hd e h
  have hDXc : ∀ d ∈ D ++ X, ∀ e ∈ c, d.1 < e.1 := by
    intro d hd e he
    rcases List.mem_append.mp hd with hd | hd
    · exact hDc d hd e he
    · exact h3 d hd e he
  have kDX : Keyed (D ++ X) := by
    intro e he
    rcases List.mem_append.mp he with he | he
    · exact hI.keyed e (by simp [he])
    · exact kb e (xb e he)
  have pDX : ROrd (D ++ X) :=
    List.Pairwise.sublist ((hXeq.trans List.filter_sublist).append_left D) hI.pord
  have fin : ∀ R : Buf (Meas P), Keyed R → Known R → ROrd R → (∀ k K, K ≠ .unknown → Ikf.cls R k K = Ikf.cls c k K) →
      R.map (·.1) = c.map (·.1) → RInv fp max (A ++ [m]) (D ++ X) R := by
    intro R q2 q3 pR hcls hkeys
    have hperm : R.Perm c := perm_of_cls _ _ q3 nc hcls
    refine ⟨?_, ?_, ?_, ?_, ?_, ?_, ?_, ?_⟩
    · unfold ROrd
      rw [List.pairwise_append]
      refine ⟨pDX, pR, ?_⟩
      intro d hd e he
      left
      rw [← kDX d hd, ← q2 e he]
      exact hDXc d hd e (hperm.subset he)
    · intro e he
      rcases List.mem_append.mp he with he | he
      · exact kDX e he
      · exact q2 e he
    · intro e he
      rcases List.mem_append.mp he with he | he
      · rcases List.mem_append.mp he with he | he
        · exact hI.known e (by simp [he])
        · exact nb e (xb e he)
      · exact q3 e he
    · intro k K
      by_cases hK : K = .unknown
      · subst hK
        have hz : ∀ L : Buf (Meas P), Known L → Ikf.cls L k .unknown = [] := by
          intro L hL
          unfold Ikf.cls
          rw [List.filter_eq_nil_iff]
          intro e he hc'
          simp at hc'
          exact hL e he hc'.2
        have hA : Ikf.cls (asStored A) k .unknown = [] := by
          rw [← hI.cls]; exact hz _ hI.known
        have hA' : Ikf.cls (asStored (A ++ [m])) k .unknown = [] := by
          unfold asStored at hA ⊢
          rw [List.map_append]
          unfold Ikf.cls at hA ⊢
          rw [List.filter_append, hA]
          simp [hm]
        rw [hA']
        apply hz
        intro e he
        rcases List.mem_append.mp he with he | he
        · rcases List.mem_append.mp he with he | he
          · exact hI.known e (by simp [he])
          · exact nb e (xb e he)
        · exact q3 e he
      · have e1 : Ikf.cls (D ++ X ++ R) k K = Ikf.cls D k K ++ (Ikf.cls X k K ++ Ikf.cls c k K) := by
          have := hcls k K hK
          unfold Ikf.cls at this ⊢
          rw [List.filter_append, List.filter_append, this, List.append_assoc]
        have e2 : Ikf.cls X k K ++ Ikf.cls c k K = Ikf.cls (Buf.insertMulti b m.t m) k K := by
          conv_rhs => rw [h1]
          unfold Ikf.cls; rw [List.filter_append]
        have e3 : Ikf.cls D k K ++ Ikf.cls b k K = Ikf.cls (asStored A) k K := by
          rw [← hI.cls]; unfold Ikf.cls; rw [List.filter_append]
        rw [e1, e2, cls_insertMulti b sb, ← List.append_assoc, e3]
        unfold asStored
        rw [List.map_append]
        unfold Ikf.cls
        rw [List.filter_append]
        congr 1
        by_cases hc1 : m.t = k ∧ m.kind = K
        · simp [hc1]
        · rw [if_neg hc1]; symm; rw [List.filter_eq_nil_iff]
          intro e he; simp at he; subst he
          simpa using hc1
    · intro d hd e he; exact hDXc d hd e (hperm.subset he)
    · exact trimmed_congr fp max c R hkeys.symm h4
    · intro hRe
      have hce : c = [] := by
        have := hperm.length_eq
        rw [hRe] at this
        exact List.length_eq_zero_iff.mp this.symm
      exfalso
      have hne : Buf.insertMulti b m.t m ≠ [] :=
        List.ne_nil_of_mem ((Buf.mem_insertMulti b m.t m _).mpr (Or.inl rfl))
      have hlast := (c15_newest_kept fp max (Buf.insertMulti b m.t m)).1
      rw [← hc, hce] at hlast
      exact hne (List.getLast?_eq_none_iff.mp hlast.symm)
    · intro e he
      have : e ∈ D ++ b ∨ e = (m.t, m) := by
        rcases List.mem_append.mp he with he | he
        · rcases List.mem_append.mp he with he | he
          · left; simp [he]
          · left; simp [xb e he]
        · have := csub e (hperm.subset he)
          rw [Buf.mem_insertMulti] at this
          rcases this with h | h
          · right; exact h
          · left; simp [h]
      rcases this with h | rfl
      · exact hI.range e h
      · exact ⟨hr0, hr1⟩
  constructor
  · obtain ⟨q1, q2, q3, q4, q5⟩ := sortFrom_spec c sc kc nc ts
    exact fin _ q2 q3 (rord_sortFrom c sc kc nc ts pcts) (fun k K hK => cls_sortFrom c sc kc nc ts k K hK) (keys_sortFrom c sc kc nc ts)
  · intro hi
    have : c.Sublist (Buf.insertMulti b m.t m) := by
      conv_rhs => rw [h1]
      exact List.sublist_append_right _ _
    exact fin c kc nc (List.Pairwise.sublist this hi) (fun _ _ _ => rfl) rfl

/-- Without order violation, inserting keeps the order. -/
theorem rord_insert_of_not_violated (o : Names.OrderStrategy) (b : Buf (Meas P)) (pb : ROrd b) (kb : Keyed b) (nb : Known b)
    (m : Meas P) (hm : m.kind ≠ .unknown) (hv : Agents.orderViolated o b m = false) :
    Buf.insertMulti b m.t m = b ++ [(m.t, m)] ∧ ROrd (b ++ [(m.t, m)]) := by
  have hrel : Agents.orderViolated .relaxed b m = false := by
    cases o with
    | relaxed => exact hv
    | strict =>
      cases hx : Agents.orderViolated .relaxed b m with
      | false => rfl
      | true => rw [(Agents.c47_relaxed_strict b m).1 hx] at hv; exact hv
  have hno : ¬ ((∃ e ∈ b, m.t < e.2.t) ∨
      (m.kind = .propagation ∧ ∃ e ∈ b, e.2.t = m.t ∧ (e.2.kind = .priv ∨ e.2.kind = .joint))) := by
    intro hc
    rw [(Agents.c47_relaxed_iff b (pb.sorted kb) kb m).mpr hc] at hrel
    simp at hrel
  push Not at hno
  obtain ⟨n1, n2⟩ := hno
  refine ⟨insertMulti_last b m.t m ?_, ?_⟩
  · intro e he; rw [kb e he]; exact n1 e he
  · unfold ROrd
    rw [List.pairwise_append]
    refine ⟨pb, by simp, ?_⟩
    intro x hx y hy
    simp at hy; subst hy
    unfold Meas.beforeR
    simp only
    rcases lt_or_eq_of_le (n1 x hx) with h | h
    · exact Or.inl h
    · refine Or.inr ⟨h, fun hp => ?_⟩
      have h2 := n2 hp x hx h
      have h3 := nb x hx
      cases hxk : x.2.kind <;> simp_all

/-- The chronological order under RELAXED: a permutation, in order of time, propagations first among those of equal time, those of equal
time and type in the order given. -/
def TimeOrdered (A L : List (Meas P)) : Prop :=
  L.Perm A ∧ L.Pairwise Meas.beforeR ∧ ∀ t K, ofClass L t K = ofClass A t K

theorem RInv.chronological {fp : FP} {max : ℚ} {A : List (Meas P)} {D b : Buf (Meas P)}
    (hI : RInv fp max A D b) : TimeOrdered A ((D ++ b).map (·.2)) := by
  have hc : ∀ t K, ofClass ((D ++ b).map (·.2)) t K = ofClass A t K := by
    intro t K
    rw [ofClass_map_snd _ hI.keyed, hI.cls, cls_asStored]
  refine ⟨perm_of_classes _ _ hc, ?_, hc⟩
  rw [List.pairwise_map]; exact hI.pord

structure RConv (fp : FP) (S : Insts W P) (w0 : W) (ok : Meas P → Prop) (A : List (Meas P))
    (D : Buf (Meas P)) (h : HState W P) : Prop where
  ooo : h.ooo = []
  max : 0 ≤ h.hMeas
  inv : RInv fp h.hMeas A D h.meas
  w : h.w = runAll S w0 ((D ++ h.meas).map (·.2))
  ok : ∀ m ∈ A, ok m

section
variable {fp : FP} {S : Insts W P} {w0 : W} {ok : Meas P → Prop} {A : List (Meas P)} {D : Buf (Meas P)}
  {h : HState W P}

theorem RConv.okAll (c : RConv fp S w0 ok A D h) : ∀ m ∈ (D ++ h.meas).map (·.2), ok m := by
  intro m hm; exact c.ok m (c.inv.chronological.1.subset hm)

theorem RConv.known (c : RConv fp S w0 ok A D h) (hS : WellBehavedBy Meas.beforeR S w0 ok) (id : Nat) :
    S.known h.w id = S.known w0 id := by
  rw [c.w]; exact hS.known _ c.inv.chronological.2.1 c.okAll id

theorem RConv.sorted (c : RConv fp S w0 ok A D h) : h.meas.SortedKeys := by
  have := c.inv.pord.sorted c.inv.keyed
  exact List.Pairwise.sublist (List.sublist_append_right D h.meas) this

/-- A redo is a no-op. -/
theorem RConv.redoFrom_noop (c : RConv fp S w0 ok A D h) (hS : WellBehavedBy Meas.beforeR S w0 ok) (t : Int)
    (o : Int × Meas P) (ho : h.meas.head? = some o) (hot : o.1 < t) : (redoFrom S h t).1 = h := by
  have hs := c.sorted
  obtain ⟨_, l, _, hl⟩ := head_last_of_ne h.meas (by intro hc; rw [hc] at ho; simp at ho)
  have hlat : h.meas.latest = some l := hl
  have hsp := split_lt h.meas hs t
  set b1 := h.meas.filter (fun e => decide (e.1 < t)) with hb1
  set b2 := h.meas.filter (fun e => decide (t ≤ e.1)) with hb2
  have hall : (D ++ h.meas).map (·.2) = (D ++ b1).map (·.2) ++ b2.map (·.2) := by
    conv_lhs => rw [hsp]
    simp
  have hp := c.inv.chronological.2.1
  have hok := c.okAll
  have hw := c.w
  rw [hall] at hp hok hw
  have hom := List.mem_of_head? ho
  have hundo : S.removeFrom h.w t = runAll S w0 ((D ++ b1).map (·.2)) := by
    rw [hw]
    apply hS.undoFrom _ _ t hp hok
    · apply List.ne_nil_of_mem (a := o.2)
      rw [List.mem_map]
      exact ⟨o, by simp [hb1, hom, hot], rfl⟩
    · intro m hm
      obtain ⟨e, he, rfl⟩ := List.mem_map.mp hm
      rcases List.mem_append.mp he with he | he
      · rw [← c.inv.keyed e (by simp [he])]
        have := c.inv.below e he o hom
        omega
      · have he' := List.mem_filter.mp he
        rw [← c.inv.keyed e (by simp [he'.1])]; simpa using he'.2
    · intro m hm
      obtain ⟨e, he, rfl⟩ := List.mem_map.mp hm
      have he' := List.mem_filter.mp he
      rw [← c.inv.keyed e (by simp [he'.1])]; simpa using he'.2
  obtain ⟨res, hres, _⟩ := redo_fold hS _ _ hp hok []
  unfold redoFrom
  simp only [hlat]
  rw [redoFrom_list h.meas hs t l hlat, hundo, hres]
  simp only
  rw [← hw, ← c.ooo]

theorem RConv.redoAfter_noop (c : RConv fp S w0 ok A D h) (hS : WellBehavedBy Meas.beforeR S w0 ok) (t : Int)
    (o : Int × Meas P) (ho : h.meas.head? = some o) (hot : o.1 < t) : (redoAfter S h t).1 = h := by
  have hs := c.sorted
  obtain ⟨_, l, _, hl⟩ := head_last_of_ne h.meas (by intro hc; rw [hc] at ho; simp at ho)
  have hlat : h.meas.latest = some l := hl
  have hsp := split_le h.meas hs t
  set b1 := h.meas.filter (fun e => decide (e.1 ≤ t)) with hb1
  set b2 := h.meas.filter (fun e => decide (t < e.1)) with hb2
  have hall : (D ++ h.meas).map (·.2) = (D ++ b1).map (·.2) ++ b2.map (·.2) := by
    conv_lhs => rw [hsp]
    simp
  have hp := c.inv.chronological.2.1
  have hok := c.okAll
  have hw := c.w
  rw [hall] at hp hok hw
  have hom := List.mem_of_head? ho
  have hundo : S.removeAfter h.w t = runAll S w0 ((D ++ b1).map (·.2)) := by
    rw [hw]
    apply hS.undoAfter _ _ t hp hok
    · apply List.ne_nil_of_mem (a := o.2)
      rw [List.mem_map]
      refine ⟨o, ?_, rfl⟩
      apply List.mem_append_right
      rw [hb1, List.mem_filter]
      exact ⟨hom, by simp; omega⟩
    · intro m hm
      obtain ⟨e, he, rfl⟩ := List.mem_map.mp hm
      rcases List.mem_append.mp he with he | he
      · rw [← c.inv.keyed e (by simp [he])]
        have := c.inv.below e he o hom
        omega
      · have he' := List.mem_filter.mp he
        rw [← c.inv.keyed e (by simp [he'.1])]; simpa using he'.2
    · intro m hm
      obtain ⟨e, he, rfl⟩ := List.mem_map.mp hm
      have he' := List.mem_filter.mp he
      rw [← c.inv.keyed e (by simp [he'.1])]; simpa using he'.2
  obtain ⟨res, hres, _⟩ := redo_fold hS _ _ hp hok []
  unfold redoAfter
  simp only [hlat]
  cases ha : h.meas.getAfter t with
  | some a =>
    simp only
    rw [redoAfter_list h.meas hs t a l ha hlat, hundo, hres]
    simp only
    rw [← hw, ← c.ooo]
  | none =>
    rw [Buf.getAfter_eq h.meas hs] at ha
    have : b2 = [] := List.head?_eq_none_iff.mp ha
    simp only
    rw [hundo]
    rw [this] at hw
    simp only [List.map_nil, List.append_nil] at hw
    rw [← hw, ← c.ooo]

theorem RConv.serve (c : RConv fp S w0 ok A D h) (hS : WellBehavedBy Meas.beforeR S w0 ok) :
    serveRequests fp S h = { h with redo := [] } := by
  have c' : RConv fp S w0 ok A D { h with redo := [] } := ⟨c.ooo, c.max, c.inv, c.w, c.ok⟩
  unfold serveRequests
  simp only
  split
  · rename_i heq
    have := List.head?_eq_none_iff.mp heq
    rw [this]
  · rename_i o heq
    split
    · rename_i om hom
      split
      · rename_i hlt
        split
        · exact c'.redoAfter_noop hS o.1 om hom hlt
        · exact c'.redoFrom_noop hS o.1 om hom hlt
      · rfl
    · rfl

/-- One arrival at the collaborative handler. -/
theorem RConv.process (C : Agents.Coll W) (c : RConv fp S w0 ok A D h) (hS : WellBehavedBy Meas.beforeR S w0 ok) (m : Meas P)
    (hm : MeasOk m) (hmok : S.known w0 m.id = true → ok m) :
    ((Agents.processC fp S C h m).2.1 = [.discarded] ∧ RConv fp S w0 ok A D (Agents.processC fp S C h m).1) ∨
    ((Agents.processC fp S C h m).2.1 ≠ [.discarded] ∧
      ∃ X, Buf.insertMulti h.meas m.t m = X ++ Buf.checkHorizon fp h.hMeas (Buf.insertMulti h.meas m.t m) ∧
        RConv fp S w0 ok (A ++ [m]) (D ++ X) (Agents.processC fp S C h m).1) := by
  by_cases hk : S.known h.w m.id = true
  swap
  · left
    have e : Agents.processC fp S C h m = (h, [.discarded], []) := by
      unfold Agents.processC; rw [if_pos (by simpa using hk)]
    rw [e]
    exact ⟨rfl, c⟩
  by_cases ho : tooOld fp h m = true
  · left
    unfold Agents.processC
    rw [if_neg (by simp [hk]), if_pos ho]
    exact ⟨rfl, c⟩
  by_cases hr : Agents.discardC C { h with redo := [] } m = true
  · left
    have e : Agents.processC fp S C h m = ({ h with redo := [] }, [.discarded], []) := by
      unfold Agents.processC
      rw [if_neg (by simp [hk]), if_neg ho]
      simp only
      rw [c.serve hS, if_pos hr]
    rw [e]
    exact ⟨rfl, c.ooo, c.max, c.inv, c.w, c.ok⟩
  right
  have hkw : S.known w0 m.id = true := by rw [← c.known hS]; exact hk
  have hmok' := hmok hkw
  have ho' : tooOld fp h m = false := by simpa using ho
  have hold : ∀ o, h.meas.head? = some o → o.1 < m.t := by
    intro o hoo
    exact accept_lt fp h.meas h.w h.hMeas h.hOoo h.hRedo h.ooo h.redo m hm.2.1
      (fun e he => (c.inv.range e (by simp [he])).2) ho' o hoo
  have kb : Keyed h.meas := fun e he => c.inv.keyed e (by simp [he])
  have nb : Known h.meas := fun e he => c.inv.known e (by simp [he])
  have pb : ROrd h.meas := List.Pairwise.sublist (List.sublist_append_right D h.meas) c.inv.pord
  have sb := c.sorted
  obtain ⟨X, h1, h2, hI', hI2⟩ := c.inv.step c.max m hm.1 hm.2.1 hm.2.2 hold m.t le_rfl
  set cc := Buf.checkHorizon fp h.hMeas (Buf.insertMulti h.meas m.t m) with hcc
  have hokA : ∀ x ∈ A ++ [m], ok x := by
    intro x hx
    rcases List.mem_append.mp hx with hx | hx
    · exact c.ok x hx
    · simp at hx; subst hx; exact hmok'
  have hpN := hI'.chronological.2.1
  have hokN : ∀ x ∈ (D ++ X ++ sortFrom cc m.t).map (·.2), ok x :=
    fun x hx => hokA x (hI'.chronological.1.subset hx)
  have hooo : Buf.checkHorizonFrom fp h.hOoo h.ooo (fp.secOfKey m.t) = [] := by
    rw [c.ooo]; simp [Buf.checkHorizonFrom]
  have hproc : Agents.processC fp S C h m = Agents.processTailC fp S C { h with redo := [] } m := by
    unfold Agents.processC
    rw [if_neg (by simp [hk]), if_neg (by simp [ho'])]
    simp only
    rw [c.serve hS, if_neg hr]
  rw [hproc]
  unfold Agents.processTailC
  have hno : ∀ t, Buf.existBefore ([] : Buf Bool) t = false ∧ Buf.existAt ([] : Buf Bool) t = false := by
    intro t; simp [Buf.existBefore, Buf.existAt]
  simp only [hooo, (hno m.t).1, (hno m.t).2, Bool.or_false]
  have hsi := Buf.sorted_insertMulti h.meas sb m.t m
  have hki := keyed_insertMulti h.meas kb m
  have hni := known_insertMulti h.meas nb m hm.1
  have hcsub : ∀ e ∈ cc, e ∈ Buf.insertMulti h.meas m.t m := by
    intro e he; rw [h1]; simp [he]
  have sc : Buf.SortedKeys cc := by
    have : cc.Sublist (Buf.insertMulti h.meas m.t m) := by
      conv_rhs => rw [h1]
      exact List.sublist_append_right _ _
    exact List.Pairwise.sublist this hsi
  have kc : Keyed cc := fun e he => hki e (hcsub e he)
  have nc : Known cc := fun e he => hni e (hcsub e he)
  by_cases hv : Agents.orderViolated C.order h.meas m = true
  · simp only [hv, if_true, Bool.false_eq_true, if_false]
    simp only [trim, insertMeas, ← hcc]
    -- the redo
    obtain ⟨q1, q2, q3, q4⟩ := c40_sort_permutes cc sc kc nc m.t
    have sR : Buf.SortedKeys (sortFrom cc m.t) := (sortFrom_spec cc sc kc nc m.t).1
    have hmR : (m.t, m) ∈ sortFrom cc m.t := by
      rw [q1.mem_iff]
      have : (m.t, m) ∈ Buf.insertMulti h.meas m.t m := (Buf.mem_insertMulti _ _ _ _).mpr (Or.inl rfl)
      rw [h1] at this
      rcases List.mem_append.mp this with hx | hx
      · have := h2 _ hx; simp at this
      · exact hx
    obtain ⟨_, l, _, hl⟩ := head_last_of_ne _ (List.ne_nil_of_mem hmR)
    have hlat : (sortFrom cc m.t).latest = some l := hl
    set R := sortFrom cc m.t with hR
    have hsplitR := split_lt R sR m.t
    have hsplitb := split_lt h.meas sb m.t
    have hlow : X ++ R.filter (fun e => decide (e.1 < m.t)) = h.meas.filter (fun e => decide (e.1 < m.t)) := by
      rw [q3]
      have e1 : (Buf.insertMulti h.meas m.t m).filter (fun e => decide (e.1 < m.t)) =
          h.meas.filter (fun e => decide (e.1 < m.t)) := by
        rw [Buf.insertMulti_eq, List.filter_append]
        have hb : h.meas = h.meas.belowUB m.t ++ h.meas.upperBound m.t := by
          unfold Buf.belowUB Buf.upperBound; exact (List.takeWhile_append_dropWhile).symm
        conv_rhs => rw [hb, List.filter_append]
        rw [List.filter_cons_of_neg (by simp)]
      rw [← e1, h1, List.filter_append]
      congr 1
      symm
      rw [List.filter_eq_self]; intro e he; simpa using h2 e he
    have hbne : h.meas ≠ [] := by
      intro hc
      rw [hc] at hv; cases ho : C.order <;> rw [ho] at hv <;> simp [Agents.orderViolated, isOrderViolated, Buf.existAfter, Buf.getAllAt, Buf.existAt] at hv
    obtain ⟨o, _, hoo, _⟩ := head_last_of_ne _ hbne
    have hold' := hold o hoo
    have hpO := c.inv.chronological.2.1
    have hokO := c.okAll
    have hw := c.w
    have hallO : (D ++ h.meas).map (·.2) = (D ++ h.meas.filter (fun e => decide (e.1 < m.t))).map (·.2) ++
        (h.meas.filter (fun e => decide (m.t ≤ e.1))).map (·.2) := by
      conv_lhs => rw [hsplitb]
      simp
    have hallN : (D ++ X ++ R).map (·.2) = (D ++ h.meas.filter (fun e => decide (e.1 < m.t))).map (·.2) ++
        (R.filter (fun e => decide (m.t ≤ e.1))).map (·.2) := by
      conv_lhs => rw [hsplitR]
      rw [← hlow]; simp
    rw [hallO] at hpO hokO hw
    rw [hallN] at hpN hokN
    have hundo : S.removeFrom h.w m.t =
        runAll S w0 ((D ++ h.meas.filter (fun e => decide (e.1 < m.t))).map (·.2)) := by
      rw [hw]
      apply hS.undoFrom _ _ m.t hpO hokO
      · apply List.ne_nil_of_mem (a := o.2)
        rw [List.mem_map]
        exact ⟨o, by simp [List.mem_of_head? hoo, hold'], rfl⟩
      · intro x hx
        obtain ⟨e, he, rfl⟩ := List.mem_map.mp hx
        rcases List.mem_append.mp he with he | he
        · rw [← c.inv.keyed e (by simp [he])]
          have := c.inv.below e he o (List.mem_of_head? hoo)
          omega
        · have he' := List.mem_filter.mp he
          rw [← kb e he'.1]; simpa using he'.2
      · intro x hx
        obtain ⟨e, he, rfl⟩ := List.mem_map.mp hx
        have he' := List.mem_filter.mp he
        rw [← kb e he'.1]; simpa using he'.2
    obtain ⟨res, hres, hnd⟩ := redo_fold hS _ _ hpN hokN []
    rw [← hallN] at hres
    unfold Agents.redoFromC redoFrom
    simp only [hlat]
    rw [redoFrom_list R sR m.t l hlat, hundo, hres]
    simp only [List.nil_append]
    refine ⟨?_, X, h1, ⟨rfl, c.max, hI', rfl, hokA⟩⟩
    intro hc
    exact hnd .discarded (by rw [hc]; simp) rfl
  · have hv' : Agents.orderViolated C.order h.meas m = false := by simpa using hv
    simp only [hv', Bool.false_eq_true, if_false]
    obtain ⟨e1, p1⟩ := rord_insert_of_not_violated C.order h.meas pb kb nb m hm.1 hv'
    have hI' := hI2 (by rw [e1]; exact p1)
    have hpN := hI'.chronological.2.1
    have hokN : ∀ x ∈ (D ++ X ++ cc).map (·.2), ok x := fun x hx => hokA x (hI'.chronological.1.subset hx)
    have hlist : (D ++ X ++ cc).map (·.2) = (D ++ h.meas).map (·.2) ++ [m] := by
      rw [List.append_assoc, ← h1, e1]; simp
    rw [hlist] at hpN hokN
    obtain ⟨_, hen⟩ := hS.enabled _ m hpN hokN
    have hst := hS.status _ m hpN hokN
    rw [← c.w] at hen hst
    have hd : delegate S h.w m = S.inst h.w m := by
      unfold delegate; rw [hk, hen]; simp
    have hrun : (S.inst h.w m).1 = runAll S w0 ((D ++ X ++ cc).map (·.2)) := by
      rw [hlist, runAll_append, ← c.w]; rfl
    simp only [hd]
    have n1 : (S.inst h.w m).2 ≠ .outOfOrder := by rcases hst with h | h <;> rw [h] <;> simp
    have n2 : (S.inst h.w m).2 ≠ .discarded := by rcases hst with h | h <;> rw [h] <;> simp
    rw [if_pos n2, if_neg n1]
    refine ⟨by simpa using n2, X, h1, ?_⟩
    refine ⟨rfl, c.max, ?_, ?_, hokA⟩
    · simp only [trim, insertMeas]; exact hI'
    · simp only [trim, insertMeas]; exact hrun
end


end Ikf
