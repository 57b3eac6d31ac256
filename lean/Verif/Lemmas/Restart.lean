import Verif.Model.Restart
import Verif.Lemmas.EndToEnd
import Verif.Lemmas.CollabPrior
import Verif.Props.Lifecycle

/-! # What a run cannot change: which instances there are and how long their histories are -/

namespace Ikf
open Mat

namespace Handler
variable {W P : Type _}

/-- Whatever the instances keep under each of their functions, the handler keeps. -/
structure Keeps (S : Insts W P) (I : W → Prop) : Prop where
  inst : ∀ w m, I w → I (S.inst w m).1
  from_ : ∀ w t, I w → I (S.removeFrom w t)
  after : ∀ w t, I w → I (S.removeAfter w t)

variable {S : Insts W P} {I : W → Prop}

theorem Keeps.delegate (k : Keeps S I) {w : W} (h : I w) (m : Meas P) : I (Handler.delegate S w m).1 := by
  unfold Handler.delegate
  split
  · split
    · exact k.inst w m h
    · exact h
  · exact h

theorem Keeps.redoFold (k : Keeps S I) (ms : List (Meas P)) : ∀ a : W × Buf Bool × List Status, I a.1 → I (ms.foldl (redoStep S) a).1 := by
  induction ms with
  | nil => intro a h; exact h
  | cons m r ih =>
    intro a h
    refine ih _ ?_
    unfold redoStep
    split
    · exact k.delegate h m
    · exact h

theorem Keeps.redoFrom (k : Keeps S I) {s : HState W P} (h : I s.w) (t : Int) : I (Handler.redoFrom S s t).1.w := by
  unfold Handler.redoFrom
  simp only
  split
  · exact k.from_ _ _ h
  · exact k.redoFold _ _ (k.from_ _ _ h)

theorem Keeps.redoAfter (k : Keeps S I) {s : HState W P} (h : I s.w) (t : Int) : I (Handler.redoAfter S s t).1.w := by
  unfold Handler.redoAfter
  simp only
  split
  · exact k.redoFold _ _ (k.after _ _ h)
  · exact k.after _ _ h

theorem Keeps.serve (k : Keeps S I) (fp : FP) {s : HState W P} (h : I s.w) : I (serveRequests fp S s).w := by
  unfold serveRequests
  simp only
  split
  · exact h
  · split
    · split
      · split
        · exact k.redoAfter (s := { s with redo := [] }) h _
        · exact k.redoFrom (s := { s with redo := [] }) h _
      · exact h
    · exact h

theorem Keeps.process (k : Keeps S I) (fp : FP) {s : HState W P} (h : I s.w) (m : Meas P) : I (process fp S s m).1.w := by
  unfold Handler.process
  split
  · exact h
  split
  · exact h
  have hdm : discardMeasurement (serveRequests fp S s) m = false := rfl
  simp only [hdm, Bool.false_eq_true, if_false]
  have h1 := k.serve fp h
  unfold processTail
  simp only
  split
  · refine k.redoFrom ?_ _
    simp only
    split <;> exact h1
  · have h2 := k.delegate h1 m
    split <;> split <;> exact h2

theorem Keeps.run (k : Keeps S I) (fp : FP) (ops : List (HOp P)) : ∀ s : HState W P, I s.w → I (ops.foldl (hStep fp S) s).w := by
  induction ops with
  | nil => intro s h; exact h
  | cons o r ih =>
    intro s h
    refine ih _ ?_
    cases o with
    | meas m => exact k.process fp h m
    | request t a => exact h

end Handler

namespace Hdl
variable {P : Type _} {fp : FP} {near : Mat → Mat} {U : EkfUser P}

/-- `h'` has the instances of `h`, with histories of the same length. -/
structure Frame (h h' : Hdl) : Prop where
  ord : Ordered h'
  same : ∀ p, (h'.find p).map Inst.reset = (h.find p).map Inst.reset

theorem Frame.refl {h : Hdl} (ho : Ordered h) : Frame h h := ⟨ho, fun _ => rfl⟩
theorem Frame.trans {h h1 h2 : Hdl} (a : Frame h h1) (b : Frame h1 h2) : Frame h h2 := ⟨b.ord, fun p => (b.same p).trans (a.same p)⟩

theorem Off.frame {t : Int} {h h' : Hdl} (a : Off t h h') : Frame h h' := by
  refine ⟨a.ordered, fun p => ?_⟩
  rcases a.inst p with ⟨a1, a2⟩ | ⟨i, j, a1, a2, a3⟩ <;> rw [a1, a2]
  show some _ = some _
  unfold Inst.reset
  rw [a3.hor]

theorem Frame.set {h : Hdl} (ho : Ordered h) {p : ℕ} {i j : Inst} (hi : h.find p = some i) (hj : j.Ord) (hh : j.hor = i.hor) : Frame h (h.set p j) := by
  refine ⟨⟨ho.sorted.set _ _, fun q k hk => ?_⟩, fun q => ?_⟩
  · rw [SMap.find_set] at hk
    split at hk
    · rw [← Option.some.inj hk]; exact hj
    · exact ho.inst q k hk
  · rw [SMap.find_set]
    by_cases hq : p = q
    · subst hq
      rw [if_pos rfl, hi]
      show some _ = some _
      unfold Inst.reset
      rw [hh]
    · rw [if_neg hq]

theorem Frame.mapV {h : Hdl} (ho : Ordered h) (f : Inst → Inst) (hf : ∀ i : Inst, i.Ord → (f i).Ord ∧ (f i).hor = i.hor) : Frame h (h.mapV f) := by
  refine ⟨⟨ho.sorted.mapV f, fun p j hj => ?_⟩, fun p => ?_⟩
  · rw [SMap.find_mapV] at hj
    cases hi : h.find p with
    | none => rw [hi] at hj; simp at hj
    | some i => rw [hi] at hj; rw [← Option.some.inj hj]; exact (hf i (ho.inst p i hi)).1
  · rw [SMap.find_mapV]
    cases hi : h.find p with
    | none => rfl
    | some i =>
      show some _ = some _
      unfold Inst.reset
      rw [(hf i (ho.inst p i hi)).2]

theorem get_find {h : Hdl} {p : ℕ} {i : Inst} (hg : get h p = .ok i) : h.find p = some i := by
  unfold get at hg
  split at hg
  · rename_i j hj; rw [hj, Res.ok.inj hg]
  · cases hg

theorem propEKF_frame {i j : Inst} (ho : i.Ord) {ba : Belief} {mb Phi Q : Mat} {ta tb : Int} {ans : Bool}
    (hs : i.propEKF fp ba mb Phi Q ta tb = .ok (j, ans)) : j.Ord ∧ j.hor = i.hor := by
  unfold Inst.propEKF at hs
  obtain ⟨r, e1, hs⟩ := bind_eq_ok hs
  have hr : r.1.Ord ∧ r.1.hor = i.hor := by
    unfold Inst.basePropEKF at e1
    split at e1
    · obtain ⟨Sb, -, e1⟩ := bind_eq_ok e1
      split at e1
      · simp only at e1
        split at e1
        · rw [← Res.ok.inj e1]; exact ⟨ho.setBelief _ _, rfl⟩
        · rw [← Res.ok.inj e1]; exact ⟨ho, rfl⟩
      · rw [← Res.ok.inj e1]; exact ⟨ho, rfl⟩
    · rw [← Res.ok.inj e1]; exact ⟨ho, rfl⟩
  split at hs
  · obtain ⟨k, e2, hs⟩ := bind_eq_ok hs
    have := Inst.addCorrection_inv e2
    obtain ⟨x1, -⟩ := Prod.mk.inj (Res.ok.inj hs)
    subst x1 this
    exact ⟨(hr.1.mulFac _ _ _).checkHorizon fp, hr.2⟩
  · obtain ⟨x1, -⟩ := Prod.mk.inj (Res.ok.inj hs)
    subst x1
    exact hr

theorem privEKF_frame {i j : Inst} (ho : i.Ord) {b : Belief} {t : Int} {H R r : Mat} {cfg : Cfg} {ans : Bool}
    (hs : i.privEKF b t H R r cfg = .ok (j, ans)) : j.Ord ∧ j.hor = i.hor := by
  unfold Inst.privEKF at hs
  obtain ⟨res, -, hs⟩ := bind_eq_ok hs
  split at hs
  · obtain ⟨k, e2, hs⟩ := bind_eq_ok hs
    obtain ⟨b', -, hs⟩ := bind_eq_ok hs
    have := Inst.addCorrection_inv (i := i) (ta := b.stamp) (tb := b.stamp) (F := res.U) e2
    obtain ⟨x1, -⟩ := Prod.mk.inj (Res.ok.inj hs)
    subst x1 this
    exact ⟨(ho.mulFac _ _ _).setBelief _ _, rfl⟩
  · obtain ⟨x1, -⟩ := Prod.mk.inj (Res.ok.inj hs)
    subst x1
    exact ⟨ho, rfl⟩

theorem getDict_frame (ids : List ℕ) {t : Int} : ∀ {h h' : Hdl} {acc d : SMap Belief}, Ordered h → getDictBel noPredict h ids t acc = .ok (h', d) → Frame h h' := by
  induction ids with
  | nil =>
    intro h h' acc d ho hs
    unfold getDictBel at hs
    obtain ⟨x1, -⟩ := Prod.mk.inj (Res.ok.inj hs)
    subst x1
    exact .refl ho
  | cons id r ih =>
    intro h h' acc d ho hs
    unfold getDictBel at hs
    obtain ⟨x, e, hs⟩ := bind_eq_ok hs
    have hx : Frame h x.1 := by
      unfold beliefPredict at e
      obtain ⟨i, ei, e⟩ := bind_eq_ok e
      split at e
      · rw [← Res.ok.inj e]; exact .refl ho
      · rw [← Res.ok.inj e]; exact .set ho (get_find ei) (ho.inst _ _ (get_find ei)) rfl
    split at hs
    · obtain ⟨x1, -⟩ := Prod.mk.inj (Res.ok.inj hs)
      subst x1
      exact hx
    · exact hx.trans (ih hx.ord hs)

theorem applyObsR_frame {h h' : Hdl} (ho : Ordered h) {dH : SMap Mat} {R r : Mat} {t : Int} {cfg : Cfg} {ans : Bool}
    (hs : applyObsR near noPredict h dH R r t cfg = .ok (h', ans)) : Frame h h' := by
  unfold applyObsR at hs
  obtain ⟨H, -, hs⟩ := bind_eq_ok hs
  obtain ⟨x, e, hs⟩ := bind_eq_ok hs
  have hx : Frame h x.1 := getDict_frame _ ho (h' := x.1) (d := x.2) e
  split at hs
  · obtain ⟨x1, -⟩ := Prod.mk.inj (Res.ok.inj hs)
    subst x1
    exact hx
  · obtain ⟨S0, -, hs⟩ := bind_eq_ok hs
    obtain ⟨S, -, hs⟩ := bind_eq_ok hs
    exact hx.trans (off_correctJoint hx.ord hs).frame

theorem userStep_frame {h h' : Hdl} (ho : Ordered h) {m : Meas P} {st : Status} (hs : userStep fp near U h m = .ok (h', st)) : Frame h h' := by
  unfold userStep at hs
  split at hs
  · unfold userJoint at hs
    obtain ⟨ms, -, hs⟩ := bind_eq_ok hs
    obtain ⟨n, -, hs⟩ := bind_eq_ok hs
    obtain ⟨x, e, hs⟩ := bind_eq_ok hs
    obtain ⟨x1, -⟩ := Prod.mk.inj (Res.ok.inj hs)
    subst x1
    exact applyObsR_frame ho (ans := x.2) e
  · unfold userProp at hs
    obtain ⟨i, ei, hs⟩ := bind_eq_ok hs
    split at hs
    · cases hs
    · obtain ⟨n, -, hs⟩ := bind_eq_ok hs
      obtain ⟨x, e, hs⟩ := bind_eq_ok hs
      obtain ⟨x1, -⟩ := Prod.mk.inj (Res.ok.inj hs)
      subst x1
      have := propEKF_frame (ho.inst _ _ (get_find ei)) (j := x.1) (ans := x.2) e
      exact .set ho (get_find ei) this.1 this.2
  · unfold userPriv at hs
    obtain ⟨i, ei, hs⟩ := bind_eq_ok hs
    split at hs
    · obtain ⟨x1, -⟩ := Prod.mk.inj (Res.ok.inj hs)
      subst x1
      exact .refl ho
    · obtain ⟨n, -, hs⟩ := bind_eq_ok hs
      obtain ⟨x, e, hs⟩ := bind_eq_ok hs
      obtain ⟨x1, -⟩ := Prod.mk.inj (Res.ok.inj hs)
      subst x1
      unfold privCall at e
      split at e
      · exact applyObsR_frame ho (ans := x.2) e
      · obtain ⟨y, e2, e⟩ := bind_eq_ok e
        rw [← Res.ok.inj e]
        have := privEKF_frame (ho.inst _ _ (get_find ei)) (j := y.1) (ans := y.2) e2
        exact .set ho (get_find ei) this.1 this.2
  · obtain ⟨x1, -⟩ := Prod.mk.inj (Res.ok.inj hs)
    subst x1
    exact .refl ho

theorem keeps_frame (h0 : Hdl) : Handler.Keeps (userInsts fp near U) (fun w => ∀ h, w = .ok h → Frame h0 h) where
  inst := by
    intro w m hw h hh
    cases w with
    | ok g =>
      have hg := hw g rfl
      change (settle (.ok g) (userStep fp near U g m)).1 = _ at hh
      unfold settle at hh
      simp only at hh
      cases hx : userStep fp near U g m with
      | ok x =>
        rw [hx] at hh
        rw [← Res.ok.inj hh]
        exact hg.trans (userStep_frame hg.ord (st := x.2) hx)
      | throws => rw [hx] at hh; cases hh
      | ub => rw [hx] at hh; cases hh
    | throws => cases hh
    | ub => cases hh
  from_ := by
    intro w t hw h hh
    cases w with
    | ok g =>
      have hg := hw g rfl
      change Res.ok (removeBeliefsFrom g t) = _ at hh
      rw [← Res.ok.inj hh]
      refine hg.trans (.mapV hg.ord _ fun i hi => ?_)
      split
      · exact ⟨hi.removeFrom t, rfl⟩
      · exact ⟨hi, rfl⟩
    | throws => cases hh
    | ub => cases hh
  after := by
    intro w t hw h hh
    cases w with
    | ok g =>
      have hg := hw g rfl
      change Res.ok (removeBeliefsAfter g t) = _ at hh
      rw [← Res.ok.inj hh]
      refine hg.trans (.mapV hg.ord _ fun i hi => ?_)
      split
      · exact ⟨hi.removeAfter t, rfl⟩
      · exact ⟨hi, rfl⟩
    | throws => cases hh
    | ub => cases hh

theorem Frame.resetAll {h h' : Hdl} (hs : h.Sorted) (a : Frame h h') : resetAll h' = resetAll h := by
  unfold Hdl.resetAll
  refine SMap.ext_find (a.ord.sorted.mapV _) (hs.mapV _) fun p => ?_
  rw [SMap.find_mapV, SMap.find_mapV]
  exact a.same p

theorem initAll_resetAll (L : ℕ → Belief × Int) (h : Hdl) : initAll L (resetAll h) = initAll L h := by
  unfold initAll resetAll SMap.mapV
  rw [List.map_map]
  exact List.map_congr_left fun e _ => rfl

end Hdl
end Ikf
