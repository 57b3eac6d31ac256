import Verif.Spec.EndToEnd
import Verif.Lemmas.ConvergenceRel
import Verif.Lemmas.Off

/-! # The isolated filters under the handler denote the centralised filter -/

namespace Ikf
open Mat

section
variable {P : Type _} {dim : ℕ → ℕ} {near : Mat → Mat} {U : EkfUser P} {c c' c0 : Central} {m : Meas P}

/-! ## Clocks -/

/-- Time of the estimate of `p` after one measurement. -/
def clockStep (p : ℕ) (a : Int) (m : Meas P) : Int := if m.kind = .propagation ∧ m.id = p then m.t else a

theorem MeasSpec.tm (h : MeasSpec dim near U c m c') (p : ℕ) : c'.tm p = clockStep p (c.tm p) m := by
  unfold clockStep
  cases h with
  | prop mb Phi Q c' hk hlt hU hs =>
    cases hs
    simp only [Central.transform, hk, true_and]
    by_cases hp : p = m.id
    · rw [if_pos hp, if_pos hp.symm]
    · rw [if_neg hp, if_neg (fun h => hp h.symm)]
  | privNone hk hne => simp [hk]
  | priv H R r c' hk ht hv hU hs =>
    cases hs
    simp only [Central.transform, hk]
    by_cases hp : p = m.id
    · rw [if_pos hp, if_neg (by simp), hp, ht]
    · rw [if_neg hp, if_neg (by simp)]
  | privGate H R r hk ht hv hU hg => simp [hk]
  | privH H R r c' hk ht hv hU hs => cases hs; simp [Central.joint, hk]
  | privHGate H R r hk ht hv hU hg => simp [hk]
  | joint dH R r c' hk ht hU hs => cases hs; simp [Central.joint, hk]
  | jointGate dH R r hk ht hU hg => simp [hk]

theorem MeasSpec.fix (h : MeasSpec dim near U c m c') (p : ℕ) : c'.fix p = c.fix p := by
  cases h with
  | prop mb Phi Q c' hk hlt hU hs => cases hs; simp only [Central.transform]; split <;> simp_all
  | privNone hk hne => rfl
  | priv H R r c' hk ht hv hU hs => cases hs; simp only [Central.transform]; split <;> simp_all
  | privGate H R r hk ht hv hU hg => rfl
  | privH H R r c' hk ht hv hU hs => cases hs; rfl
  | privHGate H R r hk ht hv hU hg => rfl
  | joint dH R r c' hk ht hU hs => cases hs; rfl
  | jointGate dH R r hk ht hU hg => rfl

theorem CentralRun.fix {L : List (Meas P)} (h : CentralRun dim near U c0 L c) (p : ℕ) : c.fix p = c0.fix p := by
  induction h with
  | nil => rfl
  | snoc r h ih => rw [h.fix, ih]

theorem CentralRun.clock {L : List (Meas P)} (h : CentralRun dim near U c0 L c) (p : ℕ) :
    c.tm p = L.foldl (clockStep p) (c0.tm p) := by
  induction h with
  | nil => rfl
  | snoc r h ih => rw [h.tm, ih, List.foldl_append]; rfl

/-- Before `T` when everything that moves the clock is. -/
theorem clock_lt (p : ℕ) (a T : Int) (L : List (Meas P)) (ha : a < T)
    (hL : ∀ m ∈ L, m.kind = .propagation → m.id = p → m.t < T) : L.foldl (clockStep p) a < T := by
  induction L generalizing a with
  | nil => exact ha
  | cons m L ih =>
    simp only [List.foldl_cons]
    apply ih
    · unfold clockStep; split
      · rename_i hc; exact hL m (by simp) hc.1 hc.2
      · exact ha
    · exact fun x hx => hL x (by simp [hx])

/-- At `T` when the newest propagation is. -/
theorem clock_eq (p : ℕ) (a T : Int) (L : List (Meas P)) (hp : L.Pairwise Meas.before) (hT : ∀ m ∈ L, m.t ≤ T) {x : Meas P}
    (hx : x ∈ L) (h1 : x.kind = .propagation) (h2 : x.id = p) (h3 : x.t = T) : L.foldl (clockStep p) a = T := by
  induction L using List.reverseRecOn with
  | nil => simp at hx
  | append_singleton L y ih =>
    rw [List.foldl_append]
    simp only [List.foldl_cons, List.foldl_nil]
    rw [List.pairwise_append] at hp
    rw [clockStep]
    split
    · rcases List.mem_append.mp hx with hxL | hxy
      · have h4 := hp.2.2 x hxL y (by simp)
        have h5 := hT y (by simp)
        unfold Meas.before at h4
        omega
      · have : x = y := by simpa using hxy
        rw [← this]; exact h3
    · rename_i hc
      rcases List.mem_append.mp hx with hxL | hxy
      · exact ih hp.1 (fun m hm => hT m (by simp [hm])) hxL
      · have : x = y := by simpa using hxy
        exact absurd ⟨this ▸ h1, this ▸ h2⟩ hc

end

namespace Hdl
section
variable {P : Type _} {fp : FP} {dim : ℕ → ℕ} {near : Mat → Mat} {U : EkfUser P} {ok : Meas P → Prop} {h h' : Hdl} {c c0 : Central} {m : Meas P}
  {hi : Int} {keep : ℕ → Int}

/-! ## One measurement -/

/-- The newest belief as the propagation callback gets it. -/
theorem Rel.before (hr : Rel dim h c) {p : ℕ} {i : Inst} (hi : h.find p = some i) {t : Int} (ht : c.tm p < t) :
    ∃ b, i.bel.getBefore t = some (c.tm p, b) ∧ i.beliefAt (c.tm p) = some b ∧ b.mean = c.mu p := by
  have hp : (h.find p).isSome := by rw [hi]; rfl
  obtain ⟨b, hb, hm, -⟩ := hr.bel p hp
  rw [bl_of_find hi] at hb
  refine ⟨b, ?_, hb, hm⟩
  obtain ⟨i', e, hi', hl, he⟩ := Newest.of_rel hr hp rfl
  rw [hi] at hi'
  obtain rfl := Option.some.inj hi'
  have ho := (hr.ok.ord p i hi).bel
  rw [Buf.getBefore_eq _ ho.sorted]
  have : i.bel.filter (fun e => decide (e.1 < t)) = i.bel := by
    rw [List.filter_eq_self]
    intro x hx
    have := (hr.ok.upTo p i hi).bel x hx
    simp; omega
  rw [this, hl]
  have hem := List.mem_of_getLast? hl
  rw [Inst.beliefAt_eq] at hb
  have h2 : i.bel.absMap e.1 = some e.2 := (Buf.absMap_eq_some _ ho _ _).mpr hem
  rw [he, hb] at h2
  obtain ⟨e1, e2⟩ := e
  simp only at he h2
  rw [he, Option.some.inj h2]

theorem Rel.at (hr : Rel dim h c) {p : ℕ} {i : Inst} (hi : h.find p = some i) {t : Int} (ht : c.tm p = t) :
    ∃ b, i.beliefAt t = some b ∧ b.mean = c.mu p ∧ b.Sigma = c.cov p p ∧ b.fixed = c.fix p := by
  obtain ⟨b, hb, h1, h2, -, h3⟩ := hr.bel p (by rw [hi]; rfl)
  rw [bl_of_find hi, ht] at hb
  exact ⟨b, hb, h1, h2, h3⟩

theorem Rel.at_none (hr : Rel dim h c) {p : ℕ} {i : Inst} (hi : h.find p = some i) {t : Int} (ht : c.tm p < t) : i.beliefAt t = none := by
  cases hb : i.beliefAt t with
  | none => rfl
  | some b =>
    rw [Inst.beliefAt_eq, Buf.absMap_eq_some _ (hr.ok.ord p i hi).bel] at hb
    have := (hr.ok.upTo p i hi).bel _ hb
    simp only at this; omega

theorem meansAt_rel (hr : Rel dim h c) {t : Int} (ps : List ℕ) (hp : ∀ p ∈ ps, (h.find p).isSome ∧ c.tm p = t) :
    meansAt h t ps = .ok (ps.map c.mu) := by
  induction ps with
  | nil => rfl
  | cons p ps ih =>
    obtain ⟨h1, h2⟩ := hp p (by simp)
    obtain ⟨i, hi⟩ := Option.isSome_iff_exists.mp h1
    obtain ⟨b, hb, hm, -⟩ := hr.at hi h2
    rw [meansAt, get_ok hi, Res.bind_ok]
    simp only [hb]
    rw [ih (fun q hq => hp q (by simp [hq])), Res.bind_ok, hm]
    rfl

/-- Why a joint observation is rejected. -/
theorem joint_gate (hr : Rel dim h c) {dH : SMap Mat} {R r : Mat} {t : Int} {cfg : Cfg} (hw : Wf dim h (.jointR dH R r t cfg)) (hne : dH ≠ [])
    (hs : run fp near noPredict h (.jointR dH R r t cfg) = .ok (h', false)) : c.GateJoint dim dH R r cfg := by
  obtain ⟨hdH, hN⟩ := hw
  have hp : Parts dim h c dH t := ⟨hdH, fun p hpm => ((hN p hpm).rel hr).1, fun p hpm => ((hN p hpm).rel hr).2⟩
  simp only [run, applyObsR] at hs
  obtain ⟨H, hH, hs⟩ := bind_eq_ok hs
  rw [getDictBel_rel noPredict hr hp, Res.bind_ok] at hs
  simp only at hs
  rw [if_neg (by simpa [dict, SMap.keys] using hne)] at hs
  obtain ⟨S, hSe, hSC⟩ := stackSigma_spec (dict h dH t) (dict_sorted hp) (covOf hr hp)
  rw [← participants_eq hr hp] at hSC
  rw [hSe, Res.bind_ok, stabilize_ok hSC.1, Res.bind_ok] at hs
  unfold correctJoint at hs
  obtain ⟨res, hc, hs⟩ := bind_eq_ok hs
  cases hrj : res.rejected with
  | true => exact ⟨H, S, res, stackH_spec dH hdH H hH, hSC, hc, hrj⟩
  | false =>
    rw [hrj] at hs
    simp only [Bool.not_false, if_true] at hs
    obtain ⟨h1, _, hs⟩ := bind_eq_ok hs
    simp at hs

theorem off_applyObsR (ho : Ordered h) {dH : SMap Mat} {R r : Mat} {t : Int} {cfg : Cfg} {ans : Bool} (hr : Rel dim h c)
    (hw : Wf dim h (.jointR dH R r t cfg)) (hs : applyObsR near noPredict h dH R r t cfg = .ok (h', ans)) : Off t h h' := by
  obtain ⟨hdH, hN⟩ := hw
  have hp : Parts dim h c dH t := ⟨hdH, fun p hpm => ((hN p hpm).rel hr).1, fun p hpm => ((hN p hpm).rel hr).2⟩
  unfold applyObsR at hs
  obtain ⟨H, hH, hs⟩ := bind_eq_ok hs
  rw [getDictBel_rel noPredict hr hp, Res.bind_ok] at hs
  simp only at hs
  split at hs
  · obtain ⟨e, -⟩ := Prod.mk.inj (Res.ok.inj hs)
    subst e; exact Off.refl ho
  · obtain ⟨S0, _, hs⟩ := bind_eq_ok hs
    obtain ⟨S, _, hs⟩ := bind_eq_ok hs
    exact off_correctJoint ho hs

/-- A joint observation of instances at the same time, none of them fixed. -/
theorem joint_call (hnear : NearOk near) (hr : Rel dim h c) {dH : SMap Mat} {R r : Mat} {t : Int} {cfg : Cfg} (hg : GateOk cfg)
    (hdH : dH.Sorted) (hne : dH ≠ []) (hreg : ∀ p ∈ dH.keys, (h.find p).isSome ∧ c.tm p = t ∧ c.fix p = false) {k : ℕ}
    (hsh : ∀ e ∈ dH, e.2.Shape k (dim e.1)) (hR : R.Shape k k) (hrs : r.Shape k 1) :
    ∃ h' ans, applyObsR near noPredict h dH R r t cfg = .ok (h', ans) ∧ Off t h h' ∧
      ((ans = true ∧ ∃ c', SpecStep dim near c (.jointR dH R r t cfg) c' ∧ Rel dim h' c') ∨
       (ans = false ∧ h' = h ∧ c.GateJoint dim dH R r cfg)) := by
  have hw : Wf dim h (.jointR dH R r t cfg) := ⟨hdH, fun p hp => Newest.of_rel hr (hreg p hp).1 (hreg p hp).2.1⟩
  have hf : Fits dim h (.jointR dH R r t cfg) := by
    refine ⟨hne, ⟨k, fun e he => ⟨hsh e he, ?_⟩, hR, hrs⟩, hg⟩
    obtain ⟨h1, h2, h3⟩ := hreg e.1 (List.mem_map.mpr ⟨e, he, rfl⟩)
    obtain ⟨b, hb, -, -, -, hfx⟩ := hr.bel e.1 h1
    unfold fixedAt
    have : belief h e.1 t = some b := by rw [← h2]; exact hb
    rw [this]; simp only; rw [hfx, h3]
  obtain ⟨h', ans, hs, -⟩ := progress_rel (fp := FP.exact) (pred := noPredict) hnear hr _ hw hf
  have hs' : applyObsR near noPredict h dH R r t cfg = .ok (h', ans) := hs
  refine ⟨h', ans, hs', off_applyObsR hr.ordered hr hw hs', ?_⟩
  cases ans with
  | true => exact Or.inl ⟨rfl, accepted hnear hr _ hw hs⟩
  | false => exact Or.inr ⟨rfl, rejected hr _ hw hs, joint_gate hr hw hne hs⟩

/-- The histories reach back `keep` (10 µs are for rounding) or over all times up to `hi`, and everything stored is between 0
and `hi`. -/
def Room (fp : FP) (keep : ℕ → Int) (hi : Int) (h : Hdl) : Prop :=
  ∀ p i, h.find p = some i → (0 ≤ keep p ∧ ((keep p : ℚ) + 10000 ≤ i.hor * 1000000000 ∨ fp.secOfKey hi ≤ i.hor)) ∧ i.Within 0 hi

theorem OffW.room {lost : ℕ → Int → Prop} {t : Int} (ho : OffW lost t h h') (hr : Room fp keep hi h) (h1 : 0 ≤ t) (h2 : t ≤ hi) : Room fp keep hi h' := by
  intro p j hj
  rcases ho.inst p with ⟨_, a2⟩ | ⟨i, j', a1, a2, a3⟩
  · rw [a2] at hj; simp at hj
  · rw [a2] at hj
    obtain rfl := Option.some.inj hj
    obtain ⟨w1, w2⟩ := hr p i a1
    exact ⟨by rw [a3.hor]; exact w1, a3.within w2 h1 h2⟩

theorem room_cut (ho : Ordered h) (hr : Room fp keep hi h) (t : Int) : Room fp keep hi (cut h t) := by
  intro p j hj
  rw [find_cut] at hj
  obtain ⟨i, hi', rfl⟩ := Option.map_eq_some_iff.mp hj
  obtain ⟨w1, w2, w3⟩ := hr p i hi'
  refine ⟨w1, fun s b hb => ?_, fun q s M hM => ?_⟩
  · rw [Inst.beliefAt_removeFrom (ho.inst p i hi')] at hb
    split at hb
    · exact w2 s b hb
    · simp at hb
  · rw [Inst.fac_removeFrom (ho.inst p i hi')] at hM
    split at hM
    · exact w3 q s M hM
    · simp at hM

/-- What a measurement may remove: what is older than the history of the instance that is propagated. -/
def Lost (keep : ℕ → Int) (m : Meas P) (p : ℕ) (s : Int) : Prop := m.kind = .propagation ∧ p = m.id ∧ s < m.t - keep p

theorem user_prop (hnear : NearOk near) (hU : Proper dim U ok) (hr : Rel dim h c) (hroom : Room fp keep hi h) (hm : ok m)
    (hid : (h.find m.id).isSome) (hlo : 0 ≤ m.t) (hmi : m.t ≤ hi) (hhi : hi ≤ 8589934590000000000) (hk : m.kind = .propagation) (hlt : c.tm m.id < m.t) :
    ∃ h' c', userProp fp U h m = .ok (h', .processed) ∧ OffW (Lost keep m) m.t h h' ∧ MeasSpec dim near U c m c' ∧ Rel dim h' c' := by
  obtain ⟨i, hi'⟩ := Option.isSome_iff_exists.mp hid
  obtain ⟨b, hb1, hb2, hb3⟩ := hr.before hi' hlt
  obtain ⟨mb, Phi, Q, hU1, hP, hQ, hQs, hmb⟩ := hU.prop m (c.tm m.id) (c.mu m.id) hm hk (hr.muS _ hid)
  have hN : Newest h m.id (c.tm m.id) := Newest.of_rel hr hid rfl
  have hw : Wf dim h (.propEKF m.id mb Phi Q (c.tm m.id) m.t) := ⟨hN, hlt, hQs⟩
  have hf : Fits dim h (.propEKF m.id mb Phi Q (c.tm m.id) m.t) := ⟨hP, hQ, hmb⟩
  obtain ⟨h', ans, hs, hans⟩ := progress_rel (fp := fp) (pred := noPredict) hnear hr _ hw hf
  obtain rfl := hans trivial
  obtain ⟨c', hc', hr'⟩ := accepted hnear hr _ hw hs
  have hs0 := hs
  simp only [run, get_ok hi', Res.bind_ok, hb2] at hs
  obtain ⟨x, hx, hs⟩ := bind_eq_ok hs
  obtain ⟨j, a⟩ := x
  obtain ⟨e1, e2⟩ := Prod.mk.inj (Res.ok.inj hs)
  simp only at e1 e2
  subst e2
  obtain ⟨w1, w2⟩ := hroom m.id i hi'
  have ho := hr.ok.ord m.id i hi'
  obtain ⟨b', hb', -⟩ := hr.bel m.id hid
  obtain ⟨q1, q2, q3, q4, q5, q6, q7, q8⟩ := hr.stored hid hb'
  have hbb : b' = b := by
    rw [bl_of_find hi', hb2] at hb'
    exact (Option.some.inj hb').symm
  rw [hbb] at q7
  obtain ⟨-, -, -, hj⟩ := Inst.propEKF_true fp ho b mb Phi Q (c.tm m.id) m.t q7
    (fun J M hM => hr.rows m.id hid J M (by rw [fc_of_find hi']; exact hM)) j hx
  refine ⟨h', c', ?_, ?_, MeasSpec.prop mb Phi Q c' hk hlt hU1 hc', hr'⟩
  · unfold userProp
    rw [get_ok hi', Res.bind_ok]
    simp only [hb1]
    rw [hb3, hU1, Res.bind_ok]
    simp only
    rw [hx, Res.bind_ok, e1]
  · rw [← e1, hj]
    obtain ⟨k1, k2⟩ := w1
    have hwin : i.Within 0 m.t := by
      have hu := hr.ok.upTo m.id i hi'
      refine ⟨fun s b hb => ⟨(w2.1 s b hb).1, ?_⟩, fun q s M hM => ⟨(w2.2 q s M hM).1, ?_⟩⟩
      · rw [Inst.beliefAt_eq, Buf.absMap_eq_some _ ho.bel] at hb
        have := hu.bel _ hb
        simp only at this; omega
      · have := Inst.fac_le hu ho hM
        omega
    have hoffi := Inst.offW_propagated (fp := fp) ho hwin { b with mean := mb, Sigma := Phi * b.Sigma * Phi.tr + Q, stamp := m.t } Phi (c.tm m.id) hlo (by omega) k1
      (k2.imp (fun e => e) (fun e => le_trans (secOfKey_mono fp m.t hi hlo (by omega) hmi) e))
    refine OffW.set hr.ordered hi' ?_
    exact ⟨hoffi.ord, fun s hs => (hoffi.bel s hs).imp (fun e => e) (fun e => ⟨⟨hk, rfl, e.1⟩, e.2⟩),
      fun q s hs => (hoffi.fac q s hs).imp (fun e => e) (fun e => ⟨⟨hk, rfl, e.1⟩, e.2⟩), hoffi.hor⟩

theorem user_joint (hnear : NearOk near) (hU : Proper dim U ok) (hg : GateOk U.cfg) (hr : Rel dim h c) (hm : ok m)
    (hk : m.kind = .joint) (hp : ∀ p ∈ U.parts m.id m.data, (h.find p).isSome ∧ c.tm p = m.t ∧ c.fix p = false) :
    ∃ h' st c', userJoint near U h m = .ok (h', st) ∧ (st = .processed ∨ st = .rejected) ∧ Off m.t h h' ∧
      MeasSpec dim near U c m c' ∧ Rel dim h' c' := by
  obtain ⟨dH, R, r, hU1, hdH, hne, hsub, k, hsh, hR, hrs⟩ := hU.joint m c.mu hm hk (fun p hpm => hr.muS p (hp p hpm).1)
  obtain ⟨h', ans, hs, hoff, hcase⟩ := joint_call hnear hr (R := R) (r := r) (t := m.t) hg hdH hne (fun p hpm => hp p (hsub p hpm)) hsh hR hrs
  have ht : ∀ p ∈ U.parts m.id m.data, c.tm p = m.t := fun p hpm => (hp p hpm).2.1
  have hs1 : userJoint near U h m = .ok (h', statusOf ans) := by
    unfold userJoint
    rw [meansAt_rel hr _ (fun p hpm => ⟨(hp p hpm).1, (hp p hpm).2.1⟩), Res.bind_ok, hU1, Res.bind_ok]
    simp only
    rw [hs, Res.bind_ok]
  rcases hcase with ⟨rfl, c', hc', hr'⟩ | ⟨rfl, rfl, hgate⟩
  · exact ⟨h', _, c', hs1, Or.inl rfl, hoff, .joint dH R r c' hk ht hU1 hc', hr'⟩
  · exact ⟨h', _, c, hs1, Or.inr rfl, hoff, .jointGate dH R r hk ht hU1 hgate, hr⟩

theorem off_privEKF {i j : Inst} (ho : i.Ord) {b : Belief} {t : Int} (hst : b.stamp = t) {H R r : Mat} {cfg : Cfg} {ans : Bool}
    (hs : i.privEKF b t H R r cfg = .ok (j, ans)) : Inst.OffI t i j := by
  unfold Inst.privEKF at hs
  obtain ⟨res, _, hs⟩ := bind_eq_ok hs
  split at hs
  · obtain ⟨k, hk, hs⟩ := bind_eq_ok hs
    obtain ⟨b', _, hs⟩ := bind_eq_ok hs
    obtain ⟨e, -⟩ := Prod.mk.inj (Res.ok.inj hs)
    subst e
    rw [hst] at hk
    rw [Inst.addCorrection_inv (ta := t) (tb := t) hk]
    have o1 := Inst.offI_mulFac ho t t res.U
    exact o1.trans (Inst.offI_setBelief o1.ord _ t)
  · obtain ⟨e, -⟩ := Prod.mk.inj (Res.ok.inj hs)
    subst e; exact Inst.OffI.refl ho

theorem user_priv (hnear : NearOk near) (hU : Proper dim U ok) (hg : GateOk U.cfg) (hr : Rel dim h c) (hm : ok m)
    (hid : (h.find m.id).isSome) (hk : m.kind = .priv) (hle : c.tm m.id ≤ m.t) (hfx : c.fix m.id = false) :
    ∃ h' st c', userPriv near U h m = .ok (h', st) ∧ (st = .processed ∨ st = .rejected) ∧ Off m.t h h' ∧
      MeasSpec dim near U c m c' ∧ Rel dim h' c' := by
  obtain ⟨i, hi'⟩ := Option.isSome_iff_exists.mp hid
  by_cases ht : c.tm m.id = m.t
  swap
  · have hnone := hr.at_none hi' (t := m.t) (by omega)
    refine ⟨h, .rejected, c, ?_, Or.inr rfl, Off.refl hr.ordered, .privNone hk ht, hr⟩
    unfold userPriv
    rw [get_ok hi', Res.bind_ok]
    simp only [hnone]
  obtain ⟨H, R, r, hU1, hH, hR, hrs⟩ := hU.priv m (c.mu m.id) hm hk (hr.muS _ hid)
  obtain ⟨b, hb, hmu, hcov, -⟩ := hr.at hi' ht
  have key : ∀ h' ans, privCall near U h i b m.id m.t H R r = .ok (h', ans) → userPriv near U h m = .ok (h', statusOf ans) := by
    intro h' ans hs
    unfold userPriv
    rw [get_ok hi', Res.bind_ok]
    simp only [hb]
    rw [hmu, hU1, Res.bind_ok]
    simp only
    rw [hs, Res.bind_ok]
  cases hv : U.viaHandler with
  | true =>
    obtain ⟨h', ans, hs, hoff, hcase⟩ := joint_call hnear hr (dH := [(m.id, H)]) (R := R) (r := r) (t := m.t) (cfg := U.cfg) (k := H.rows) hg
      (by simp [SMap.Sorted]) (by simp) (by intro p hp; simp [SMap.keys] at hp; subst hp; exact ⟨hid, ht, hfx⟩)
      (by intro e he; simp at he; subst he; exact ⟨rfl, hH⟩) hR hrs
    have hs1 := key h' ans (by unfold privCall; rw [hv, if_pos rfl]; exact hs)
    rcases hcase with ⟨rfl, c', hc', hr'⟩ | ⟨rfl, rfl, hgate⟩
    · exact ⟨h', _, c', hs1, Or.inl rfl, hoff, .privH H R r c' hk ht hv hU1 hc', hr'⟩
    · exact ⟨h', _, c, hs1, Or.inr rfl, hoff, .privHGate H R r hk ht hv hU1 hgate, hr⟩
  | false =>
    have hw : Wf dim h (.privEKF m.id H R r m.t U.cfg) := Newest.of_rel hr hid ht
    have hf : Fits dim h (.privEKF m.id H R r m.t U.cfg) := ⟨hH, hR, hrs, hg⟩
    obtain ⟨h', ans, hs, -⟩ := progress_rel (fp := FP.exact) (pred := noPredict) hnear hr _ hw hf
    have hs0 := hs
    simp only [run, get_ok hi', Res.bind_ok, hb] at hs
    have hs1 := key h' ans (by unfold privCall; rw [hv, if_neg (by simp)]; exact hs)
    obtain ⟨x, hx, hs⟩ := bind_eq_ok hs
    obtain ⟨j, a⟩ := x
    obtain ⟨e1, e2⟩ := Prod.mk.inj (Res.ok.inj hs)
    simp only at e1 e2
    subst e2
    have hst : b.stamp = m.t := by
      obtain ⟨b', hb', -, -, h3, -⟩ := hr.bel m.id hid
      rw [bl_of_find hi', ht, hb] at hb'
      rw [Option.some.inj hb', h3, ht]
    have hoff : Off m.t h h' := by
      rw [← e1]
      exact Off.set hr.ordered hi' (off_privEKF (hr.ok.ord _ _ hi') hst hx)
    cases ha : a with
    | true =>
      rw [ha] at hs0 hs1
      obtain ⟨c', hc', hr'⟩ := accepted hnear hr _ hw hs0
      exact ⟨h', _, c', hs1, Or.inl rfl, hoff, .priv H R r c' hk ht hv hU1 hc', hr'⟩
    | false =>
      rw [ha] at hs0 hs1 hx
      have e := rejected hr _ hw hs0
      refine ⟨h', _, c, hs1, Or.inr rfl, hoff, .privGate H R r hk ht hv hU1 ?_, by rw [e]; exact hr⟩
      unfold Inst.privEKF at hx
      obtain ⟨res, hc, hx⟩ := bind_eq_ok hx
      cases hrj : res.rejected with
      | true => exact ⟨res, by rw [← hcov]; exact hc, hrj⟩
      | false =>
        rw [hrj] at hx
        simp only [Bool.not_false, if_true] at hx
        obtain ⟨_, _, hx⟩ := bind_eq_ok hx
        obtain ⟨_, _, hx⟩ := bind_eq_ok hx
        simp at hx

theorem user_step (hnear : NearOk near) (hU : Proper dim U ok) (hg : GateOk U.cfg) (hr : Rel dim h c) (hroom : Room fp keep hi h)
    (hm : ok m) (hid : (h.find m.id).isSome) (hfix : ∀ p, (h.find p).isSome → c.fix p = false) (hlo : 0 ≤ m.t) (hmi : m.t ≤ hi) (hhi : hi ≤ 8589934590000000000) (hle : c.tm m.id ≤ m.t)
    (hk : m.kind ≠ .unknown) (hprop : m.kind = .propagation → c.tm m.id < m.t)
    (hjoint : m.kind = .joint → ∀ p ∈ U.parts m.id m.data, (h.find p).isSome ∧ c.tm p = m.t) :
    ∃ h' st c', userStep fp near U h m = .ok (h', st) ∧ (st = .processed ∨ st = .rejected) ∧ OffW (Lost keep m) m.t h h' ∧
      MeasSpec dim near U c m c' ∧ Rel dim h' c' := by
  cases hkk : m.kind with
  | unknown => exact absurd hkk hk
  | propagation =>
    obtain ⟨h', c', e, hoff, hc, hr'⟩ := user_prop (fp := fp) hnear hU hr hroom hm hid hlo hmi hhi hkk (hprop hkk)
    exact ⟨h', .processed, c', by unfold userStep; rw [hkk]; exact e, Or.inl rfl, hoff, hc, hr'⟩
  | priv =>
    obtain ⟨h', st, c', e, r1, r2, r⟩ := user_priv hnear hU hg hr hm hid hkk hle (hfix _ hid)
    exact ⟨h', st, c', by unfold userStep; rw [hkk]; exact e, r1, r2.weak _, r⟩
  | joint =>
    obtain ⟨h', st, c', e, r1, r2, r⟩ := user_joint hnear hU hg hr hm hkk (fun p hp => ⟨(hjoint hkk p hp).1, (hjoint hkk p hp).2, hfix p (hjoint hkk p hp).1⟩)
    exact ⟨h', st, c', by unfold userStep; rw [hkk]; exact e, r1, r2.weak _, r⟩

/-! ## Histories -/

/-- The state of the instances after the measurements `L`: the newest estimates are those of the centralised filter after
`L`, and what is stored before a time between two measurements are those of the centralised filter at that time, as long as
that time is not too long before the newest time `T` the instances have been at. -/
def Holds (fp : FP) (near : Mat → Mat) (U : EkfUser P) (dim : ℕ → ℕ) (h0 : Hdl) (c0 : Central) (keep : ℕ → Int) (span t0 hi : Int) (T : Int) (L : List (Meas P))
    (w : Res Hdl) : Prop :=
  ∃ h c, w = .ok h ∧ SameDom h0 h ∧ Room fp keep hi h ∧ CentralRun dim near U c0 L c ∧ Rel dim h c ∧
    ∀ t L1 L2, t0 < t → L = L1 ++ L2 → (∃ o ∈ L1, T - o.t ≤ span) → (∀ m ∈ L1, m.t < t) → (∀ m ∈ L2, t ≤ m.t) →
      ∃ c1, CentralRun dim near U c0 L1 c1 ∧ Rel dim (cut h t) c1

section
variable {h0 : Hdl} {t0 span T : Int} {L : List (Meas P)} {w : Res Hdl}

theorem Holds.undo {L1 L2 : List (Meas P)} {t : Int} (hh : Holds fp near U dim h0 c0 keep span t0 hi T (L1 ++ L2) (.ok h)) (ht0 : t0 < t)
    (hrec : ∃ o ∈ L1, T - o.t ≤ span) (h1 : ∀ m ∈ L1, m.t < t) (h2 : ∀ m ∈ L2, t ≤ m.t) :
    Holds fp near U dim h0 c0 keep span t0 hi T L1 (.ok (cut h t)) ∧ Ordered h ∧ ∀ p, (h.find p).isSome → ∃ s b, s < t ∧ bl h p s = some b := by
  obtain ⟨g, c, e, hd, hroom, hrun, hr, hpast⟩ := hh
  obtain rfl := Res.ok.inj e
  have ho := hr.ordered
  obtain ⟨c1, hrun1, hr1⟩ := hpast t L1 L2 ht0 rfl hrec h1 h2
  have htm : ∀ p, ((cut h t).find p).isSome → c1.tm p < t ∧ ∃ b, bl h p (c1.tm p) = some b := by
    intro p hp
    obtain ⟨b, hb, -⟩ := hr1.bel p hp
    rw [bl_cut ho] at hb
    split at hb
    · rename_i hlt; exact ⟨hlt, b, hb⟩
    · simp at hb
  refine ⟨⟨cut h t, c1, rfl, ?_, room_cut ho hroom t, hrun1, hr1, ?_⟩, ho, ?_⟩
  · intro p; rw [cut_sameDom h t p, hd p]
  · intro t' K1 K2 ht' hL hK0 hK1 hK2
    by_cases hle : t' ≤ t
    · obtain ⟨c2, hrun2, hr2⟩ := hpast t' K1 (K2 ++ L2) ht' (by rw [hL, List.append_assoc]) hK0 hK1 (by
        intro m hm
        rcases List.mem_append.mp hm with hm | hm
        · exact hK2 m hm
        · have := h2 m hm; omega)
      exact ⟨c2, hrun2, hr2.cut_cut ho hle⟩
    · have hK : K2 = [] := by
        cases K2 with
        | nil => rfl
        | cons x K2 =>
          have := h1 x (by rw [hL]; simp)
          have := hK2 x (by simp)
          omega
      rw [hK, List.append_nil] at hL
      rw [← hL]
      exact ⟨c1, hrun1, hr1.cut_all (fun p hp => by have := (htm p hp).1; omega)⟩
  · intro p hp
    obtain ⟨hlt, b, hb⟩ := htm p (by rw [cut_sameDom h t p]; exact hp)
    exact ⟨_, b, hlt, hb⟩

/-- At least the time of a propagation in the list. -/
theorem clock_ge (p : ℕ) (a : Int) (L : List (Meas P)) (hp : L.Pairwise Meas.before) (ha : ∀ m ∈ L, a ≤ m.t) :
    a ≤ L.foldl (clockStep p) a ∧ ∀ x ∈ L, x.kind = .propagation → x.id = p → x.t ≤ L.foldl (clockStep p) a := by
  induction L using List.reverseRecOn with
  | nil => simp
  | append_singleton L y ih =>
    rw [List.foldl_append]
    simp only [List.foldl_cons, List.foldl_nil]
    rw [List.pairwise_append] at hp
    obtain ⟨i1, i2⟩ := ih hp.1 (fun m hm => ha m (by simp [hm]))
    rw [clockStep]
    split
    · refine ⟨ha y (by simp), ?_⟩
      intro x hx h1 h2
      rcases List.mem_append.mp hx with hxL | hxy
      · have h4 := hp.2.2 x hxL y (by simp)
        unfold Meas.before at h4
        omega
      · have : x = y := by simpa using hxy
        rw [this]
    · rename_i hc
      refine ⟨i1, ?_⟩
      intro x hx h1 h2
      rcases List.mem_append.mp hx with hxL | hxy
      · exact i2 x hxL h1 h2
      · have : x = y := by simpa using hxy
        exact absurd ⟨this ▸ h1, this ▸ h2⟩ hc

/-- The isolated filters under the handler mean what the centralised filter computes. -/
theorem holds_denotes (hnear : NearOk near) (hU : Proper dim U ok) (hg : GateOk U.cfg) (hfix : ∀ p, (h0.find p).isSome → c0.fix p = false)
    (htm : ∀ p, (h0.find p).isSome → c0.tm p ≤ t0) (ht0 : 0 ≤ t0) (hhi : hi ≤ 8589934590000000000) :
    Denotes (userInsts fp near U) (fun p => (h0.find p).isSome) (Served U (fun p => (h0.find p).isSome) ok c0.tm keep span t0 hi) span
      (Holds fp near U dim h0 c0 keep span t0 hi) := by
  constructor
  · intro L m hp hs
    have hlast := (List.pairwise_append.mp hp).2.2
    refine ⟨fun x hx => hs.known x (by simp [hx]), fun x hx => hs.time x (by simp [hx]), (List.pairwise_append.mp hs.once).1, ?_, ?_⟩
    · intro x hx hk p hpm
      obtain ⟨h1, y, hy, h2, h3, h4⟩ := hs.reached x (by simp [hx]) hk p hpm
      refine ⟨h1, y, ?_, h2, h3, h4⟩
      rcases List.mem_append.mp hy with hy | hy
      · exact hy
      · have : y = m := by simpa using hy
        subst this
        have := hlast x hx y (by simp)
        unfold Meas.before at this
        rw [hk, h2] at this
        simp only [ObsType.prio] at this
        omega
    · intro o ho x hx hk hox hsp
      obtain ⟨s, h1, h2, h3⟩ := hs.fresh o (by simp [ho]) x (by simp [hx]) hk hox hsp
      refine ⟨s, ?_, h2, h3⟩
      rcases h1 with h1 | ⟨y, hy, y1, y2, y3⟩
      · exact Or.inl h1
      · refine Or.inr ⟨y, ?_, y1, y2, y3⟩
        rcases List.mem_append.mp hy with hy | hy
        · exact hy
        · have : y = m := by simpa using hy
          subst this
          have := hlast x hx y (by simp)
          unfold Meas.before at this
          omega
  · rintro T L w ⟨h, c, rfl, hd, -⟩ p
    exact hd p
  · rintro T T' L w ⟨h, c, e, hd, hroom, hrun, hr, hpast⟩ hTT
    refine ⟨h, c, e, hd, hroom, hrun, hr, fun t L1 L2 ht hL ho h1 h2 => hpast t L1 L2 ht hL ?_ h1 h2⟩
    obtain ⟨o, ho, hos⟩ := ho
    exact ⟨o, ho, by omega⟩
  · rintro T L m w hp hs ⟨h, c, rfl, hd, hroom, hrun, hr, hpast⟩ hmT
    have hmL : m ∈ L ++ [m] := by simp
    obtain ⟨k1, k2, k3⟩ := hs.known m hmL
    obtain ⟨tt1, tt2⟩ := hs.time m hmL
    have hlast : ∀ x ∈ L, x.t ≤ m.t := by
      intro x hx
      have := (List.pairwise_append.mp hp).2.2 x hx m (by simp)
      unfold Meas.before at this; omega
    have hreg : ∀ {p}, (h.find p).isSome → (h0.find p).isSome := fun {p} hp => by rw [← hd p]; exact hp
    have hid : (h.find m.id).isSome := by rw [hd m.id]; exact k1
    have hle : ∀ p, (h.find p).isSome → c.tm p ≤ m.t := by
      intro p hpp
      have := clock_lt p (c0.tm p) (m.t + 1) L (by have := htm p (hreg hpp); omega) (fun x hx _ _ => by have := hlast x hx; omega)
      rw [← hrun.clock p] at this
      omega
    obtain ⟨h', st, c', e, hst, hoff, hspec, hr'⟩ := user_step (fp := fp) hnear hU hg hr hroom k3 hid
      (fun p hpp => by rw [hrun.fix p]; exact hfix p (hreg hpp)) (by omega) tt2 hhi (hle _ hid) k2
      (by
        intro hk
        rw [hrun.clock m.id]
        apply clock_lt
        · have := htm m.id k1; omega
        · intro x hx hxk hxi
          have h1 := (List.pairwise_append.mp hs.once).2.2 x hx m (by simp) hxk hk hxi
          have := hlast x hx
          omega)
      (by
        intro hk p hpm
        obtain ⟨h1, y, hy, h2, h3, h4⟩ := hs.reached m hmL hk p hpm
        refine ⟨by rw [hd p]; exact h1, ?_⟩
        rw [hrun.clock p]
        have hyL : y ∈ L := by
          rcases List.mem_append.mp hy with hy | hy
          · exact hy
          · have : y = m := by simpa using hy
            rw [this, hk] at h2; simp at h2
        exact clock_eq p _ m.t L (List.pairwise_append.mp hp).1 hlast hyL h2 h3 h4)
    refine ⟨k1, rfl, ?_, ?_⟩
    · show (settle (.ok h) (userStep fp near U h m)).2 = .processed ∨ (settle (.ok h) (userStep fp near U h m)).2 = .rejected
      rw [e]; exact hst
    · show Holds fp near U dim h0 c0 keep span t0 hi T (L ++ [m]) (settle (.ok h) (userStep fp near U h m)).1
      rw [e]
      refine ⟨h', c', rfl, ?_, hoff.room hroom (by omega) tt2, hrun.snoc hspec, hr', ?_⟩
      · intro p; rw [hoff.sameDom p, hd p]
      · intro t L1 L2 ht hL hL0 hL1 hL2
        rcases List.eq_nil_or_concat L2 with rfl | ⟨L2', x, rfl⟩
        · rw [List.append_nil] at hL
          rw [← hL]
          refine ⟨c', hrun.snoc hspec, hr'.cut_all ?_⟩
          intro p hpp
          rw [(hrun.snoc hspec).clock p]
          apply clock_lt
          · have := htm p (by rw [← hd p, ← hoff.sameDom p]; exact hpp); omega
          · intro x hx _ _; rw [hL] at hx; exact hL1 x hx
        · rw [List.concat_eq_append, ← List.append_assoc] at hL
          obtain ⟨eL, em⟩ := List.append_inj' hL rfl
          have em : m = x := by simpa using em
          obtain ⟨c1, hrun1, hr1⟩ := hpast t L1 L2' ht eL hL0 hL1 (fun y hy => hL2 y (by simp [hy]))
          have htm' : t ≤ m.t := by rw [em]; exact hL2 x (by simp)
          refine ⟨c1, hrun1, hr1.cut_off hr.ordered hoff htm' ?_⟩
          rintro p hpp ⟨q1, rfl, q3⟩
          obtain ⟨o, ho, hos⟩ := hL0
          have hot := hL1 o ho
          obtain ⟨s, s1, s2, s3⟩ := hs.fresh o (by rw [eL]; simp [ho]) m hmL q1 (by omega) (by omega)
          have hpL : L1.Pairwise Meas.before := by
            have := (List.pairwise_append.mp hp).1
            rw [eL] at this
            exact (List.pairwise_append.mp this).1
          obtain ⟨g1, g2⟩ := clock_ge m.id (c0.tm m.id) L1 hpL (fun y hy => by
            have h1 := (hs.time y (by rw [eL]; simp [hy])).1
            have h2 := htm m.id k1
            omega)
          rw [← hrun1.clock m.id] at g1 g2
          have : s ≤ c1.tm m.id := by
            rcases s1 with rfl | ⟨y, hy, y1, y2, rfl⟩
            · exact g1
            · apply g2 y _ y1 y2
              rcases List.mem_append.mp hy with hy | hy
              · rw [eL] at hy
                rcases List.mem_append.mp hy with hy | hy
                · exact hy
                · have := hL2 y (by simp [hy])
                  omega
              · have : y = m := by simpa using hy
                subst this
                omega
          omega
  · rintro T L1 L2 t w hp hs hh hne h1 h2
    obtain ⟨h, c, rfl, -⟩ := id hh
    obtain ⟨x, hx, hxs⟩ := id hne
    have := (hs.time x (by simp [hx])).1
    have := h1 x hx
    obtain ⟨q1, q2, q3⟩ := hh.undo (t := t) (by omega) hne h1 h2
    show Holds fp near U dim h0 c0 keep span t0 hi T L1 (.ok (removeBeliefsFrom h t))
    rw [removeBeliefsFrom_eq_cut q2 q3]; exact q1
  · rintro T L1 L2 t w hp hs hh hne h1 h2
    obtain ⟨h, c, rfl, -⟩ := id hh
    obtain ⟨x, hx, hxs⟩ := id hne
    have := (hs.time x (by simp [hx])).1
    have := h1 x hx
    obtain ⟨q1, q2, q3⟩ := hh.undo (t := t + 1) (by omega) hne (fun m hm => by have := h1 m hm; omega) (fun m hm => by have := h2 m hm; omega)
    show Holds fp near U dim h0 c0 keep span t0 hi T L1 (.ok (removeBeliefsAfter h t))
    rw [removeBeliefsAfter_eq_cut q2 q3]; exact q1

end

end
end Hdl
end Ikf
