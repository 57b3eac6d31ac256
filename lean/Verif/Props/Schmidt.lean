import Verif.Lemmas.Schmidt
import Verif.Props.IsolatedExamples

/-! # The Schmidt-Kalman handler (C44) -/

namespace Ikf
open Mat
namespace Hdl

variable {fp : FP} {near : Mat → Mat} {pred : ℕ → Inst → Int → Inst × Bool} {dim : ℕ → ℕ} {h h' : Hdl} {c : Central}

/-! ## Matrices -/

/-- An entry of the Joseph form depends on the two rows of the gain only. -/
theorem josephM_congr {H R r S G G' : Mat} {n m : ℕ} (hO : ObsShape H R r S n m) (hG : G.Shape n m) (hG' : G'.Shape n m) {i j : ℕ}
    (hi : ∀ k, G.e i k = G'.e i k) (hj : ∀ k, G.e j k = G'.e j k) : (josephM H R S G).e i j = (josephM H R S G').e i j := by
  have row : ∀ {A A' B : Mat} {a : ℕ}, A.cols = A'.cols → (∀ k, A.e a k = A'.e a k) → ∀ k, (A * B).e a k = (A' * B).e a k := by
    intro A A' B a hc ha k
    rw [mul_e, mul_e, hc]
    exact Finset.sum_congr rfl (fun x _ => by rw [ha x])
  have col : ∀ {A A' B B' : Mat} {a b : ℕ}, A.cols = A'.cols → (∀ k, A.e a k = A'.e a k) → (∀ k, B.e b k = B'.e b k) →
      (A * B.tr).e a b = (A' * B'.tr).e a b := by
    intro A A' B B' a b hc ha hb
    rw [mul_e, mul_e, hc]
    exact Finset.sum_congr rfl (fun x _ => by rw [ha x]; show _ * B.e b x = _ * B'.e b x; rw [hb x])
  have U : ∀ a, (∀ k, G.e a k = G'.e a k) → ∀ k, (one S.rows - G * H).e a k = (one S.rows - G' * H).e a k := by
    intro a ha k
    rw [sub_e _ _ (by rw [mul_rows, hG.1, hO.S.1]; rfl) (by rw [mul_cols, hO.H.2, hO.S.1]; rfl),
      sub_e _ _ (by rw [mul_rows, hG'.1, hO.S.1]; rfl) (by rw [mul_cols, hO.H.2, hO.S.1]; rfl), row (by rw [hG.2, hG'.2]) ha]
  unfold josephM
  have s1 : ∀ {X : Mat}, X.Shape n m → ((one S.rows - X * H) * S * (one S.rows - X * H).tr).Shape n n := by
    intro X hX; rw [hO.S.1]; exact (((Shape.one n).sub.mul hO.S).mul (Shape.one n).sub.tr)
  have s2 : ∀ {X : Mat}, X.Shape n m → (X * R * X.tr).Shape n n := fun hX => (hX.mul hO.R).mul hX.tr
  rw [add_e _ _ (by rw [(s2 hG).1, (s1 hG).1]) (by rw [(s2 hG).2, (s1 hG).2]),
    add_e _ _ (by rw [(s2 hG').1, (s1 hG').1]) (by rw [(s2 hG').2, (s1 hG').2])]
  have c1 : ((one S.rows - G * H) * S * (one S.rows - G * H).tr).e i j = ((one S.rows - G' * H) * S * (one S.rows - G' * H).tr).e i j :=
    col (A := (one S.rows - G * H) * S) (A' := (one S.rows - G' * H) * S) (B := one S.rows - G * H) (B' := one S.rows - G' * H) rfl
      (row (A := one S.rows - G * H) (A' := one S.rows - G' * H) rfl (U i hi)) (U j hj)
  have c2 : (G * R * G.tr).e i j = (G' * R * G'.tr).e i j :=
    col (A := G * R) (A' := G' * R) (B := G) (B' := G') rfl (row (A := G) (A' := G') (by rw [hG.2, hG'.2]) hi) hj
  rw [c1, c2]

theorem josephM_zero {H R r S : Mat} {n m : ℕ} (hO : ObsShape H R r S n m) : josephM H R S (Mat.zero n m) = S := by
  unfold josephM
  have hz : (Mat.zero n m).Shape n m := ⟨rfl, rfl⟩
  have hU : (one S.rows - Mat.zero n m * H) = one n := by
    rw [hO.S.1, zero_mul_mat hO.H]
    refine Mat.ext' rfl rfl ?_
    intro i j _ _
    rw [sub_e (one n) (Mat.zero n n) rfl rfl, zero_e, sub_zero]
  rw [hU, Mat.one_mul S n hO.S.1, tr_one, Mat.mul_one S n hO.S.2, zero_mul_mat hO.R, zero_mul_mat hz.tr]
  refine Mat.ext' rfl rfl ?_
  intro i j _ _
  rw [add_e _ _ (by rw [hO.S.1]; rfl) (by rw [hO.S.2]; rfl), zero_e, add_zero]

theorem toM_josephM {H R r S G : Mat} {n m : ℕ} (hO : ObsShape H R r S n m) (hG : G.Shape n m) :
    (josephM H R S G).toM n n = Alg.joseph (S.toM n n) (H.toM m n) (R.toM m m) (G.toM n m) := by
  have hU : (one n - G * H).Shape n n := (Shape.one n).sub
  unfold josephM Alg.joseph
  rw [hO.S.1, ((hU.mul hO.S).mul hU.tr).toM_add ((hG.mul hO.R).mul hG.tr), (hU.mul hO.S).toM_mul, hU.toM_mul,
    (hG.mul hO.R).toM_mul, hG.toM_mul, toM_tr, toM_tr, (Shape.one n).toM_sub (hG.mul hO.H), toM_one, hG.toM_mul]

/-- The posterior the handler uses. -/
theorem schmidt_psd {H R r S G : Mat} {n m : ℕ} (hO : ObsShape H R r S n m) (hG : G.Shape n m) (hS : (S.toM n n).PosSemidef)
    (hR : (R.toM m m).PosSemidef) (near : Mat → Mat) :
    fixPsd near (symM (josephM H R S G)) = josephM H R S G ∧ ((josephM H R S G).toM n n).PosSemidef := by
  have hJ := josephM_shape hO hG
  have hp : ((josephM H R S G).toM n n).PosSemidef := by rw [toM_josephM hO hG]; exact Alg.joseph_psd hS _ hR _
  have hsy : symM (josephM H R S G) = josephM H R S G := by
    apply toM_inj (n := n) (m := n) hJ.symM.1 hJ.symM.2 hJ.1 hJ.2
    exact toM_symM_symm hJ (Alg.psd_symm hp)
  rw [hsy]
  refine ⟨?_, hp⟩
  unfold fixPsd
  rw [if_pos]
  rw [hJ.1, hJ.2]
  exact ⟨rfl, hp⟩

/-! ## Runs of the Schmidt-Kalman handler -/

/-- Execution of one call on the Schmidt-Kalman handler: joint observations are overridden. -/
noncomputable def runS (fp : FP) (near : Mat → Mat) (pred : ℕ → Inst → Int → Inst × Bool) (h : Hdl) : Ev → Res (Hdl × Bool)
  | .jointR dH R r t cfg => applyObsSR near pred h dH R r t cfg
  | .jointZ dH z R t cfg => applyObsSZ near pred h dH z R t cfg
  | ev => run fp near pred h ev

/-- In-order calls as for the base class; the participants of a joint observation are not fixed. -/
def WfS (dim : ℕ → ℕ) (h : Hdl) (ev : Ev) : Prop :=
  Wf dim h ev ∧ match ev with
    | .jointR dH _ _ t _ => ∀ p ∈ dH.keys, fixedAt h t p = false
    | .jointZ dH _ _ t _ => ∀ p ∈ dH.keys, fixedAt h t p = false
    | _ => True

/-- States of the Schmidt-Kalman handler reachable by in-order use. -/
inductive ReachS (fp : FP) (near : Mat → Mat) (pred : ℕ → Inst → Int → Inst × Bool) (dim : ℕ → ℕ) : Hdl → Prop
  | init {h0 c0} (hi : Init dim h0 c0) : ReachS fp near pred dim h0
  | step {h h1 ev ans} (hr : ReachS fp near pred dim h) (hw : WfS dim h ev) (hs : runS fp near pred h ev = .ok (h1, ans)) : ReachS fp near pred dim h1

theorem fix_of_fixedAt (hr : Rel dim h c) {t : Int} {p : ℕ} (hN : Newest h p t) (hf : fixedAt h t p = false) : c.fix p = false := by
  obtain ⟨h1, h2⟩ := hN.rel hr
  obtain ⟨b, hb, -, -, -, h5⟩ := hr.bel p h1
  rw [h2] at hb
  unfold fixedAt at hf
  have : belief h p t = some b := hb
  rw [this] at hf
  rw [← h5]; exact hf

/-- What an accepted joint observation of the Schmidt-Kalman handler computes. -/
theorem correctJointS_rel (hnear : NearOk near) (hr : Rel dim h c) {dH : SMap Mat} {t : Int} (hp : Parts dim h c dH t)
    (hfx : ∀ p ∈ dH.keys, c.fix p = false) {H R r : Mat} {cfg : Cfg} (hs : correctJointS near h (dict h dH t) H R r t cfg = .ok (h', true)) :
    ∃ S G, StackedCov (participants dim c dH) c.cov S ∧ ObsShape H R r S (tot (participants dim c dH)) H.rows ∧
      IsSchmidtGain (participants dim c dH) (essentialAt h t) (gainM H R S cfg.eps) G ∧
      Rel dim h' (c.jointS (participants dim c dH) (essentialAt h t) (fixPsd near (symM (josephM H R S G))) (G * r)) := by
  obtain ⟨S, hSe, hSC⟩ := stackSigma_spec (dict h dH t) (dict_sorted hp) (covOf hr hp)
  have hu : unfixed (dict h dH t) = dict h dH t := by
    unfold unfixed; rw [List.filter_eq_self]; intro e he
    have := mem_dict hr hp he
    rw [this.2.2.2.2.2.2.2.1, hfx _ this.1]; rfl
  have hpe := participants_eq hr hp
  rw [← hpe] at hSC
  rw [hu] at hpe
  unfold correctJointS at hs
  obtain ⟨res, hres, hs⟩ := bind_eq_ok hs
  split at hs
  swap
  · simp at hs
  rename_i hrej
  have hrej : res.rejected = false := by simpa using hrej
  obtain ⟨h1, e1, hs⟩ := bind_eq_ok hs
  obtain ⟨x1, -⟩ := Prod.mk.inj (Res.ok.inj hs)
  subst x1
  by_cases hd : checkDimObs H R r S = true
  · have hd' := (checkDimObs_iff _ _ _ _).mp hd
    have hO : ObsShape H R r S (tot (participants dim c dH)) H.rows :=
      ⟨⟨rfl, by rw [hd'.1, hSC.1.1]⟩, ⟨hd'.2.2.2.1, hd'.2.2.2.2⟩, ⟨hd'.2.1, hd'.2.2.1⟩, hSC.1⟩
    have hK := gainM_shape hO cfg.eps
    obtain ⟨G, hG, hGg⟩ := schmidtGain_ok (Sorted.nodup (dict_sorted (h := h) hp)) (by rw [← hpe]; exact hK) (essentialAt h t)
      (fun e he => by unfold essentialAt; rw [(mem_dict hr hp he).2.2.2.1])
    rw [hK.1, hK.2] at hG
    rw [← hpe] at hGg
    have hGs : G.Shape (tot (participants dim c dH)) H.rows := ⟨by rw [hGg.1.1, hK.1], by rw [hGg.1.2, hK.2]⟩
    rw [schmidtStep_eq hSe hO cfg hG hGs] at hres
    obtain ⟨rej, -, hres⟩ := bind_eq_ok hres
    have hres := (Res.ok.inj hres).symm
    have hJ := josephM_shape hO hGs
    rw [hres] at e1
    simp only at e1
    obtain ⟨hP1, hP2⟩ := fixPsd_facts hnear hJ.symM (symM_tr hJ)
    by_cases hne : participants dim c dH = []
    · rw [hpe] at hne
      have hne' : dict h dH t = [] := by simpa using hne
      rw [hne'] at e1
      simp [commitS, applyCorrections, splitRightUpper, unfixed] at e1
    · obtain ⟨h2, e2, hr'⟩ := commitS_rel hr hp hfx hne hP1 hP2 (hGs.mul hO.r)
      rw [e2] at e1
      rw [← Res.ok.inj e1]
      exact ⟨S, G, hSC, hO, hGg, hr'⟩
  · unfold schmidtStep at hres
    rw [hSe, Res.bind_ok, if_neg hd] at hres
    rw [← Res.ok.inj hres] at hrej
    simp [CorrRes.dflt] at hrej

theorem correctJointS_false {d : SMap Belief} {H R r : Mat} {t : Int} {cfg : Cfg} (hs : correctJointS near h d H R r t cfg = .ok (h', false)) : h' = h := by
  unfold correctJointS at hs
  obtain ⟨res, -, hs⟩ := bind_eq_ok hs
  split at hs
  · obtain ⟨h1, -, hs⟩ := bind_eq_ok hs
    simp at hs
  · exact (Prod.mk.inj (Res.ok.inj hs)).1.symm

theorem jointSR_cases (hr : Rel dim h c) {dH : SMap Mat} {t : Int} (hp : Parts dim h c dH t) {R r : Mat} {cfg : Cfg} {ans : Bool}
    (hs : applyObsSR near pred h dH R r t cfg = .ok (h', ans)) :
    ∃ H, stackH dH = .ok H ∧ (ans = false ∧ h' = h ∨ correctJointS near h (dict h dH t) H R r t cfg = .ok (h', ans)) := by
  unfold applyObsSR at hs
  obtain ⟨H, hH, hs⟩ := bind_eq_ok hs
  rw [getDictBel_rel pred hr hp, Res.bind_ok] at hs
  simp only at hs
  split at hs
  · obtain ⟨x1, x2⟩ := Prod.mk.inj (Res.ok.inj hs)
    exact ⟨H, hH, Or.inl ⟨x2.symm, x1.symm⟩⟩
  · obtain ⟨S, -, hs⟩ := bind_eq_ok hs
    exact ⟨H, hH, Or.inr hs⟩

theorem jointSZ_cases (hr : Rel dim h c) {dH : SMap Mat} {t : Int} (hp : Parts dim h c dH t) {R z : Mat} {cfg : Cfg} {ans : Bool}
    (hs : applyObsSZ near pred h dH z R t cfg = .ok (h', ans)) :
    ∃ H, stackH dH = .ok H ∧ (ans = false ∧ h' = h ∨ ∃ x, StackedMean (participants dim c dH) c.mu x ∧
      correctJointS near h (dict h dH t) H R (z - H * x) t cfg = .ok (h', ans)) := by
  unfold applyObsSZ at hs
  obtain ⟨H, hH, hs⟩ := bind_eq_ok hs
  rw [getDictBel_rel pred hr hp, Res.bind_ok] at hs
  simp only at hs
  split at hs
  · obtain ⟨x1, x2⟩ := Prod.mk.inj (Res.ok.inj hs)
    exact ⟨H, hH, Or.inl ⟨x2.symm, x1.symm⟩⟩
  · obtain ⟨x, hme, hmC⟩ := stackMean_spec (dict h dH t) (dict_sorted hp) c.mu
      (fun e he => (mem_dict hr hp (mem_unfixed.mp he).1).2.2.2.2.1)
      (fun e he => (mem_dict hr hp (mem_unfixed.mp he).1).2.2.2.2.2.2.2.2.2.1)
    rw [← participants_eq hr hp] at hmC
    rw [hme, Res.bind_ok] at hs
    obtain ⟨S, -, hs⟩ := bind_eq_ok hs
    obtain ⟨Hm, hHm, hs⟩ := bind_eq_ok hs
    obtain ⟨r, hzr, hs⟩ := bind_eq_ok hs
    obtain ⟨S', -, hs⟩ := bind_eq_ok hs
    have e0 : Hm = H * x := by
      unfold Mat.mulC at hHm; split at hHm
      · exact (Res.ok.inj hHm).symm
      · simp at hHm
    have e00 : r = z - H * x := by
      unfold Mat.subC at hzr; split at hzr
      · rw [← e0]; exact (Res.ok.inj hzr).symm
      · simp at hzr
    rw [e00] at hs
    exact ⟨H, hH, Or.inr ⟨x, hmC, hs⟩⟩

theorem stepS_rel (hnear : NearOk near) (hr : Rel dim h c) {ev : Ev} (hw : WfS dim h ev) {ans : Bool} (hs : runS fp near pred h ev = .ok (h', ans)) :
    ∃ c', Rel dim h' c' := by
  have base : run fp near pred h ev = .ok (h', ans) → ∃ c', Rel dim h' c' := by
    intro hs
    cases ans with
    | true => obtain ⟨c', -, hr'⟩ := accepted hnear hr ev hw.1 hs; exact ⟨c', hr'⟩
    | false => rw [rejected hr ev hw.1 hs]; exact ⟨c, hr⟩
  cases ev with
  | jointR dH R r t cfg =>
    obtain ⟨⟨hdH, hN⟩, hfx⟩ := hw
    have hp : Parts dim h c dH t := ⟨hdH, fun p hpm => ((hN p hpm).rel hr).1, fun p hpm => ((hN p hpm).rel hr).2⟩
    obtain ⟨H, -, hc⟩ := jointSR_cases hr hp hs
    rcases hc with ⟨-, rfl⟩ | hc
    · exact ⟨c, hr⟩
    · cases ans with
      | false => rw [correctJointS_false hc]; exact ⟨c, hr⟩
      | true =>
        obtain ⟨S, G, -, -, -, hr'⟩ := correctJointS_rel hnear hr hp (fun p hpm => fix_of_fixedAt hr (hN p hpm) (hfx p hpm)) hc
        exact ⟨_, hr'⟩
  | jointZ dH z R t cfg =>
    obtain ⟨⟨hdH, hN⟩, hfx⟩ := hw
    have hp : Parts dim h c dH t := ⟨hdH, fun p hpm => ((hN p hpm).rel hr).1, fun p hpm => ((hN p hpm).rel hr).2⟩
    obtain ⟨H, -, hc⟩ := jointSZ_cases hr hp hs
    rcases hc with ⟨-, rfl⟩ | ⟨x, -, hc⟩
    · exact ⟨c, hr⟩
    · cases ans with
      | false => rw [correctJointS_false hc]; exact ⟨c, hr⟩
      | true =>
        obtain ⟨S, G, -, -, -, hr'⟩ := correctJointS_rel hnear hr hp (fun p hpm => fix_of_fixedAt hr (hN p hpm) (hfx p hpm)) hc
        exact ⟨_, hr'⟩
  | propKF => exact base hs
  | propEKF => exact base hs
  | propBel => exact base hs
  | privKF => exact base hs
  | privEKF => exact base hs
  | setCov => exact base hs

theorem ReachS.rel (hnear : NearOk near) (hr : ReachS fp near pred dim h) : ∃ c, Rel dim h c := by
  induction hr with
  | init hi => exact ⟨_, hi.rel⟩
  | step _ hw hs ih =>
    obtain ⟨c, hc⟩ := ih
    exact stepS_rel hnear hc hw hs

/-! ## Nuisance beliefs (every state, every outcome) -/

theorem correctBeliefsS_frame {P dx : Mat} {t : Int} (d : SMap Belief) {row : ℕ} {h h' : Hdl} (hs : correctBeliefsS P dx t d row h = .ok h') :
    SameDom h h' ∧ ∀ q, (∀ e ∈ d, e.1 = q → e.2.essential = false) → h'.find q = h.find q := by
  induction d generalizing row h with
  | nil => rw [Res.ok.inj hs]; exact ⟨SameDom.refl _, fun _ _ => rfl⟩
  | cons e r ih =>
    rw [correctBeliefsS] at hs
    split at hs
    · rename_i hf
      obtain ⟨B, hB, hs⟩ := bind_eq_ok hs
      obtain ⟨x, hx, hs⟩ := bind_eq_ok hs
      obtain ⟨b, hb, hs⟩ := bind_eq_ok hs
      obtain ⟨i, hi, hs⟩ := bind_eq_ok hs
      obtain ⟨d1, f1⟩ := ih hs
      refine ⟨(sameDom_set1 (get_eq_ok hi)).trans d1, ?_⟩
      intro q hq
      have hne : e.1 ≠ q := fun hh => by have := hq e List.mem_cons_self hh; rw [hf] at this; cases this
      rw [f1 q (fun x hx => hq x (List.mem_cons_of_mem _ hx)), SMap.find_set, if_neg hne]
    · obtain ⟨d1, f1⟩ := ih hs
      exact ⟨d1, fun q hq => f1 q (fun x hx => hq x (List.mem_cons_of_mem _ hx))⟩

theorem correctJointS_frame {d : SMap Belief} {H R r : Mat} {t : Int} {cfg : Cfg} {ans : Bool}
    (hs : correctJointS near h d H R r t cfg = .ok (h', ans)) :
    SameDom h h' ∧ ∀ q, (∀ e ∈ d, e.1 = q → e.2.essential = false) → bels h' q = bels h q := by
  unfold correctJointS at hs
  obtain ⟨res, hres, hs⟩ := bind_eq_ok hs
  split at hs
  · obtain ⟨h3, e3, hs⟩ := bind_eq_ok hs
    obtain ⟨x1, -⟩ := Prod.mk.inj (Res.ok.inj hs)
    subst x1
    unfold commitS at e3
    obtain ⟨h1, e1, e3⟩ := bind_eq_ok e3
    obtain ⟨h2, e2, e3⟩ := bind_eq_ok e3
    obtain ⟨d3, f3⟩ := correctBeliefsS_frame d e3
    have b2 : ∀ q, bels h2 q = bels h q := fun q => by rw [splitRightUpper_bels e2, applyCorrections_bels _ e1]
    refine ⟨(sameDom_of_bels b2).trans d3, fun q hq => ?_⟩
    rw [← b2 q]
    unfold bels
    rw [f3 q hq]
  · obtain ⟨x1, -⟩ := Prod.mk.inj (Res.ok.inj hs)
    subst x1
    exact ⟨SameDom.refl _, fun _ _ => rfl⟩

theorem dict_nuisance {ids : List ℕ} {t : Int} {x : Hdl × SMap Belief} (hx : getDictBel pred h ids t [] = .ok x) (p : ℕ)
    (hp : p ∉ ids ∨ ∃ b, belief h p t = some b ∧ b.essential = false) :
    bels x.1 p = bels h p ∧ ∀ e ∈ x.2, e.1 = p → e.2.essential = false := by
  obtain ⟨f1, f2, f3⟩ := getDictBel_frame _ hx
  have hmem : ∀ e ∈ x.2, e.1 ∈ ids ∧ ∃ i, x.1.find e.1 = some i ∧ i.beliefAt t = some e.2 := by
    intro e he
    rcases f3 e he with h3 | h3
    · simp at h3
    · exact h3
  rcases hp with hp | ⟨b, hb, hbe⟩
  · refine ⟨by unfold bels; rw [f2 p (Or.inl hp)], ?_⟩
    rintro e he rfl
    exact absurd (hmem e he).1 hp
  · obtain ⟨i, hi, hib⟩ := Option.bind_eq_some_iff.mp hb
    have hex : i.bel.existAt t = true := by
      unfold Inst.beliefAt at hib
      obtain ⟨e, he, -⟩ := Option.map_eq_some_iff.mp hib
      rw [Buf.existAt_iff]
      unfold Buf.getAt at he
      exact ⟨e, List.mem_of_find?_eq_some he, by simpa using List.find?_some he⟩
    have e1 := f2 p (Or.inr ⟨i, hi, hex⟩)
    refine ⟨by unfold bels; rw [e1], ?_⟩
    rintro e he rfl
    obtain ⟨-, j, hj1, hj2⟩ := hmem e he
    rw [e1, hi] at hj1
    rw [← Option.some.inj hj1, hib] at hj2
    rw [← Option.some.inj hj2]; exact hbe

/-- C44: whatever the state, the sizes of the matrices and the outcome, a joint observation with a residual
leaves the whole belief history of an instance whose belief at `t` is not essential, and of every instance
that does not take part. -/
theorem c44_nuisance_residual {dH : SMap Mat} {R r : Mat} {t : Int} {cfg : Cfg} {ans : Bool}
    (hs : applyObsSR near pred h dH R r t cfg = .ok (h', ans)) (p : ℕ)
    (hp : p ∉ dH.keys ∨ ∃ b, belief h p t = some b ∧ b.essential = false) : bels h' p = bels h p := by
  unfold applyObsSR at hs
  obtain ⟨H, hH, hs⟩ := bind_eq_ok hs
  obtain ⟨x, hx, hs⟩ := bind_eq_ok hs
  obtain ⟨e1, e2⟩ := dict_nuisance hx p hp
  split at hs
  · rw [← (Prod.mk.inj (Res.ok.inj hs)).1]; exact e1
  · obtain ⟨S0, hS0, hs⟩ := bind_eq_ok hs
    rw [(correctJointS_frame hs).2 p e2]; exact e1

/-- C44, the same for a measurement. -/
theorem c44_nuisance_meas {dH : SMap Mat} {R z : Mat} {t : Int} {cfg : Cfg} {ans : Bool}
    (hs : applyObsSZ near pred h dH z R t cfg = .ok (h', ans)) (p : ℕ)
    (hp : p ∉ dH.keys ∨ ∃ b, belief h p t = some b ∧ b.essential = false) : bels h' p = bels h p := by
  unfold applyObsSZ at hs
  obtain ⟨H, hH, hs⟩ := bind_eq_ok hs
  obtain ⟨x, hx, hs⟩ := bind_eq_ok hs
  obtain ⟨e1, e2⟩ := dict_nuisance hx p hp
  split at hs
  · rw [← (Prod.mk.inj (Res.ok.inj hs)).1]; exact e1
  · obtain ⟨m, hm, hs⟩ := bind_eq_ok hs
    obtain ⟨S0, hS0, hs⟩ := bind_eq_ok hs
    obtain ⟨Hm, hHm, hs⟩ := bind_eq_ok hs
    obtain ⟨r, hr, hs⟩ := bind_eq_ok hs
    obtain ⟨S, hS, hs⟩ := bind_eq_ok hs
    rw [(correctJointS_frame hs).2 p e2]; exact e1

/-- C44, the same for a measurement function, whatever that function returns. -/
theorem c44_nuisance_fun {hf : SMap Belief → List ℕ → Mat → SMap Mat × Mat} {ids : List ℕ} {R z : Mat} {t : Int} {cfg : Cfg} {st : Status}
    (hs : applyObsSH near pred hf h R z t ids cfg = .ok (h', st)) (p : ℕ)
    (hp : p ∉ ids ∨ ∃ b, belief h p t = some b ∧ b.essential = false) : bels h' p = bels h p := by
  unfold applyObsSH at hs
  obtain ⟨x, hx, hs⟩ := bind_eq_ok hs
  obtain ⟨e1, e2⟩ := dict_nuisance hx p hp
  split at hs
  · rw [← (Prod.mk.inj (Res.ok.inj hs)).1]; exact e1
  · obtain ⟨m, hm, hs⟩ := bind_eq_ok hs
    obtain ⟨S0, hS0, hs⟩ := bind_eq_ok hs
    obtain ⟨H, hH, hs⟩ := bind_eq_ok hs
    obtain ⟨S, hS, hs⟩ := bind_eq_ok hs
    obtain ⟨y, hy, hs⟩ := bind_eq_ok hs
    obtain ⟨x1, -⟩ := Prod.mk.inj (Res.ok.inj hs)
    rw [← x1, (correctJointS_frame (h' := y.1) (ans := y.2) hy).2 p e2]; exact e1

end Hdl
end Ikf
