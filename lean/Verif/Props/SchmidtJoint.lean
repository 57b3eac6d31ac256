import Verif.Props.Schmidt

/-! # The Schmidt-Kalman handler: what is read after a joint observation (C44) -/

namespace Ikf
open Mat
namespace Hdl

variable {fp : FP} {near : Mat → Mat} {pred : ℕ → Inst → Int → Inst × Bool} {dim : ℕ → ℕ} {h h' : Hdl} {c : Central}

/-- What a Schmidt-Kalman joint observation of the blocks `bs` with posterior covariance `P` and correction `dx`
does to the means `m` and covariances `C`: as the ordinary joint observation, but the non-essential
participants keep mean and own covariance. -/
structure JointEffectS (h h' : Hdl) (bs : List (ℕ × ℕ)) (ess : ℕ → Bool) (C C' : ℕ → ℕ → Mat) (m m' : ℕ → Mat) (P dx : Mat) : Prop where
  mean : ∀ p ∈ bs, m' p.1 = if ess p.1 then m p.1 + dx.block (off bs p.1) 0 p.2 1 else m p.1
  own : ∀ p ∈ bs, C' p.1 p.1 = if ess p.1 then P.block (off bs p.1) (off bs p.1) p.2 p.2 else C p.1 p.1
  pair : ∀ p ∈ bs, ∀ q ∈ bs, p.1 ≠ q.1 → C' p.1 q.1 = P.block (off bs p.1) (off bs q.1) p.2 q.2
  cross : ∀ p ∈ bs, ∀ q, q ∉ bs.map (·.1) → C' p.1 q = P.block (off bs p.1) (off bs p.1) p.2 p.2 * (C p.1 p.1).inv * C p.1 q
  cross' : ∀ p ∈ bs, ∀ q, q ∉ bs.map (·.1) → C' q p.1 = C q p.1 * (P.block (off bs p.1) (off bs p.1) p.2 p.2 * (C p.1 p.1).inv).tr
  others : ∀ p q, p ∉ bs.map (·.1) → q ∉ bs.map (·.1) → C' p q = C p q ∧ m' q = m q
  beliefs : ∀ q, (q ∉ bs.map (·.1) ∨ ess q = false) → bels h' q = bels h q

theorem stackSigma_symm {d : SMap Belief} {t : Int} {S : Mat} (hs : stackSigma h d t = .ok S) : S.tr = S := by
  unfold stackSigma at hs
  obtain ⟨M, -, hs⟩ := bind_eq_ok hs
  unfold symmetrize at hs
  obtain ⟨A, hA, hs⟩ := bind_eq_ok hs
  unfold Mat.addC at hA
  split at hA
  · rename_i hc
    have hM : M.Shape M.rows M.rows := ⟨rfl, hc.1.symm⟩
    rw [← Res.ok.inj hs, ← Res.ok.inj hA]
    exact symM_tr hM
  · simp at hA

theorem jointS_effect {bs : List (ℕ × ℕ)} (hn : (bs.map (·.1)).Nodup) (ess : ℕ → Bool) (P dx : Mat)
    (hin : ∀ q, q ∉ bs.map (·.1) → ess q = true ∨ (c.joint bs P dx).mu q = c.mu q ∧ (c.joint bs P dx).cov q q = c.cov q q)
    (hf : ∀ q, (q ∉ bs.map (·.1) ∨ ess q = false) → bels h' q = bels h q) :
    JointEffectS h h' bs ess c.cov (c.jointS bs ess P dx).cov c.mu (c.jointS bs ess P dx).mu P dx := by
  have E := joint_effect (dim := fun p => (bs.lookup p).getD 0) (h := h) (h' := h') (c := c) (bs := bs) (t := 0)
    (fun p hp => by rw [lookup_of_mem hn hp]; rfl) hn P dx (fun q hq => hf q (Or.inl hq))
  have hi : ∀ p ∈ bs, p.1 ∈ bs.map (·.1) := fun p hp => List.mem_map.mpr ⟨p, hp, rfl⟩
  constructor
  · intro p hp
    simp only [Central.jointS]
    rw [E.mean p hp]
  · intro p hp
    simp only [Central.jointS]
    rw [E.pair p hp p hp]
    cases ess p.1 <;> simp
  · intro p hp q hq hpq
    simp only [Central.jointS]
    rw [if_neg (fun x => hpq x.1), E.pair p hp q hq]
  · intro p hp q hq
    have hpq : p.1 ≠ q := fun e => hq (by rw [← e]; exact hi p hp)
    simp only [Central.jointS]
    rw [if_neg (fun x => hpq x.1), E.cross p hp q hq]
  · intro p hp q hq
    have hpq : p.1 ≠ q := fun e => hq (by rw [← e]; exact hi p hp)
    simp only [Central.jointS]
    rw [if_neg (fun x => hpq x.1.symm), E.cross' p hp q hq]
  · intro p q hp hq
    obtain ⟨e1, e2⟩ := E.others p q hp hq
    simp only [Central.jointS]
    rw [e1, e2]
    simp
  · exact hf

theorem keys_block {dH : SMap Mat} : (dH.keys.map (fun p => (p, dim p))).map (·.1) = dH.keys := by
  rw [List.map_map]
  have : ((fun x : ℕ × ℕ => x.1) ∘ fun p => (p, dim p)) = id := rfl
  rw [this, List.map_id]

theorem participants_unfixed {dH : SMap Mat} (hfx : ∀ p ∈ dH.keys, c.fix p = false) :
    participants dim c dH = dH.keys.map (fun p => (p, dim p)) := by
  unfold participants
  congr 1
  rw [List.filter_eq_self]
  intro p hp
  rw [hfx p hp]; rfl

/-- The common part of `c44_joint` and `c44_joint_meas`. -/
theorem jointS_reads (hnear : NearOk near) (hr : Rel dim h c) {dH : SMap Mat} {t : Int} (hdH : dH.Sorted) (hN : ∀ p ∈ dH.keys, Newest h p t)
    (hfx : ∀ p ∈ dH.keys, fixedAt h t p = false) {H R r : Mat} (hR : R.tr = R) {cfg : Cfg}
    (hs : correctJointS near h (dict h dH t) H R r t cfg = .ok (h', true)) :
    ∃ C' m', (∀ p q, Newest h p t → Newest h q t → IsCov dim h p q t (c.cov p q) ∧ IsMean h p t (c.mu p) ∧ (c.cov p q).Shape (dim p) (dim q)) ∧
      (∀ p q, Newest h p t → Newest h q t → IsCov dim h' p q t (C' p q) ∧ IsMean h' p t (m' p)) ∧
      ∃ S G, StackedCov (dH.keys.map fun p => (p, dim p)) c.cov S ∧
        ObsShape H R r S (tot (dH.keys.map fun p => (p, dim p))) H.rows ∧
        IsSchmidtGain (dH.keys.map fun p => (p, dim p)) (essentialAt h t) (kalmanGain H R S cfg.eps) G ∧
        JointEffectS h h' (dH.keys.map fun p => (p, dim p)) (essentialAt h t) c.cov C' c.mu m'
          (fixPsd near (symM (josephM H R S G))) (G * r) := by
  have hp : Parts dim h c dH t := ⟨hdH, fun p hpm => ((hN p hpm).rel hr).1, fun p hpm => ((hN p hpm).rel hr).2⟩
  have hfc : ∀ p ∈ dH.keys, c.fix p = false := fun p hpm => fix_of_fixedAt hr (hN p hpm) (hfx p hpm)
  have hpe := participants_unfixed (dim := dim) hfc
  obtain ⟨S, G, hS, hO, hG, hr'⟩ := correctJointS_rel hnear hr hp hfc hs
  have hSt : S.tr = S := by
    obtain ⟨S', hSe, hSC⟩ := stackSigma_spec (dict h dH t) (dict_sorted hp) (covOf hr hp)
    rw [← participants_eq hr hp] at hSC
    have : S = S' := by
      refine Mat.ext' (by rw [hS.1.1, hSC.1.1]) (by rw [hS.1.2, hSC.1.2]) ?_
      intro i j hi hj
      have hn : ((participants dim c dH).map (·.1)).Nodup := by
        rw [hpe, keys_block]; exact ((SMap.sorted_iff_keys dH).mp hdH).nodup
      obtain ⟨p, hp1, k, hk, rfl⟩ := off_cover hn (k := i) (by rw [← hS.1.1]; exact hi)
      obtain ⟨q, hq1, l, hl, rfl⟩ := off_cover hn (k := j) (by rw [← hS.1.2]; exact hj)
      rw [hS.2 p hp1 q hq1 k hk l hl, hSC.2 p hp1 q hq1 k hk l hl]
    rw [this]; exact stackSigma_symm hSe
  rw [gainM_eq hO hSt hR] at hG
  obtain ⟨hd, hfr⟩ := correctJointS_frame hs
  rw [hpe] at hS hO hG hr'
  have hess : ∀ q, q ∉ dH.keys → ∀ e ∈ dict h dH t, e.1 ≠ q := by
    intro q hq e he heq
    exact hq (by rw [← heq]; exact (mem_dict hr hp he).1)
  have hnew : ∀ p, Newest h p t → Newest h' p t := by
    intro p hp
    obtain ⟨h1, h2⟩ := hp.rel hr
    exact Newest.of_rel hr' (sameDom_isSome hd h1) (by simp only [Central.jointS, Central.joint]; exact h2)
  refine ⟨_, _, fun p q hp hq => ⟨hr.isCov hp hq, hr.isMean hp, hr.covS p q (hp.rel hr).1 (hq.rel hr).1⟩,
    fun p q hp hq => ⟨hr'.isCov (hnew p hp) (hnew q hq), hr'.isMean (hnew p hp)⟩, S, G, hS, hO, hG, ?_⟩
  refine jointS_effect (by rw [keys_block]; exact ((SMap.sorted_iff_keys dH).mp hdH).nodup) _ _ _ ?_ ?_
  · intro q hq
    right
    simp only [Central.joint]
    rw [if_neg hq, if_neg (fun x => hq x.1), if_neg hq, if_neg hq]
    exact ⟨rfl, rfl⟩
  · intro q hq
    rw [keys_block] at hq
    apply hfr q
    rintro e he rfl
    rcases hq with hq | hq
    · exact absurd rfl (hess _ hq e he)
    · unfold essentialAt at hq; rw [(mem_dict hr hp he).2.2.2.1] at hq; exact hq

/-- C44: in every state of the Schmidt-Kalman handler reachable by in-order use, an accepted joint observation with
residual `r` (unfixed participants at their newest belief, `R` symmetric) corrects the stacked participants with
the Kalman gain whose rows of non-essential participants are zero: the correction of the means is that gain
times `r`, the posterior is the Joseph form for that gain. -/
theorem c44_joint (hnear : NearOk near) (hreach : ReachS fp near pred dim h) {dH : SMap Mat} {R r : Mat} {t : Int} {cfg : Cfg}
    (hdH : dH.Sorted) (hN : ∀ p ∈ dH.keys, Newest h p t) (hfx : ∀ p ∈ dH.keys, fixedAt h t p = false) (hR : R.tr = R)
    (hs : runS fp near pred h (.jointR dH R r t cfg) = .ok (h', true)) :
    ∃ C C' m m', (∀ p q, Newest h p t → Newest h q t → IsCov dim h p q t (C p q) ∧ IsMean h p t (m p) ∧ (C p q).Shape (dim p) (dim q)) ∧
      (∀ p q, Newest h p t → Newest h q t → IsCov dim h' p q t (C' p q) ∧ IsMean h' p t (m' p)) ∧
      ∃ H S G, SideBySide dH H ∧ StackedCov (dH.keys.map fun p => (p, dim p)) C S ∧
        ObsShape H R r S (tot (dH.keys.map fun p => (p, dim p))) H.rows ∧
        IsSchmidtGain (dH.keys.map fun p => (p, dim p)) (essentialAt h t) (kalmanGain H R S cfg.eps) G ∧
        JointEffectS h h' (dH.keys.map fun p => (p, dim p)) (essentialAt h t) C C' m m'
          (fixPsd near (symM (josephM H R S G))) (G * r) := by
  obtain ⟨c, hr⟩ := hreach.rel hnear
  have hp : Parts dim h c dH t := ⟨hdH, fun p hpm => ((hN p hpm).rel hr).1, fun p hpm => ((hN p hpm).rel hr).2⟩
  obtain ⟨H, hH, hc⟩ := jointSR_cases hr hp hs
  rcases hc with ⟨hc, -⟩ | hc
  · cases hc
  · obtain ⟨C', m', g1, g2, S, G, g3, g4, g5, g6⟩ := jointS_reads hnear hr hdH hN hfx hR hc
    exact ⟨c.cov, C', c.mu, m', g1, g2, H, S, G, stackH_spec _ hdH _ hH, g3, g4, g5, g6⟩

/-- C44 for the version with a measurement `z`: the residual is `z - H m` with the stacked means. -/
theorem c44_joint_meas (hnear : NearOk near) (hreach : ReachS fp near pred dim h) {dH : SMap Mat} {R z : Mat} {t : Int} {cfg : Cfg}
    (hdH : dH.Sorted) (hN : ∀ p ∈ dH.keys, Newest h p t) (hfx : ∀ p ∈ dH.keys, fixedAt h t p = false) (hR : R.tr = R)
    (hs : runS fp near pred h (.jointZ dH z R t cfg) = .ok (h', true)) :
    ∃ C C' m m', (∀ p q, Newest h p t → Newest h q t → IsCov dim h p q t (C p q) ∧ IsMean h p t (m p) ∧ (C p q).Shape (dim p) (dim q)) ∧
      (∀ p q, Newest h p t → Newest h q t → IsCov dim h' p q t (C' p q) ∧ IsMean h' p t (m' p)) ∧
      ∃ H S G x, SideBySide dH H ∧ StackedCov (dH.keys.map fun p => (p, dim p)) C S ∧ StackedMean (dH.keys.map fun p => (p, dim p)) m x ∧
        ObsShape H R (z - H * x) S (tot (dH.keys.map fun p => (p, dim p))) H.rows ∧
        IsSchmidtGain (dH.keys.map fun p => (p, dim p)) (essentialAt h t) (kalmanGain H R S cfg.eps) G ∧
        JointEffectS h h' (dH.keys.map fun p => (p, dim p)) (essentialAt h t) C C' m m'
          (fixPsd near (symM (josephM H R S G))) (G * (z - H * x)) := by
  obtain ⟨c, hr⟩ := hreach.rel hnear
  have hp : Parts dim h c dH t := ⟨hdH, fun p hpm => ((hN p hpm).rel hr).1, fun p hpm => ((hN p hpm).rel hr).2⟩
  obtain ⟨H, hH, hc⟩ := jointSZ_cases hr hp hs
  rcases hc with ⟨hc, -⟩ | ⟨x, hx, hc⟩
  · cases hc
  · obtain ⟨C', m', g1, g2, S, G, g3, g4, g5, g6⟩ := jointS_reads hnear hr hdH hN hfx hR hc
    rw [participants_unfixed (dim := dim) (fun p hpm => fix_of_fixedAt hr (hN p hpm) (hfx p hpm))] at hx
    exact ⟨c.cov, C', c.mu, m', g1, g2, H, S, G, x, stackH_spec _ hdH _ hH, g3, hx, g4, g5, g6⟩

/-- The beliefs at `t` of `ids`, as a map. -/
def IsBeliefMap (h : Hdl) (t : Int) (ids : List ℕ) (D : SMap Belief) : Prop :=
  D.map (·.1) = ids ∧ ∀ e ∈ D, belief h e.1 t = some e.2

theorem eraseFixed_unfixed (d : SMap Belief) (dH : SMap Mat) (hd : ∀ e ∈ d, e.2.fixed = false) : eraseFixed d dH = dH := by
  unfold eraseFixed
  induction d with
  | nil => rfl
  | cons e r ih =>
    rw [List.foldl_cons, hd e List.mem_cons_self]
    exact ih (fun x hx => hd x (List.mem_cons_of_mem _ hx))

/-- C44 for a measurement function: the function is given the beliefs of the participants at `t`, the IDs and the
measurement; with the Jacobians (of exactly the participants, all unfixed) and the residual it returns the effect is
that of the observation with that residual, so `c44_joint` applies; the answer is PROCESSED, accepted or not. -/
theorem c44_fun (hnear : NearOk near) (hreach : ReachS fp near pred dim h) {hf : SMap Belief → List ℕ → Mat → SMap Mat × Mat}
    {ids : List ℕ} {R z : Mat} {t : Int} {cfg : Cfg} (hids : ids.Pairwise (· < ·)) (hne : ids ≠ [])
    (hN : ∀ p ∈ ids, Newest h p t) (hfx : ∀ p ∈ ids, fixedAt h t p = false) {D : SMap Belief} (hD : IsBeliefMap h t ids D)
    (hJ : (hf D ids z).1.keys = ids) :
    applyObsSH near pred hf h R z t ids cfg =
      (runS fp near pred h (.jointR (hf D ids z).1 R (hf D ids z).2 t cfg) >>= fun y => .ok (y.1, .processed)) := by
  obtain ⟨c, hr⟩ := hreach.rel hnear
  have hB : ∀ p ∈ ids, bl h p t = some (blD h t p) := fun p hpm => hr.blD ((hN p hpm).rel hr).1 ((hN p hpm).rel hr).2
  have hDe : D = ids.map (fun p => (p, blD h t p)) := by
    obtain ⟨d1, d2⟩ := hD
    rw [← d1, List.map_map]
    conv_lhs => rw [← List.map_id D]
    refine List.map_congr_left (fun e he => ?_)
    have h1 := d2 e he
    rw [show belief h e.1 t = some (blD h t e.1) from hB e.1 (d1 ▸ List.mem_map_of_mem he)] at h1
    exact Prod.ext rfl (Option.some.inj h1).symm
  have hg := getDictBel_spec pred hr.ok t (blD h t) ids [] hids (by simp) hB
  rw [List.nil_append, ← hDe] at hg
  have hfD : ∀ e ∈ D, e.2.fixed = false := by
    intro e he
    have := hfx e.1 (hD.1 ▸ List.mem_map_of_mem he)
    unfold fixedAt at this
    rw [hD.2 e he] at this
    exact this
  have hDne : D.isEmpty = false := by
    rw [hDe]; cases ids with
    | nil => exact absurd rfl hne
    | cons _ _ => rfl
  have hdd : dict h (hf D ids z).1 t = D := by unfold dict; rw [hJ, hDe]
  have hp : Parts dim h c (hf D ids z).1 t := ⟨(SMap.sorted_iff_keys _).mpr (hJ.symm ▸ hids),
    fun p hpm => ((hN p (hJ ▸ hpm)).rel hr).1, fun p hpm => ((hN p (hJ ▸ hpm)).rel hr).2⟩
  obtain ⟨x, hme, -⟩ := stackMean_spec (dict h (hf D ids z).1 t) (dict_sorted hp) c.mu
      (fun e he => (mem_dict hr hp (mem_unfixed.mp he).1).2.2.2.2.1)
      (fun e he => (mem_dict hr hp (mem_unfixed.mp he).1).2.2.2.2.2.2.2.2.2.1)
  obtain ⟨S, hSe, hSC⟩ := stackSigma_spec (dict h (hf D ids z).1 t) (dict_sorted hp) (covOf hr hp)
  rw [hdd] at hme hSe
  show _ = (applyObsSR near pred h _ R _ t cfg >>= _)
  unfold applyObsSH applyObsSR
  rw [hJ, hg]
  simp only [hDne, Bool.false_eq_true, if_false, Res.bind_ok, hme, hSe]
  rw [eraseFixed_unfixed _ _ hfD, stabilize_ok hSC.1]
  cases stackH (hf D ids z).1 with
  | ok H => simp only [Res.bind_ok]
  | ub => rfl
  | throws => rfl

/-- ... if some participant has no belief at `t` and predicting one fails the answer is OUTOFORDER and no belief changes
except by such predictions. -/
theorem c44_fun_missing {hf : SMap Belief → List ℕ → Mat → SMap Mat × Mat} {ids : List ℕ} {R z : Mat} {t : Int} {cfg : Cfg}
    (hreg : ∀ p ∈ ids, (h.find p).isSome) (hno : ∃ p i, p ∈ ids ∧ h.find p = some i ∧ i.bel.existAt t = false)
    (ho : Ordered h) (hpr : ∀ p i, pred p i t = (i, false)) :
    ∃ h', applyObsSH near pred hf h R z t ids cfg = .ok (h', .outOfOrder) ∧ ∀ p, bels h' p = bels h p := by
  have hex : ∀ p i, h.find p = some i → i.bel.existAt t = true → (i.beliefAt t).isSome := by
    intro p i hi hx
    rw [Buf.existAt_iff] at hx
    obtain ⟨e, he, het⟩ := hx
    have : i.beliefAt t = some e.2 := by
      rw [Inst.beliefAt_eq, Buf.absMap_eq_some _ (ho.inst p i hi).bel, ← het]; exact he
    rw [this]; rfl
  have key : ∀ (ids : List ℕ) (acc : SMap Belief), (∀ p ∈ ids, (h.find p).isSome) →
      (∃ p i, p ∈ ids ∧ h.find p = some i ∧ i.bel.existAt t = false) →
      ∃ p i, h.find p = some i ∧ getDictBel pred h ids t acc = .ok (h.set p i, []) ∨ getDictBel pred h ids t acc = .ok (h, []) := by
    intro ids
    induction ids with
    | nil => rintro - - ⟨p, i, hp, -⟩; cases hp
    | cons q r ih =>
      intro acc hreg hno
      obtain ⟨i, hi⟩ := Option.isSome_iff_exists.mp (hreg q List.mem_cons_self)
      rw [getDictBel]
      unfold beliefPredict
      rw [get_ok hi, Res.bind_ok]
      by_cases hq : i.bel.existAt t = true
      · obtain ⟨b, hb⟩ := Option.isSome_iff_exists.mp (hex q i hi hq)
        simp only [hq, if_true, Res.bind_ok, hb]
        refine ih _ (fun p hp => hreg p (List.mem_cons_of_mem _ hp)) ?_
        obtain ⟨p, j, hp, hj, hjt⟩ := hno
        rcases List.mem_cons.mp hp with rfl | hp
        · rw [hi] at hj; rw [← Option.some.inj hj, hq] at hjt; cases hjt
        · exact ⟨p, j, hp, hj, hjt⟩
      · refine ⟨q, i, Or.inl ⟨hi, ?_⟩⟩
        simp only [hq, hpr, Bool.false_eq_true, if_false, Res.bind_ok]
  obtain ⟨p, i, hc⟩ := key ids [] hreg hno
  unfold applyObsSH
  rcases hc with ⟨hi, hc⟩ | hc
  · refine ⟨h.set p i, by rw [hc, Res.bind_ok]; rfl, fun q => ?_⟩
    unfold bels
    rw [SMap.find_set]
    by_cases hqp : p = q
    · rw [if_pos hqp, ← hqp, hi]
    · rw [if_neg hqp]
  · exact ⟨h, by rw [hc, Res.bind_ok]; rfl, fun q => rfl⟩

/-- C44, the posterior: for PSD prior and PSD measurement noise the posterior the handler commits is the Joseph
form itself (no repair), it is PSD, its blocks between non-essential participants are the prior ones and those
between essential participants are the ones of the ordinary filter with the full gain; the correction of a
non-essential participant is zero, that of an essential one is the one of the ordinary filter. -/
theorem c44_posterior {bs : List (ℕ × ℕ)} {C : ℕ → ℕ → Mat} {ess : ℕ → Bool} {H R r S K G : Mat} {m : ℕ}
    (hS : StackedCov bs C S) (hO : ObsShape H R r S (tot bs) m) (hK : K.Shape (tot bs) m) (hG : IsSchmidtGain bs ess K G)
    (pS : (S.toM (tot bs) (tot bs)).PosSemidef) (pR : (R.toM m m).PosSemidef) (near : Mat → Mat) :
    fixPsd near (symM (josephM H R S G)) = josephM H R S G ∧ ((josephM H R S G).toM (tot bs) (tot bs)).PosSemidef ∧
    (∀ p ∈ bs, ∀ q ∈ bs, ess p.1 = false → ess q.1 = false → ∀ i < p.2, ∀ j < q.2,
      (josephM H R S G).e (off bs p.1 + i) (off bs q.1 + j) = (C p.1 q.1).e i j) ∧
    (∀ p ∈ bs, ∀ q ∈ bs, ess p.1 = true → ess q.1 = true → ∀ i < p.2, ∀ j < q.2,
      (josephM H R S G).e (off bs p.1 + i) (off bs q.1 + j) = (josephM H R S K).e (off bs p.1 + i) (off bs q.1 + j)) ∧
    (∀ p ∈ bs, ∀ i < p.2, (G * r).e (off bs p.1 + i) 0 = if ess p.1 then (K * r).e (off bs p.1 + i) 0 else 0) := by
  have hGs : G.Shape (tot bs) m := ⟨by rw [hG.1.1, hK.1], by rw [hG.1.2, hK.2]⟩
  obtain ⟨a1, a2⟩ := schmidt_psd hO hGs pS pR near
  refine ⟨a1, a2, ?_, ?_, ?_⟩
  · intro p hp q hq ep eq i hi j hj
    have h0 := josephM_congr hO hGs (G' := Mat.zero (tot bs) m) ⟨rfl, rfl⟩ (i := off bs p.1 + i) (j := off bs q.1 + j)
      (fun k => by rw [hG.2 p hp i hi k, ep, zero_e]; rfl) (fun k => by rw [hG.2 q hq j hj k, eq, zero_e]; rfl)
    rw [h0, josephM_zero hO, hS.2 p hp q hq i hi j hj]
  · intro p hp q hq ep eq i hi j hj
    exact josephM_congr hO hGs hK (fun k => by rw [hG.2 p hp i hi k, ep]; rfl) (fun k => by rw [hG.2 q hq j hj k, eq]; rfl)
  · intro p hp i hi
    have : ∀ (X Y : Mat) (a : ℕ), X.cols = Y.cols → (∀ k, X.e a k = Y.e a k) → (X * r).e a 0 = (Y * r).e a 0 := by
      intro X Y a hc hk
      rw [mul_e, mul_e, hc]
      exact Finset.sum_congr rfl (fun x _ => by rw [hk])
    cases ep : ess p.1 with
    | true =>
      simp only [if_true]
      exact this G K _ (by rw [hGs.2, hK.2]) (fun k => by rw [hG.2 p hp i hi k, ep]; rfl)
    | false =>
      simp only [Bool.false_eq_true, if_false]
      rw [this G (Mat.zero (tot bs) m) _ (by rw [hGs.2]; rfl) (fun k => by rw [hG.2 p hp i hi k, ep, zero_e]; rfl), zero_mul_mat hO.r, zero_e]

/-- C44: the cross-covariance of a non-essential participant with an instance that does not take part is unchanged
(posterior block equal to the prior, which is invertible). -/
theorem c44_nuisance_cross {P A B : Mat} {n k : ℕ} (hA : A.Shape n n) (hB : B.Shape n k) (hdet : IsUnit (A.toM n n).det) (hP : P = A) :
    P * A.inv * B = B := by
  rw [hP]
  apply toM_inj (n := n) (m := k) ((hA.mul hA.inv).mul hB).1 ((hA.mul hA.inv).mul hB).2 hB.1 hB.2
  rw [(hA.mul hA.inv).toM_mul, hA.toM_mul, hA.toM_inv, Matrix.mul_nonsing_inv _ hdet, Matrix.one_mul]

/-- C44, in what the user reads: if the stacked prior and `R` are PSD, an accepted joint observation leaves the
covariance of any two non-essential participants, and that of a non-essential participant with an invertible
covariance and any instance that does not take part. -/
theorem c44_nuisance_covariances (hnear : NearOk near) (hreach : ReachS fp near pred dim h) {dH : SMap Mat} {R r : Mat} {t : Int} {cfg : Cfg}
    (hdH : dH.Sorted) (hN : ∀ p ∈ dH.keys, Newest h p t) (hfx : ∀ p ∈ dH.keys, fixedAt h t p = false) (hR : R.tr = R)
    (pR : (R.toM R.rows R.rows).PosSemidef)
    (pS : ∀ C S, (∀ p ∈ dH.keys, ∀ q ∈ dH.keys, IsCov dim h p q t (C p q)) → StackedCov (dH.keys.map fun p => (p, dim p)) C S →
      (S.toM S.rows S.rows).PosSemidef)
    (hs : runS fp near pred h (.jointR dH R r t cfg) = .ok (h', true)) {p : ℕ} (hp : p ∈ dH.keys) (ep : essentialAt h t p = false) :
    (∀ q ∈ dH.keys, essentialAt h t q = false → ∃ X, IsCov dim h p q t X ∧ IsCov dim h' p q t X) ∧
    (∀ q, q ∉ dH.keys → Newest h q t → (∀ A, IsCov dim h p p t A → IsUnit (A.toM (dim p) (dim p)).det) →
      ∃ X, IsCov dim h p q t X ∧ IsCov dim h' p q t X) := by
  obtain ⟨C, C', m, m', g1, g2, H, S, G, -, g3, g4, g5, g6⟩ := c44_joint hnear hreach hdH hN hfx hR hs
  have hSp := pS C S (fun a ha b hb => (g1 a b (hN a ha) (hN b hb)).1) g3
  have hK : (kalmanGain H R S cfg.eps).Shape (tot (dH.keys.map fun p => (p, dim p))) H.rows := by
    unfold kalmanGain
    have := (((g4.H.mul g4.S).mul g4.H.tr).add (B := R)).add (B := smul cfg.eps (one H.rows))
    exact (g4.S.mul g4.H.tr).mul this.inv
  rw [g3.1.1] at hSp
  rw [g4.R.1] at pR
  obtain ⟨k1, k2, k3, k4, k5⟩ := c44_posterior g3 g4 hK g5 hSp pR near
  have hbp : ∀ a ∈ dH.keys, (a, dim a) ∈ dH.keys.map (fun p => (p, dim p)) := fun a ha => List.mem_map.mpr ⟨a, ha, rfl⟩
  have hblk : ∀ a ∈ dH.keys, ∀ b ∈ dH.keys, essentialAt h t a = false → essentialAt h t b = false →
      (fixPsd near (symM (josephM H R S G))).block (off (dH.keys.map fun p => (p, dim p)) a) (off (dH.keys.map fun p => (p, dim p)) b) (dim a) (dim b) = C a b := by
    intro a ha b hb ea eb
    have hsh := (g1 a b (hN a ha) (hN b hb)).2.2
    refine Mat.ext' (by rw [hsh.1]; rfl) (by rw [hsh.2]; rfl) ?_
    intro i j hi hj
    have hi' : i < dim a := hi
    have hj' : j < dim b := hj
    rw [k1, block_e, if_pos ⟨hi', hj'⟩]
    exact k3 (a, dim a) (hbp a ha) (b, dim b) (hbp b hb) ea eb i hi' j hj'
  refine ⟨?_, ?_⟩
  · intro q hq eq
    refine ⟨C p q, (g1 p q (hN p hp) (hN q hq)).1, ?_⟩
    have h1 := (g2 p q (hN p hp) (hN q hq)).1
    have : C' p q = C p q := by
      by_cases hpq : p = q
      · subst hpq
        have := g6.own (p, dim p) (hbp p hp)
        simpa [ep] using this
      · rw [g6.pair (p, dim p) (hbp p hp) (q, dim q) (hbp q hq) hpq]
        exact hblk p hp q hq ep eq
    rw [this] at h1; exact h1
  · intro q hq hNq hu
    refine ⟨C p q, (g1 p q (hN p hp) hNq).1, ?_⟩
    have h1 := (g2 p q (hN p hp) hNq).1
    have hc := g6.cross (p, dim p) (hbp p hp) q (by rw [keys_block]; exact hq)
    have hpp := g1 p p (hN p hp) (hN p hp)
    rw [c44_nuisance_cross hpp.2.2 (g1 p q (hN p hp) hNq).2.2 (hu _ hpp.1) (hblk p hp p hp ep ep)] at hc
    rw [hc] at h1; exact h1

/-- C44: if all participants are essential the computation is that of the ordinary `correction_step` in Joseph form
without stabilisation. -/
theorem c44_all_essential {t : Int} {H R r S : Mat} {D : SMap Belief} {m : ℕ} (hD : (D.map (·.1)).Nodup) (hSe : stackSigma h D t = .ok S)
    (hO : ObsShape H R r S (tot (bdims D)) m) (he : ∀ e ∈ D, e.2.essential = true) (cfg : Cfg) :
    schmidtStep h t H R r D cfg = correctionStep H R r S { cfg with joseph := true, stab := false } := by
  have hK := gainM_shape hO cfg.eps
  obtain ⟨G, hG, hGg⟩ := schmidtGain_ok hD hK (fun _ => true) (fun e hem => he e hem)
  have hn : ((bdims D).map (·.1)).Nodup := by rw [bdims_keys]; exact hD
  have : G = gainM H R S cfg.eps := hGg.unique hn hK.1 ⟨⟨rfl, rfl⟩, fun p hp i hi j => rfl⟩
  subst this
  rw [hK.1, hK.2] at hG
  rw [schmidtStep_eq hSe hO cfg hG hK, correctionStep_eq hO]
  have e1 : (one (tot (bdims D)) - gainM H R S cfg.eps * H) = updM H R S cfg.eps := by unfold updM; rw [hO.S.1]
  have e2 : symM (josephM H R S (gainM H R S cfg.eps)) = postM H R S { cfg with joseph := true, stab := false } := by
    unfold postM post0 josephM updM
    simp
  rw [e1, e2]

end Hdl
end Ikf
