import Verif.Lemmas.CorrWindow

/-!
# Correction-buffer flavour (C28, C29)

`Inst` is the eager flavour, `CInst` the correction-buffer flavour (Model/Isolated, Model/Corr).
-/

namespace Ikf
open Mat

namespace CInst

/-! ## C28 -/

/-- Two instances of the two flavours driven by the same calls: `T` is the current time, `L` the oldest
time from which on answers are compared. -/
structure Pair where
  L : Int
  T : Int
  e : Inst
  c : CInst

/-- Longest time step allowed: half the correction horizon less 30 µs (rounding of seconds). -/
def StepOk (T tb : Int) (c : CInst) : Prop :=
  T < tb ∧ tb ≤ 8500000000000000000 ∧ ((tb - T : ℤ) : ℚ) / 1000000000 ≤ c.corrHor / 2 - 3/100000

/-- From which time on answers are compared after the trimming of a propagation: the current time can
always be taken, an older one if the trimming dropped nothing it needs. -/
def KeepsFrom (p : Pair) (c' : CInst) (tb L' : Int) : Prop :=
  p.L ≤ L' ∧ L' ≤ tb ∧ (L' = tb ∨ Window p.c c' L')

/-- One call made on both flavours of an `n`-dimensional instance. -/
inductive Call (fp : FP) (n : ℕ) : Pair → Pair → Prop
  /-- `apply_propagation(bel_a, mean_b, Phi, Q, T, tb)`, accepted -/
  | propEKF (p : Pair) (ba : Belief) (mb Phi Q : Mat) (tb : Int) (e' : Inst) (c' : CInst) (L' : Int) (hS : ba.Sigma.Shape n n)
      (ht : StepOk p.T tb p.c) (he : p.e.propEKF fp ba mb Phi Q p.T tb = .ok (e', true))
      (hc : p.c.propEKF fp ba mb Phi Q p.T tb = .ok (c', true)) (hk : KeepsFrom p c' tb L') :
      Call fp n p ⟨L', tb, e', c'⟩
  /-- `apply_propagation(Phi, Q, T, tb)`, accepted by the eager flavour; the other one answers false (`c29_corr_kf_fails`) -/
  | propKF (p : Pair) (ba : Belief) (Phi Q : Mat) (tb : Int) (e' : Inst) (c' : CInst) (a : Bool) (L' : Int)
      (hb : p.e.beliefAt p.T = some ba) (hS : ba.Sigma.Shape n n) (hm : ba.mean.Shape n 1)
      (ht : StepOk p.T tb p.c) (he : p.e.propKF fp Phi Q p.T tb = .ok (e', true))
      (hc : p.c.propKF fp Phi Q p.T tb = .ok (c', a)) (hk : KeepsFrom p c' tb L') :
      Call fp n p ⟨L', tb, e', c'⟩
  /-- `apply_propagation(bel_b, Phi, T, tb)`, accepted -/
  | propBel (p : Pair) (bb : Belief) (Phi : Mat) (tb : Int) (e' : Inst) (c' : CInst) (L' : Int) (hS : bb.Sigma.rows = n)
      (ht : StepOk p.T tb p.c) (he : p.e.propBel fp bb Phi p.T tb = .ok (e', true))
      (hc : p.c.propBel fp bb Phi p.T tb = .ok (c', true)) (hk : KeepsFrom p c' tb L') :
      Call fp n p ⟨L', tb, e', c'⟩
  /-- `apply_private_observation(bel, H, R, r, cfg)` of the belief stored at `T`, accepted -/
  | privEKF (p : Pair) (b : Belief) (H R r : Mat) (cfg : Cfg) (e' : Inst) (c' : CInst) (hst : b.stamp = p.T)
      (hS : b.Sigma.Shape n n) (hm : b.mean.Shape n 1) (he : p.e.privEKF b p.T H R r cfg = .ok (e', true))
      (hc : p.c.privEKF b p.T H R r cfg = .ok (c', true)) : Call fp n p ⟨p.L, p.T, e', c'⟩
  /-- `apply_correction_at_t(T, Factor)` (joint observations), whatever the answers -/
  | correct (p : Pair) (F : Mat) (e' : Inst) (c' : CInst) (a : Bool) (hF : F.Shape n n)
      (he : p.e.applyCorrection p.T F = .ok e') (hc : p.c.applyCorrection p.T F = .ok (c', a)) :
      Call fp n p ⟨p.L, p.T, e', c'⟩
  /-- `set_CrossCovFact_at_t(T, J, M)` -/
  | setFactor (p : Pair) (J : ℕ) (M : Mat) (hM : M.rows = n) :
      Call fp n p ⟨p.L, p.T, p.e.setCCF p.T J M, { p.c with base := p.c.base.setCCF p.T J M }⟩
  /-- `set_belief_at_t(b, T)` -/
  | setBelief (p : Pair) (b : Belief) :
      Call fp n p ⟨p.L, p.T, p.e.setBelief b p.T, { p.c with base := p.c.base.setBelief b p.T }⟩
  /-- `get_CrossCovFact_at_t(t, J)`, which changes the correction-buffer flavour -/
  | get (p : Pair) (t : Int) (J : ℕ) (c' : CInst) (M : Mat) (ht : t ≤ p.T) (hc : p.c.getCCF t J = .ok (c', M)) :
      Call fp n p ⟨p.L, p.T, p.e, c'⟩
  /-- `remove_after_t(t)` -/
  | removeAfter (p : Pair) (t : Int) (hL : p.L ≤ t) (h0 : 0 ≤ t) (hT : t ≤ p.T) :
      Call fp n p ⟨p.L, t, p.e.removeAfter t, p.c.removeAfter t⟩

/-- Any number of calls. -/
inductive Calls (fp : FP) (n : ℕ) : Pair → Pair → Prop
  | nil (p) : Calls fp n p p
  | cons {p q r} (h : Call fp n p q) (hs : Calls fp n q r) : Calls fp n p r

/-- Both flavours just initialised with the same belief at time `t0`. -/
def Fresh (t0 : Int) (hor corrHor : ℚ) (b : Belief) : Pair :=
  ⟨t0, t0, Inst.doInit ⟨[], [], hor⟩ b t0, ⟨Inst.doInit ⟨[], [], hor⟩ b t0, [], corrHor⟩⟩

/-- The invariant of a run. -/
structure Agree (n : ℕ) (p : Pair) : Prop where
  sim : Sim n p.L p.T p.e p.c
  le : p.L ≤ p.T
  t0 : 0 ≤ p.T
  t1 : p.T ≤ 8500000000000000000
  h0 : 1/100000 ≤ p.c.corrHor
  h1 : p.c.corrHor ≤ 10000000
  corr0 : ∀ x ∈ p.c.corr, 0 ≤ x.1
  span : ∀ x ∈ p.c.corr, ((p.T - x.1 : ℤ) : ℚ) / 1000000000 ≤ p.c.corrHor + 1/100000

theorem checkHorizon_frame {fp : FP} {n : ℕ} (hn : 0 < n) {T : Int} {c c' : CInst} (hc : c.Ok n T) (h0 : 0 ≤ T) (h : c.checkHorizon fp = .ok c') :
    c'.corr = Buf.checkHorizon fp c.corrHor c.corr ∧ c'.corrHor = c.corrHor := by
  unfold CInst.checkHorizon at h
  obtain ⟨d, hd, hc'⟩ := Hdl.bind_eq_ok h
  have hp := checkCorrectionHorizon_spec hn hc h0 fp hd
  rw [← Res.ok.inj hc']
  simp only
  rw [hp.corr, hp.corrHor]
  exact ⟨rfl, rfl⟩

/-- The common part of all accepted propagations. -/
theorem Agree.advance {fp : FP} {n : ℕ} (hn : 0 < n) {p : Pair} (h : Agree n p) (b : Belief) (Phi : Mat) (hP : Phi.Shape n n) (tb : Int)
    (ht : StepOk p.T tb p.c) (c' : CInst) (L' : Int) (hk : KeepsFrom p c' tb L')
    (hc : (({ p.c with base := p.c.base.setBelief b tb } : CInst).recorded tb Phi).checkHorizon fp = .ok c') :
    Agree n ⟨L', tb, p.e.propagated fp b Phi p.T tb, c'⟩ := by
  obtain ⟨hlt, htb, hstep⟩ := ht
  have h0 : 0 ≤ tb := le_trans h.t0 hlt.le
  have s1 : Sim n p.L tb ((p.e.mulFac p.T tb Phi).setBelief b tb) { p.c.recorded tb Phi with base := (p.c.recorded tb Phi).base.setBelief b tb } :=
    (h.sim.propagate h.le tb hlt Phi hP).belief b
  set c1 : CInst := ({ p.c with base := p.c.base.setBelief b tb } : CInst).recorded tb Phi with hc1
  have s1 : Sim n p.L tb ((p.e.setBelief b tb).mulFac p.T tb Phi) c1 := s1
  have hcorr1 : c1.corr = p.c.corr.insertMap tb Phi := rfl
  have hmem1 : ∀ x ∈ c1.corr, x = (tb, Phi) ∨ x ∈ p.c.corr := by
    intro x hx
    rw [hcorr1] at hx
    rcases (Buf.mem_insertMap _ h.sim.ok.strict _ _ _).mp hx with hx | hx
    · exact Or.inl hx
    · exact Or.inr hx.1
  have hkeys : ∀ x ∈ c1.corr, 0 ≤ x.1 ∧ x.1 ≤ tb := by
    intro x hx
    rcases hmem1 x hx with rfl | hx
    · exact ⟨h0, le_rfl⟩
    · exact ⟨h.corr0 x hx, le_trans (h.sim.ok.corrUpTo x hx) hlt.le⟩
  have hsp1 : ∀ x ∈ c1.corr, ((tb - x.1 : ℤ) : ℚ) / 1000000000 ≤ c1.corrHor * (3/2) - 1/50000 := by
    intro x hx
    have hch : c1.corrHor = p.c.corrHor := rfl
    have := h.h0
    rw [hch]
    rcases hmem1 x hx with rfl | hx
    · have hpos : (0:ℚ) ≤ ((tb - p.T : ℤ) : ℚ) / 1000000000 :=
        div_nonneg (by exact_mod_cast (by omega : 0 ≤ tb - p.T)) (by norm_num)
      simp only [sub_self, Int.cast_zero, zero_div]; linarith
    · have h1 := h.span x hx
      push_cast at h1 hstep ⊢
      rw [sub_div] at h1 hstep ⊢
      linarith
  have hspan : ∀ x ∈ c1.corr, ∀ y ∈ c1.corr, ((y.1 - x.1 : ℤ) : ℚ) / 1000000000 ≤ c1.corrHor * (3/2) - 1/50000 := by
    intro x hx y hy
    refine le_trans ?_ (hsp1 x hx)
    have : ((y.1 - x.1 : ℤ) : ℚ) ≤ ((tb - x.1 : ℤ) : ℚ) := by
      have := (hkeys y hy).2
      exact_mod_cast (by omega : y.1 - x.1 ≤ tb - x.1)
    exact div_le_div_of_nonneg_right this (by norm_num)
  obtain ⟨hcc, hch⟩ := checkHorizon_frame hn s1.ok h0 hc
  -- the new correction is the newest one and kept
  have hlast : c1.corr.getLast? = some (tb, Phi) := by
    have hm : (tb, Phi) ∈ c1.corr := (Buf.mem_insertMap _ h.sim.ok.strict _ _ _).mpr (Or.inl rfl)
    cases hl : c1.corr.getLast? with
    | none => rw [List.getLast?_eq_none_iff] at hl; rw [hl] at hm; simp at hm
    | some y =>
      have h1 := s1.ok.strict.sorted.le_getLast hl _ hm
      have hym := List.mem_of_getLast? hl
      rcases hmem1 y hym with rfl | hy
      · rfl
      · have := h.sim.ok.corrUpTo y hy
        simp only at h1; omega
  have hkept : (tb, Phi) ∈ c'.corr := by
    rw [hcc]
    exact List.mem_of_getLast? (by rw [(c15_newest_kept fp c1.corrHor c1.corr).1, hlast])
  have hW : Window c1 c' L' := by
    obtain ⟨-, hL', hw⟩ := hk
    have hWT : Window c1 c' tb := window_of_span hn s1.ok h0 fp h.h0 h.h1 (fun x hx => ⟨(hkeys x hx).1, le_trans (hkeys x hx).2 htb⟩) hspan hc
    rcases hw with rfl | hw
    · exact hWT
    · intro J bb b' hb hne hb'
      rcases hw J bb b' hb hne hb' with ⟨h2, h3⟩ | ⟨k, hk, hkL, hdrop⟩
      · left
        refine ⟨h2, fun x hx => ?_⟩
        rcases hmem1 x hx with rfl | hx
        · exact hkept
        · exact h3 x hx
      · right
        refine ⟨k, hk, hkL, fun x hx hnx => ?_⟩
        rcases hmem1 x hx with rfl | hx
        · exact absurd hkept hnx
        · exact hdrop x hx hnx
  have s2 := s1.checkHorizon hn h0 fp hc hk.1 hW
  refine ⟨s2, hk.2.1, h0, htb, by rw [hch]; exact h.h0, by rw [hch]; exact h.h1, ?_, ?_⟩
  · intro x hx
    have hx : x ∈ c'.corr := hx
    rw [hcc] at hx
    exact (hkeys x ((c15_newest_kept fp c1.corrHor c1.corr).2.1.subset hx)).1
  · intro x hx
    have hx : x ∈ c'.corr := hx
    rw [hcc] at hx
    have hb1 : c1.corrHor ≤ 8589934592 := le_trans h.h1 (by norm_num)
    have := (c15_span fp c1.corrHor c1.corr s1.ok.strict.sorted h.h0 hb1
      (fun y hy => ⟨(hkeys y hy).1, by have := (hkeys y hy).2; omega⟩) (tb, Phi) hlast).1 x hx
    show ((tb - x.1 : ℤ) : ℚ) / 1000000000 ≤ c'.corrHor + 1/100000
    rw [hch]; exact this

theorem addCorrection_new {c : CInst} (ta tb : Int) (Phi : Mat) (h : ∀ x ∈ c.corr, x.1 ≠ tb) :
    c.addCorrection ta tb Phi = (c.recorded tb Phi, true) := by
  have : c.corr.existAt tb = false := by
    rw [← Bool.not_eq_true, Buf.existAt_iff]
    rintro ⟨x, hx, hxt⟩
    exact h x hx hxt
  unfold addCorrection recorded
  simp [this]

theorem addCorrection_old {c : CInst} (ta tb : Int) (Phi : Mat) (h : ∃ x ∈ c.corr, x.1 = tb) :
    c.addCorrection ta tb Phi = (c, false) := by
  have : c.corr.existAt tb = true := (Buf.existAt_iff _ _).mpr h
  unfold addCorrection
  simp [this]

theorem restricted_idem {α : Type _} (fp : FP) (m : ℚ) (b : Buf α) (hs : b.SortedKeys) :
    Buf.checkHorizonRestricted fp m (Buf.checkHorizonRestricted fp m b 4) 4 = Buf.checkHorizonRestricted fp m b 4 := by
  have hlast := (Buf.horizonRestricted_facts fp m b 4).1
  by_cases h : 4 < b.length ∧ m < b.horizon fp
  · cases hl : b.latest with
    | none =>
      have : Buf.checkHorizonRestricted fp m b 4 = b := by unfold Buf.checkHorizonRestricted; rw [if_pos h, hl]
      rw [this, this]
    | some l =>
      have hl' : b.getLast? = some l := hl
      have hb' : Buf.checkHorizonRestricted fp m b 4 = b.removeBefore (fp.cutKey (fp.secOfKey l.1) m) := by
        unfold Buf.checkHorizonRestricted; rw [if_pos h, hl]
      set b' := Buf.checkHorizonRestricted fp m b 4 with hbd
      have hl2 : Buf.latest b' = some l := by show b'.getLast? = _; rw [hlast]; exact hl
      have hidem : Buf.removeBefore b' (fp.cutKey (fp.secOfKey l.1) m) = b' := by
        rw [hb', Buf.removeBefore_eq b hs]
        split
        · rename_i hex
          rw [Buf.removeBefore_eq _ (hs.filter _)]
          split
          · rw [List.filter_filter]; simp
          · rfl
        · rename_i hex
          rw [Buf.removeBefore_eq b hs, if_neg hex]
      conv_lhs => unfold Buf.checkHorizonRestricted
      rw [hl2]
      simp only
      rw [hidem]
      simp
  · have : Buf.checkHorizonRestricted fp m b 4 = b := by unfold Buf.checkHorizonRestricted; rw [if_neg h]
    rw [this, this]

/-- The correction just recorded as the newest one survives the trimming. -/
theorem recorded_kept {fp : FP} {c c' : CInst} (hs : c.corr.StrictKeys) (tb : Int) (Phi : Mat) (hk : ∀ x ∈ c.corr, x.1 < tb)
    (hc : (c.recorded tb Phi).checkHorizon fp = .ok c') : (tb, Phi) ∈ c'.corr := by
  unfold CInst.checkHorizon at hc
  obtain ⟨d, hd, hc'⟩ := Hdl.bind_eq_ok hc
  rw [← Res.ok.inj hc']
  have hdc : d.corr = c.corr.insertMap tb Phi := by
    unfold checkCorrectionHorizon at hd
    split at hd
    · obtain ⟨m, -, hd⟩ := Hdl.bind_eq_ok hd
      rw [← Res.ok.inj hd]; rfl
    · rw [← Res.ok.inj hd]; rfl
  have hm : (tb, Phi) ∈ d.corr := by rw [hdc]; exact (Buf.mem_insertMap _ hs _ _ _).mpr (Or.inl rfl)
  have hst : d.corr.StrictKeys := by rw [hdc]; exact Buf.strict_insertMap _ hs _ _
  refine List.mem_of_getLast? ?_
  rw [(c15_newest_kept fp d.corrHor d.corr).1]
  cases hl : d.corr.getLast? with
  | none => rw [List.getLast?_eq_none_iff] at hl; rw [hl] at hm; simp at hm
  | some y =>
    have h1 := hst.sorted.le_getLast hl _ hm
    have hym := List.mem_of_getLast? hl
    rw [hdc] at hym
    rcases (Buf.mem_insertMap _ hs _ _ _).mp hym with hy | hy
    · rw [hy]
    · have := hk y hy.1
      simp only at h1; omega

/-- The EKF overload on fitting operands when no correction is recorded at `tb`. -/
theorem propEKF_run (fp : FP) (c : CInst) (ba : Belief) (mb Phi Q : Mat) (ta tb : Int) {n : ℕ} (hS : ba.Sigma.Shape n n)
    (hP : Phi.Shape n n) (hQ : Q.Shape n n) (hm : mb.Shape n 1) (hnew : ∀ x ∈ c.corr, x.1 ≠ tb) :
    c.propEKF fp ba mb Phi Q ta tb =
      ((({ c with base := c.base.setBelief { ba with mean := mb, Sigma := Phi * ba.Sigma * Phi.tr + Q, stamp := tb } tb } : CInst).recorded tb Phi).checkHorizon fp
        >>= fun d => .ok (d, true)) := by
  unfold CInst.propEKF
  rw [Inst.basePropEKF_ok c.base ba mb Phi Q tb hS hP hQ hm, Res.bind_ok]
  simp only [if_true]
  rw [addCorrection_new _ _ _ (by exact hnew)]
  simp only [if_true]

/-- Every call preserves the agreement. -/
theorem Agree.call {fp : FP} {n : ℕ} (hn : 0 < n) {p q : Pair} (h : Agree n p) (hc : Call fp n p q) : Agree n q := by
  cases hc with
  | propEKF ba mb Phi Q tb e' c' L' hS ht he hc hk =>
    have hnew : ∀ x ∈ p.c.corr, x.1 ≠ tb := fun x hx => by have := h.sim.ok.corrUpTo x hx; have := ht.1; omega
    obtain ⟨hP, hQ, hm, rfl⟩ := Inst.propEKF_true fp h.sim.eord ba mb Phi Q p.T tb hS (fun J M hM => h.sim.erows J _ M hM) e' he
    unfold CInst.propEKF at hc
    rw [Inst.basePropEKF_ok p.c.base ba mb Phi Q tb hS hP hQ hm, Res.bind_ok] at hc
    simp only [if_true] at hc
    rw [addCorrection_new _ _ _ (by exact hnew)] at hc
    simp only [if_true] at hc
    obtain ⟨d, hd, hc⟩ := Hdl.bind_eq_ok hc
    have := (Prod.mk.inj (Res.ok.inj hc)).1
    subst this
    exact h.advance hn _ Phi hP tb ht d L' hk hd
  | propKF ba Phi Q tb e' c' a L' hb hS hm ht he hc hk =>
    have hlt : ∀ x ∈ p.c.corr, x.1 < tb := fun x hx => by have := h.sim.ok.corrUpTo x hx; have := ht.1; omega
    have hnew : ∀ x ∈ p.c.corr, x.1 ≠ tb := fun x hx => by have := hlt x hx; omega
    have hF : ∀ J M, p.e.fac J p.T = some M → M.rows = n := fun J M hM => h.sim.erows J _ M hM
    obtain ⟨hP, hQ, -⟩ := Inst.propKF_true fp h.sim.eord Phi Q h.sim.eup ht.1 ba hb hS hm hF e' he
    have hmn : (Phi * ba.mean).Shape n 1 := hP.mul hm
    have hdm : checkDimMean ba.mean Phi = true :=
      (Inst.checkDimMean_iff _ _).mpr ⟨hm.2, by rw [hm.1, hP.1], by rw [hP.1, hP.2]⟩
    set bb : Belief := { ba with mean := Phi * ba.mean, Sigma := Phi * ba.Sigma * Phi.tr + Q, stamp := tb } with hbb
    -- the correction-buffer flavour: state of the EKF overload
    have hcs : (({ p.c with base := p.c.base.setBelief bb tb } : CInst).recorded tb Phi).checkHorizon fp = .ok c' := by
      unfold CInst.propKF at hc
      have hb' : p.c.base.beliefAt p.T = some ba := by unfold Inst.beliefAt; rw [h.sim.bel]; exact hb
      rw [hb'] at hc
      simp only at hc
      rw [if_pos hdm, hP.mulC hm, Res.bind_ok, propEKF_run fp p.c ba _ Phi Q p.T tb hS hP hQ hmn hnew] at hc
      obtain ⟨r, hr, hc⟩ := Hdl.bind_eq_ok hc
      obtain ⟨d, hd, hr⟩ := Hdl.bind_eq_ok hr
      have hr := Res.ok.inj hr
      subst hr
      simp only [if_true] at hc
      have hkept := recorded_kept (c := { p.c with base := p.c.base.setBelief bb tb }) h.sim.ok.strict tb Phi hlt hd
      rw [addCorrection_old _ _ _ ⟨_, hkept, rfl⟩] at hc
      simp only [Bool.false_eq_true, if_false] at hc
      rw [← (Prod.mk.inj (Res.ok.inj hc)).1]
      exact hd
    have hA := h.advance hn bb Phi hP tb ht c' L' hk hcs
    -- the eager flavour repeats the factor propagation
    have hj := Inst.propagated_facts fp h.sim.eord h.sim.eup ht.1 bb Phi
    have he' : e' = ((p.e.propagated fp bb Phi p.T tb).mulFac p.T tb Phi).checkHorizon fp := by
      unfold Inst.propKF at he
      rw [hb] at he
      simp only at he
      rw [if_pos hdm, hP.mulC hm, Res.bind_ok, Inst.propEKF_ok fp h.sim.eord ba _ Phi Q p.T tb hS hP hQ hmn hF, Res.bind_ok] at he
      simp only [if_true] at he
      rw [Inst.addCorrection_ok hj.ord p.T tb Phi (fun J M hM => by rw [hP.2, hF J M (hj.old J p.T M (by have := ht.1; omega) hM)])] at he
      exact (Prod.mk.inj (Res.ok.inj he)).1.symm
    subst he'
    set j := p.e.propagated fp bb Phi p.T tb with hjd
    have o2 := hj.ord.mulFac p.T tb Phi
    have u2 := hj.upTo.mulFac hj.ord p.T tb Phi le_rfl
    refine ⟨⟨?_, hA.sim.hor, o2.checkHorizon fp, u2.checkHorizon fp, ?_, hA.sim.ok, ?_⟩, hA.le, hA.t0, hA.t1, hA.h0, hA.h1, hA.corr0, hA.span⟩
    · have h1 : c'.base.bel = j.bel := hA.sim.bel
      show c'.base.bel = Buf.checkHorizonRestricted fp j.hor j.bel 4
      rw [h1, hjd]
      exact (restricted_idem fp _ _ (h.sim.eord.setBelief bb tb).bel.sorted).symm
    · intro J t M hM
      exact fac_mulFac_rows hj.ord hA.sim.erows p.T tb Phi hP.1 J t M (Inst.fac_checkHorizon_sub o2 fp J t M hM)
    · intro J t M hL hM
      have h1 := Inst.fac_checkHorizon_sub o2 fp J t M hM
      refine hA.sim.fac J t M hL ?_
      show j.fac J t = some M
      rw [Inst.fac_mulFac hj.ord] at h1
      split at h1
      · rename_i hcond
        obtain ⟨X, hX, rfl⟩ := Option.map_eq_some_iff.mp h1
        rw [hcond.1, hj.fac J, hj.old J p.T X (by have := ht.1; omega) hX]; rfl
      · exact h1
  | propBel bb Phi tb e' c' L' hS ht he hc hk =>
    have hnew : ∀ x ∈ p.c.corr, x.1 ≠ tb := fun x hx => by have := h.sim.ok.corrUpTo x hx; have := ht.1; omega
    have hd : checkDimPhi bb.Sigma Phi = true := by
      by_contra hcon
      unfold CInst.propBel at hc
      rw [if_neg hcon] at hc; simp at hc
    have hP : Phi.Shape n n := by
      unfold checkDimPhi at hd
      simp only [Bool.not_eq_true', Bool.or_eq_false_iff, bne_eq_false_iff_eq, hS] at hd
      exact ⟨hd.1.symm, hd.2.symm⟩
    have he' : e' = p.e.propagated fp { bb with stamp := tb } Phi p.T tb := by
      unfold Inst.propBel at he
      rw [if_pos hd, Inst.addCorrection_ok (h.sim.eord.setBelief _ _) p.T tb Phi
        (fun J M hM => by rw [hP.2, h.sim.erows J _ M hM])] at he
      exact (Prod.mk.inj (Res.ok.inj he)).1.symm
    subst he'
    unfold CInst.propBel at hc
    rw [if_pos hd] at hc
    simp only at hc
    rw [addCorrection_new _ _ _ (by exact hnew)] at hc
    simp only [if_true] at hc
    obtain ⟨d, hd, hc⟩ := Hdl.bind_eq_ok hc
    have := (Prod.mk.inj (Res.ok.inj hc)).1
    subst this
    exact h.advance hn _ Phi hP tb ht d L' hk hd
  | privEKF b H R r cfg e' c' hst hS hm he hc =>
    unfold Inst.privEKF at he
    unfold CInst.privEKF at hc
    obtain ⟨res, hres, he⟩ := Hdl.bind_eq_ok he
    rw [hres, Res.bind_ok] at hc
    cases hr : res.rejected with
    | true => rw [hr] at he; simp at he
    | false =>
      obtain ⟨hO, hres'⟩ := Inst.correctionStep_accept hS cfg res hres hr
      have hU : res.U.Shape n n := by rw [hres']; exact updM_shape hO _
      have hdx : res.dx.Shape n 1 := by rw [hres']; exact (gainM_shape hO _).mul hO.r
      rw [hr] at he hc
      simp only [Bool.not_false, if_true] at he hc
      rw [hst, Inst.applyCorrection_ok h.sim.eord p.T res.U (fun J M hM => by rw [hU.2, h.sim.erows J _ M hM]), Res.bind_ok] at he
      rw [hst, applyCorrection_eq h.sim.ok p.T res.U hU, Res.bind_ok] at hc
      have hcor : b.correct res.dx res.Sapos = .ok { b with mean := b.mean + res.dx, Sigma := res.Sapos } := by
        unfold Belief.correct; rw [hm.addC hdx, Res.bind_ok]
      rw [hcor, Res.bind_ok] at he
      have he := (Prod.mk.inj (Res.ok.inj he)).1
      simp only at hc
      split at hc
      · rw [hcor, Res.bind_ok] at hc
        have hc := (Prod.mk.inj (Res.ok.inj hc)).1
        subst he; subst hc
        have s := (h.sim.correct res.U hU).belief { b with mean := b.mean + res.dx, Sigma := res.Sapos }
        have hmem : ∀ x ∈ (p.c.corrected p.T res.U).corr, x.1 = p.T ∨ x ∈ p.c.corr := by
          intro x hx
          rcases (Buf.mem_insertMap _ h.sim.ok.strict _ _ _).mp hx with hx | hx
          · rw [hx]; exact Or.inl rfl
          · exact Or.inr hx.1
        refine ⟨s, h.le, h.t0, h.t1, h.h0, h.h1, ?_, ?_⟩
        · intro x hx
          rcases hmem x hx with hx | hx
          · rw [hx]; exact h.t0
          · exact h.corr0 x hx
        · intro x hx
          rcases hmem x hx with hx | hx
          · rw [hx]
            have := h.h0
            show ((p.T - p.T : ℤ) : ℚ) / 1000000000 ≤ p.c.corrHor + 1/100000
            simp only [sub_self, Int.cast_zero, zero_div]; linarith
          · exact h.span x hx
      · simp at hc
  | correct F e' c' a hF he hc =>
    rw [Inst.applyCorrection_ok h.sim.eord p.T F (fun J M hM => by rw [hF.2, h.sim.erows J _ M hM])] at he
    rw [applyCorrection_eq h.sim.ok p.T F hF] at hc
    have he := Res.ok.inj he
    have hc := (Prod.mk.inj (Res.ok.inj hc)).1
    subst he; subst hc
    have hmem : ∀ x ∈ (p.c.corrected p.T F).corr, x.1 = p.T ∨ x ∈ p.c.corr := by
      intro x hx
      rcases (Buf.mem_insertMap _ h.sim.ok.strict _ _ _).mp hx with hx | hx
      · rw [hx]; exact Or.inl rfl
      · exact Or.inr hx.1
    refine ⟨h.sim.correct F hF, h.le, h.t0, h.t1, h.h0, h.h1, ?_, ?_⟩
    · intro x hx
      rcases hmem x hx with hx | hx
      · rw [hx]; exact h.t0
      · exact h.corr0 x hx
    · intro x hx
      rcases hmem x hx with hx | hx
      · rw [hx]
        have := h.h0
        show ((p.T - p.T : ℤ) : ℚ) / 1000000000 ≤ p.c.corrHor + 1/100000
        simp only [sub_self, Int.cast_zero, zero_div]; linarith
      · exact h.span x hx
  | setFactor J M hM => exact ⟨h.sim.set J M hM, h.le, h.t0, h.t1, h.h0, h.h1, h.corr0, h.span⟩
  | setBelief b => exact ⟨h.sim.belief b, h.le, h.t0, h.t1, h.h0, h.h1, h.corr0, h.span⟩
  | get t J c' M ht hc =>
    have hs := (h.sim.get hn ht hc).1
    have hcc : c'.corr = p.c.corr ∧ c'.corrHor = p.c.corrHor := by
      rcases getCCF_spec hn h.sim.ok t J with ⟨X, -, hr | hr⟩ | ⟨-, hr⟩ <;>
      · rw [hc] at hr
        rw [(Prod.mk.inj (Res.ok.inj hr)).1]
        exact ⟨rfl, rfl⟩
    exact ⟨hs, h.le, h.t0, h.t1, by rw [hcc.2]; exact h.h0, by rw [hcc.2]; exact h.h1, by rw [hcc.1]; exact h.corr0, by
      rw [hcc.1, hcc.2]; exact h.span⟩
  | removeAfter t hL h0 hT =>
    have hmem : ∀ x ∈ (p.c.removeAfter t).corr, x ∈ p.c.corr := by
      intro x hx
      have hx : x ∈ p.c.corr.removeAfter t := hx
      rw [Buf.removeAfter_eq _ h.sim.ok.strict.sorted] at hx
      exact (List.mem_filter.mp hx).1
    refine ⟨h.sim.removeAfter t, hL, h0, le_trans hT h.t1, h.h0, h.h1, fun x hx => h.corr0 x (hmem x hx), ?_⟩
    intro x hx
    refine le_trans ?_ (h.span x (hmem x hx))
    have : ((t - x.1 : ℤ) : ℚ) ≤ ((p.T - x.1 : ℤ) : ℚ) := by exact_mod_cast (by omega : t - x.1 ≤ p.T - x.1)
    exact div_le_div_of_nonneg_right this (by norm_num)

theorem Agree.calls {fp : FP} {n : ℕ} (hn : 0 < n) {p q : Pair} (h : Agree n p) (hc : Calls fp n p q) : Agree n q := by
  induction hc with
  | nil => exact h
  | cons hs _ ih => exact ih (h.call hn hs)

theorem Agree.fresh (n : ℕ) (t0 : Int) (h0 : 0 ≤ t0) (h1 : t0 ≤ 8500000000000000000) (hor corrHor : ℚ) (hm0 : 1/100000 ≤ corrHor)
    (hm1 : corrHor ≤ 10000000) (b : Belief) : Agree n (Fresh t0 hor corrHor b) := by
  have ho : (Inst.doInit ⟨[], [], hor⟩ b t0).Ord :=
    ⟨List.pairwise_singleton _ _, List.Pairwise.nil, fun J b hb => by simp [Inst.doInit, Inst.reset] at hb⟩
  have hu : (Inst.doInit ⟨[], [], hor⟩ b t0).UpTo t0 := by
    refine ⟨?_, fun J b hb => by simp [Inst.doInit, Inst.reset] at hb⟩
    intro e he
    have he : e ∈ [(t0, b)] := he
    rw [List.mem_singleton.mp he]
  have hf : ∀ J t, (Inst.doInit ⟨[], [], hor⟩ b t0).fac J t = none := fun J t => rfl
  refine ⟨⟨rfl, rfl, ho, hu, ?_, ⟨ho, hu, List.Pairwise.nil, ?_, ?_, ?_⟩, ?_⟩, le_rfl, h0, h1, hm0, hm1, ?_, ?_⟩
  · intro J t M hM
    have hM : (Inst.doInit ⟨[], [], hor⟩ b t0).fac J t = some M := hM
    rw [hf] at hM; simp at hM
  · intro e he; exact absurd he (by simp [Fresh])
  · intro J t M hM
    have hM : (Inst.doInit ⟨[], [], hor⟩ b t0).fac J t = some M := hM
    rw [hf] at hM; simp at hM
  · intro e he; exact absurd he (by simp [Fresh])
  · intro J t M _ hM
    have hM : (Inst.doInit ⟨[], [], hor⟩ b t0).fac J t = some M := hM
    rw [hf] at hM; simp at hM
  · intro e he; exact absurd he (by simp [Fresh])
  · intro e he; exact absurd he (by simp [Fresh])

/-- C28. After any accepted sequence of calls made on both flavours from the same initial belief, with time
steps up to half the correction horizon: whatever factor the eager flavour answers for a time in the compared
window, the correction-buffer flavour answers the same, and both hold the same beliefs.
Missing (`_partial`): longer time steps, calls that throw or that only one flavour accepts — the theorems
`c28_..._fails` below show that these do differ. -/
theorem c28_lazy_eager_partial (fp : FP) (n : ℕ) (hn : 0 < n) (t0 : Int) (h0 : 0 ≤ t0) (h1 : t0 ≤ 8500000000000000000) (hor corrHor : ℚ)
    (hm0 : 1/100000 ≤ corrHor) (hm1 : corrHor ≤ 10000000) (b : Belief) (q : Pair) (hrun : Calls fp n (Fresh t0 hor corrHor b) q) :
    (∀ J t, q.L ≤ t → (q.e.getCCF t J).size ≠ 0 → ∃ c', q.c.getCCF t J = .ok (c', q.e.getCCF t J)) ∧
      ∀ t, q.c.base.beliefAt t = q.e.beliefAt t := by
  have h := (Agree.fresh n t0 h0 h1 hor corrHor hm0 hm1 b).calls hn hrun
  refine ⟨?_, fun t => by unfold Inst.beliefAt; rw [h.sim.bel]⟩
  intro J t hL hsz
  rw [Inst.getCCF_eq] at hsz ⊢
  cases hf : q.e.fac J t with
  | none =>
    rw [hf] at hsz
    exact absurd (by simp [Mat.size, Mat.empty, Mat.of]) hsz
  | some M =>
    have hD := h.sim.fac J t M hL hf
    rcases getCCF_spec hn h.sim.ok t J with ⟨X, hX, hr⟩ | ⟨hno, hr⟩
    · have := hX.unique hD
      subst this
      rcases hr with hr | hr
      · exact ⟨_, hr⟩
      · exact ⟨_, hr⟩
    · obtain ⟨tp, A, hfa, hle, -⟩ := hD
      rw [hno tp hle] at hfa; simp at hfa

/-- C28, horizons: after `set_horizon(h)` trimming keeps the recorded corrections of the last `2 h` seconds, twice
what is kept of the factors (up to 20 µs of rounding). -/
theorem c28_correction_horizon (fp : FP) (c c' : CInst) (h : ℚ) (hm0 : 1/10000 ≤ h) (hm1 : h ≤ 4294967296) (hs : c.corr.SortedKeys)
    (hk : ∀ e ∈ c.corr, 0 ≤ e.1 ∧ e.1 ≤ 8589934590000000000) (l : Int × Mat) (hl : c.corr.getLast? = some l)
    (hc : (c.setHorizon fp h).checkHorizon fp = .ok c') :
    c'.base.hor = h ∧
    (∀ e ∈ c'.corr, e ∈ c.corr ∧ ((l.1 - e.1 : ℤ) : ℚ) / 1000000000 ≤ 2 * h + 1/50000) ∧
    ∀ e ∈ c.corr, ((l.1 - e.1 : ℤ) : ℚ) / 1000000000 ≤ 2 * h - 1/50000 → e ∈ c'.corr := by
  unfold CInst.checkHorizon at hc
  obtain ⟨d, hd, hc⟩ := Hdl.bind_eq_ok hc
  have hd' : d.corr = c.corr ∧ d.corrHor = fp.rnd (h * 2) ∧ d.base.hor = h := by
    unfold checkCorrectionHorizon at hd
    split at hd
    · obtain ⟨m, -, hd⟩ := Hdl.bind_eq_ok hd
      rw [← Res.ok.inj hd]; exact ⟨rfl, rfl, rfl⟩
    · rw [← Res.ok.inj hd]; exact ⟨rfl, rfl, rfl⟩
  obtain ⟨d1, d2, d3⟩ := hd'
  rw [← Res.ok.inj hc]
  have herr := fp.relErr (h * 2) (by rw [abs_of_nonneg (by linarith)]; linarith)
  rw [abs_of_nonneg (show (0:ℚ) ≤ h * 2 by linarith)] at herr
  have hle : h * 2 / 4503599627370496 ≤ 1/200000 := by linarith
  obtain ⟨e1, e2⟩ := abs_le.mp (herr.trans hle)
  have hub : fp.rnd (h * 2) ≤ 8589934592 := by
    have := fp.mono (h * 2) ((8589934592 : ℤ) : ℚ) (by push_cast; linarith)
    rw [fp.exactInt 8589934592 (by norm_num) (by norm_num)] at this
    exact_mod_cast this
  obtain ⟨s1, s2⟩ := c15_span fp (fp.rnd (h * 2)) c.corr hs (by linarith) hub hk l hl
  have hsub := (c15_newest_kept fp (fp.rnd (h * 2)) c.corr).2.1.subset
  refine ⟨d3, ?_, ?_⟩
  · intro e he
    rw [d1, d2] at he
    exact ⟨hsub he, by have := s1 e he; linarith⟩
  · intro e he hle
    show e ∈ Buf.checkHorizon fp d.corrHor d.corr
    rw [d1, d2]
    exact s2 e he (by linarith)

/-- The hypotheses are met: three corrections, a horizon of one second; the corrections at 4 s and 5 s survive, that
at 0 s does not. -/
example (M : Mat) : ∃ c', ((CInst.mk ⟨[], [], 100⟩ [(0, M), (4000000000, M), (5000000000, M)] 100).setHorizon FP.exact 1).checkHorizon FP.exact = .ok c' ∧
    (4000000000, M) ∈ c'.corr ∧ (5000000000, M) ∈ c'.corr ∧ ∀ X, (0, X) ∉ c'.corr := by
  have hex : ∃ c', ((CInst.mk ⟨[], [], 100⟩ [(0, M), (4000000000, M), (5000000000, M)] 100).setHorizon FP.exact 1).checkHorizon FP.exact = .ok c' := by
    unfold CInst.checkHorizon checkCorrectionHorizon
    split
    · exact ⟨_, rfl⟩
    · exact ⟨_, rfl⟩
  obtain ⟨c', hc'⟩ := hex
  obtain ⟨-, h2, h3⟩ := c28_correction_horizon FP.exact _ c' 1 (by norm_num) (by norm_num) (by simp [Buf.SortedKeys]) (by simp) (5000000000, M) rfl hc'
  refine ⟨c', hc', h3 _ (by simp) (by norm_num), h3 _ (by simp) (by norm_num), ?_⟩
  intro X hX
  have := (h2 _ hX).2
  norm_num at this

/-- C27, correction-buffer flavour: `remove_from_t(t)` leaves exactly the corrections before `t`,
`remove_after_t(t)` those at or before `t`, `reset` none; beliefs and stored factors as for the eager flavour. -/
theorem c27_corrections (c : CInst) (hs : c.corr.SortedKeys) (t : Int) :
    (c.removeFrom t).corr = c.corr.filter (fun e => decide (e.1 < t)) ∧ (c.removeFrom t).base = c.base.removeFrom t ∧
    (c.removeAfter t).corr = c.corr.filter (fun e => decide (e.1 ≤ t)) ∧ (c.removeAfter t).base = c.base.removeAfter t ∧
    c.reset.corr = [] ∧ c.reset.base = c.base.reset := by
  refine ⟨?_, rfl, Buf.removeAfter_eq _ hs t, rfl, rfl, rfl⟩
  show (c.corr.removeAfter t).removeAt t = _
  rw [Buf.removeAfter_eq _ hs]
  unfold Buf.removeAt
  rw [List.filter_filter]
  apply List.filter_congr
  intro e _
  by_cases h1 : e.1 = t
  · simp [h1]
  · have : (e.1 == t) = false := by simpa using h1
    rw [this]
    simp only [Bool.not_false, Bool.true_and, decide_eq_decide]
    omega

/-! ### Where the flavours differ -/

/-- C28 is false if a factor was stored at a time without a recorded correction, e.g. a prior correlation set
at the initial time, or a factor asked for between two propagations (reading stores it): once the recorded
corrections span more than half their horizon, every propagation throws. -/
theorem c28_factor_without_correction_fails (fp : FP) (c : CInst) (J : ℕ) (b : Buf Mat) (l : Int × Mat) (hb : c.base.ccf = [(J, b)])
    (hl : b.latest = some l) (hnone : ∀ x ∈ c.corr, x.1 ≠ l.1) (hmid : l.1 ≤ c.middle fp)
    (hspan : fp.rnd (c.corrHor * (1/2)) < c.corr.horizon fp) : c.checkHorizon fp = .throws := by
  have hex : c.corr.existAt l.1 = false := by
    rw [← Bool.not_eq_true, Buf.existAt_iff]
    rintro ⟨x, hx, hxt⟩
    exact hnone x hx hxt
  have hpro : promote fp c b = .throws := by
    unfold promote
    rw [hl]
    simp [hmid, hex]
  have hm : c.base.ccf.mapR (promote fp c) = .throws := by
    rw [hb]
    unfold SMap.mapR
    rw [hpro]; rfl
  unfold CInst.checkHorizon checkCorrectionHorizon
  rw [if_pos hspan, hm]; rfl

/-! ## C29 -/

/-- C29, eager flavour, all three overloads of `apply_propagation`: an answer `false` means that nothing was
stored or changed; so whenever the propagated belief was stored the answer is `true`. -/
theorem c29_eager (fp : FP) (i j : Inst) (ta tb : Int) :
    (∀ Phi Q, i.propKF fp Phi Q ta tb = .ok (j, false) → j = i) ∧
    (∀ ba mb Phi Q, i.propEKF fp ba mb Phi Q ta tb = .ok (j, false) → j = i) ∧
    (∀ bb Phi, i.propBel fp bb Phi ta tb = .ok (j, false) → j = i) :=
  ⟨fun Phi Q h => Inst.propKF_false fp i Phi Q ta tb j h, fun ba mb Phi Q h => Inst.propEKF_false fp i ba mb Phi Q ta tb j h,
    fun bb Phi h => Inst.propBel_false fp i bb Phi ta tb j h⟩

/-- C29, correction-buffer flavour, the overloads that are given the propagated mean or belief, while no
correction is recorded at `tb`: an answer `false` means that nothing changed.
Missing (`_partial`): a correction already recorded at `tb`, and the third overload (both below). -/
theorem c29_corr_partial (fp : FP) (c d : CInst) (ta tb : Int) (hnew : ∀ x ∈ c.corr, x.1 ≠ tb) :
    (∀ ba mb Phi Q, c.propEKF fp ba mb Phi Q ta tb = .ok (d, false) → d = c) ∧
    (∀ bb Phi, c.propBel fp bb Phi ta tb = .ok (d, false) → d = c) := by
  constructor
  · intro ba mb Phi Q h
    unfold CInst.propEKF at h
    obtain ⟨⟨j, ok⟩, hr, h⟩ := Hdl.bind_eq_ok h
    cases ok with
    | false =>
      have hj := Inst.basePropEKF_false c.base ba mb Phi Q tb j hr
      simp only [Bool.false_eq_true, if_false] at h
      rw [← (Prod.mk.inj (Res.ok.inj h)).1, hj]
    | true =>
      simp only [if_true] at h
      rw [addCorrection_new _ _ _ (by exact hnew)] at h
      simp only [if_true] at h
      obtain ⟨x, -, h⟩ := Hdl.bind_eq_ok h
      simp at h
  · intro bb Phi h
    unfold CInst.propBel at h
    split at h
    · simp only at h
      rw [addCorrection_new _ _ _ (by exact hnew)] at h
      simp only [if_true] at h
      obtain ⟨x, -, h⟩ := Hdl.bind_eq_ok h
      simp at h
    · exact (Prod.mk.inj (Res.ok.inj h)).1.symm

/-- C29 is false of the correction-buffer flavour for `apply_propagation(Phi, Q, t_a, t_b)`: every such call
on fitting operands, forward in time, stores the propagated belief and answers `false`. -/
theorem c29_corr_kf_fails (fp : FP) (c d : CInst) (ans : Bool) (Phi Q : Mat) (ta tb : Int) {n : ℕ} (ba : Belief) (ho : c.base.Ord)
    (hs : c.corr.StrictKeys) (hu : ∀ x ∈ c.base.bel, x.1 ≤ ta) (hlt : ta < tb) (hnew : ∀ x ∈ c.corr, x.1 < tb)
    (hb : c.base.beliefAt ta = some ba) (hS : ba.Sigma.Shape n n) (hm : ba.mean.Shape n 1) (hP : Phi.Shape n n) (hQ : Q.Shape n n)
    (h : c.propKF fp Phi Q ta tb = .ok (d, ans)) :
    ans = false ∧ c.base.beliefAt tb = none ∧
      d.base.beliefAt tb = some { ba with mean := Phi * ba.mean, Sigma := Phi * ba.Sigma * Phi.tr + Q, stamp := tb } := by
  have hdm : checkDimMean ba.mean Phi = true :=
    (Inst.checkDimMean_iff _ _).mpr ⟨hm.2, by rw [hm.1, hP.1], by rw [hP.1, hP.2]⟩
  have hnew' : ∀ x ∈ c.corr, x.1 ≠ tb := fun x hx => by have := hnew x hx; omega
  set bb : Belief := { ba with mean := Phi * ba.mean, Sigma := Phi * ba.Sigma * Phi.tr + Q, stamp := tb } with hbb
  unfold CInst.propKF at h
  rw [hb] at h
  simp only at h
  rw [if_pos hdm, hP.mulC hm, Res.bind_ok, propEKF_run fp c ba _ Phi Q ta tb hS hP hQ (hP.mul hm) hnew'] at h
  obtain ⟨r, hr, h⟩ := Hdl.bind_eq_ok h
  obtain ⟨d1, hd, hr⟩ := Hdl.bind_eq_ok hr
  have hr := Res.ok.inj hr
  subst hr
  simp only [if_true] at h
  have hkept := recorded_kept (c := { c with base := c.base.setBelief bb tb }) hs tb Phi hnew hd
  rw [addCorrection_old _ _ _ ⟨_, hkept, rfl⟩] at h
  simp only [Bool.false_eq_true, if_false] at h
  obtain ⟨h1, h2⟩ := Prod.mk.inj (Res.ok.inj h)
  refine ⟨h2.symm, ?_, ?_⟩
  · rw [Inst.beliefAt_eq]
    cases hx : c.base.bel.absMap tb with
    | none => rfl
    | some v =>
      have := hu _ ((Buf.absMap_eq_some _ ho.bel tb v).mp hx)
      simp only at this; omega
  · rw [← h1]
    -- promotion keeps the beliefs, trimming keeps the newest one
    have hbel : d1.base.bel = Buf.checkHorizonRestricted fp c.base.hor (c.base.bel.insertMap tb bb) 4 := by
      unfold CInst.checkHorizon at hd
      obtain ⟨d0, hd0, hd⟩ := Hdl.bind_eq_ok hd
      rw [← Res.ok.inj hd]
      have hb0 : d0.base.bel = c.base.bel.insertMap tb bb ∧ d0.base.hor = c.base.hor := by
        unfold checkCorrectionHorizon at hd0
        split at hd0
        · obtain ⟨m, -, hd0⟩ := Hdl.bind_eq_ok hd0
          rw [← Res.ok.inj hd0]; exact ⟨rfl, rfl⟩
        · rw [← Res.ok.inj hd0]; exact ⟨rfl, rfl⟩
      show Buf.checkHorizonRestricted fp d0.base.hor d0.base.bel 4 = _
      rw [hb0.1, hb0.2]
    rw [Inst.beliefAt_eq, hbel, Buf.absMap_horizonRestricted fp _ _ 4 (Buf.strict_insertMap _ ho.bel _ _) tb, Buf.absMap_insertMap _ ho.bel, if_pos rfl]
    intro x hx
    rcases (Buf.mem_insertMap _ ho.bel _ _ _).mp hx with hx | hx
    · rw [hx]
    · exact le_trans (hu x hx.1) hlt.le

/-- C29 is false of the other overloads if a correction is recorded at `tb` (an update before the
propagation, or a repeated propagation): the belief is replaced and the answer is `false`. -/
theorem c29_corr_recorded_fails (fp : FP) (c : CInst) (ta tb : Int) (hold : ∃ x ∈ c.corr, x.1 = tb) (ho : c.base.Ord) {n : ℕ} :
    (∀ (ba : Belief) mb Phi Q, ba.Sigma.Shape n n → Phi.Shape n n → Q.Shape n n → mb.Shape n 1 →
      ∃ d, c.propEKF fp ba mb Phi Q ta tb = .ok (d, false) ∧
        d.base.beliefAt tb = some { ba with mean := mb, Sigma := Phi * ba.Sigma * Phi.tr + Q, stamp := tb }) ∧
    (∀ (bb : Belief) Phi, bb.Sigma.Shape n n → Phi.Shape n n →
      ∃ d, c.propBel fp bb Phi ta tb = .ok (d, false) ∧ d.base.beliefAt tb = some { bb with stamp := tb }) := by
  constructor
  · intro ba mb Phi Q hS hP hQ hm
    refine ⟨{ c with base := c.base.setBelief { ba with mean := mb, Sigma := Phi * ba.Sigma * Phi.tr + Q, stamp := tb } tb }, ?_, ?_⟩
    · unfold CInst.propEKF
      rw [Inst.basePropEKF_ok c.base ba mb Phi Q tb hS hP hQ hm, Res.bind_ok]
      simp only [if_true]
      rw [addCorrection_old _ _ _ (by exact hold)]
      simp
    · show (c.base.setBelief _ tb).beliefAt tb = _
      rw [Inst.beliefAt_setBelief ho, if_pos rfl]
  · intro bb Phi hS hP
    have hd : checkDimPhi bb.Sigma Phi = true := by
      unfold checkDimPhi
      simp only [Bool.not_eq_true', Bool.or_eq_false_iff, bne_eq_false_iff_eq]
      exact ⟨by rw [hS.1, hP.1], by rw [hS.1, hP.2]⟩
    refine ⟨{ c with base := c.base.setBelief { bb with stamp := tb } tb }, ?_, ?_⟩
    · unfold CInst.propBel
      rw [if_pos hd]
      simp only
      rw [addCorrection_old _ _ _ (by exact hold)]
      simp
    · show (c.base.setBelief _ tb).beliefAt tb = _
      rw [Inst.beliefAt_setBelief ho, if_pos rfl]

/-- Likewise for private observations: an acceptable one at a time without a recorded correction (e.g. the
initial time) answers `false` and leaves the belief, although the factors at that time are corrected and the
correction is recorded. -/
theorem c29_private_fails (c : CInst) (b : Belief) (t : Int) (hst : b.stamp = t) (H R r : Mat) (cfg : Cfg) {n : ℕ} {T : Int} (hc : c.Ok n T)
    (hS : b.Sigma.Shape n n) (res : CorrRes) (hres : correctionStep H R r b.Sigma cfg = .ok res) (hr : res.rejected = false)
    (hnew : ∀ x ∈ c.corr, x.1 ≠ t) :
    ∃ d, c.privEKF b t H R r cfg = .ok (d, false) ∧ d.base.bel = c.base.bel ∧ d.corr = c.corr.insertMap t res.U ∧
      ∀ J M, c.base.fac J t = some M → d.base.fac J t = some (res.U * M) := by
  obtain ⟨hO, hres'⟩ := Inst.correctionStep_accept hS cfg res hres hr
  have hU : res.U.Shape n n := by rw [hres']; exact updM_shape hO _
  have hg : c.corr.getAt t = none := (Buf.getAt_eq_none _ _).mpr hnew
  refine ⟨c.corrected t res.U, ?_, rfl, ?_, ?_⟩
  · unfold CInst.privEKF
    rw [hres, Res.bind_ok, hr]
    simp only [Bool.not_false, if_true]
    rw [hst, applyCorrection_eq hc t res.U hU, Res.bind_ok, hg]
    simp
  · unfold corrected; rw [hg]
  · intro J M hM
    show (c.base.mulFac t t res.U).fac J t = _
    rw [Inst.fac_mulFac hc.ord, hM]; simp

end CInst
end Ikf
