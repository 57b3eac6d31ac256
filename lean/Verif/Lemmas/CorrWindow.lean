import Verif.Lemmas.CorrSim
import Verif.Lemmas.FpErr

/-! # Correction buffer: bounded time steps forget nothing that is needed -/

namespace Ikf
open Mat

namespace CInst

/-- After a promotion every factor history reaches at least the middle. -/
theorem promoted_newest {c d : CInst} (fp : FP) (ho : c.base.Ord) (hlt : fp.rnd (c.corrHor * (1/2)) < c.corr.horizon fp)
    (h : c.checkCorrectionHorizon fp = .ok d) {J : ℕ} {bd : Buf Mat} (hbd : d.base.ccf.find J = some bd) {l : Int × Mat}
    (hl : bd.getLast? = some l) : c.middle fp ≤ l.1 := by
  unfold checkCorrectionHorizon at h
  rw [if_pos hlt] at h
  obtain ⟨m, hm, hd⟩ := Hdl.bind_eq_ok h
  have hd := Res.ok.inj hd
  obtain ⟨-, hnone, hsome, -, -⟩ := SMap.mapR_spec _ _ _ hm
  have hbd' : m.find J = some bd := by rw [← hd] at hbd; exact hbd
  cases hf : c.base.ccf.find J with
  | none => rw [hnone J hf] at hbd'; simp at hbd'
  | some b =>
    obtain ⟨w, hw, hmw⟩ := hsome J b hf
    rw [hbd'] at hmw
    rw [← Option.some.inj hmw] at hw
    have hbs := ho.buf J b hf
    unfold promote at hw
    cases hlb : b.latest with
    | none =>
      rw [hlb] at hw
      have hw := Res.ok.inj hw
      rw [← hw] at hl
      have hlb' : b.getLast? = none := hlb
      rw [hlb'] at hl; simp at hl
    | some lb =>
      rw [hlb] at hw
      simp only at hw
      by_cases h1 : lb.1 ≤ c.middle fp
      · rw [if_pos h1] at hw
        split at hw
        · obtain ⟨M, -, hw⟩ := Hdl.bind_eq_ok hw
          obtain ⟨X, -, hw⟩ := Hdl.bind_eq_ok hw
          have hw := Res.ok.inj hw
          rw [← hw] at hl
          have := (Buf.strict_insertMap b hbs (c.middle fp) X).sorted.le_getLast hl (c.middle fp, X)
            ((Buf.mem_insertMap b hbs _ _ _).mpr (Or.inl rfl))
          exact this
        · simp at hw
      · rw [if_neg h1] at hw
        have hw := Res.ok.inj hw
        rw [← hw] at hl
        have hlb' : b.getLast? = some lb := hlb
        rw [hlb'] at hl
        rw [← Option.some.inj hl]
        omega

/-- The middle is at least every correction well before half of the horizon. -/
theorem le_middle {c : CInst} (fp : FP) (hs : c.corr.StrictKeys) (hm0 : 1/100000 ≤ c.corrHor) (hm1 : c.corrHor ≤ 10000000)
    {o : Int × Mat} (ho : c.corr.oldest = some o) (h0 : 0 ≤ o.1) (h1 : o.1 ≤ 8500000000000000000)
    (e : Int × Mat) (he : e ∈ c.corr) (hle : ((e.1 - o.1 : ℤ) : ℚ) / 1000000000 ≤ c.corrHor / 2 - 1/100000) : e.1 ≤ c.middle fp := by
  unfold middle
  rw [ho]
  simp only
  have eo := fp.secOfKey_err o.1 h0 (by omega)
  have hq0 : (0:ℚ) ≤ o.1 := by exact_mod_cast h0
  have hq1 : (o.1:ℚ) ≤ 8500000000000000000 := by exact_mod_cast h1
  have hdiv : (o.1:ℚ)/1000000000 ≤ 8500000000 := by rw [div_le_iff₀ (by norm_num)]; norm_num; exact hq1
  have hdiv0 : 0 ≤ (o.1:ℚ)/1000000000 := by positivity
  have hsk : fp.secOfKey o.1 = fp.toSec (Timestamp.ofStampNs o.1) := rfl
  rw [hsk]
  set s := fp.toSec (Timestamp.ofStampNs o.1) with hsdef
  have e1 := fp.rnd_err (c.corrHor * (1/2)) 10000000 (by rw [abs_of_nonneg (by linarith)]; linarith)
  set hh := fp.rnd (c.corrHor * (1/2)) with hhd
  rw [abs_le] at eo e1
  have hb : |s + hh| ≤ 8520000000 := by
    rw [abs_le]; norm_num at e1 ⊢; constructor <;> linarith
  have e2 := fp.rnd_err _ _ hb
  rw [abs_le] at e2 hb
  set x := fp.rnd (s + hh) with hx
  have hlo : -9007199254740992 ≤ ⌊x⌋ := by
    rw [Int.le_floor]; push_cast; norm_num at e2 hb ⊢; linarith
  have hhi : ⌊x⌋ ≤ 8589934591 := by
    have : ⌊x⌋ < 8589934592 := by
      rw [Int.floor_lt]; push_cast; norm_num at e2 hb ⊢; linarith
    omega
  have e3 := fp.fromSec_err x hlo hhi
  rw [abs_le] at e3
  set K := (fp.fromSec x).ns with hK
  have hlt : e.1 < K := by
    have : (e.1:ℚ) < K := by
      push_cast at hle
      rw [sub_div] at hle
      norm_num at e1 e2 e3 eo
      linarith
    exact_mod_cast this
  have hmem : e ∈ c.corr.filter (fun y => decide (y.1 < K)) := List.mem_filter.mpr ⟨he, by simpa using hlt⟩
  rw [Buf.getBefore_eq _ hs.sorted]
  cases hg : (c.corr.filter (fun y => decide (y.1 < K))).getLast? with
  | none => rw [List.getLast?_eq_none_iff] at hg; rw [hg] at hmem; simp at hmem
  | some m => exact (hs.sorted.filter _).le_getLast hg e hmem

/-- While the recorded corrections span less than one and a half horizons, `check_horizon` forgets nothing
that factors at the current time need. -/
theorem window_of_span {n : ℕ} (hn : 0 < n) {T : Int} {c c' : CInst} (hc : c.Ok n T) (h0 : 0 ≤ T) (fp : FP)
    (hm0 : 1/100000 ≤ c.corrHor) (hm1 : c.corrHor ≤ 10000000) (hk : ∀ e ∈ c.corr, 0 ≤ e.1 ∧ e.1 ≤ 8500000000000000000)
    (hspan : ∀ e ∈ c.corr, ∀ e' ∈ c.corr, ((e'.1 - e.1 : ℤ) : ℚ) / 1000000000 ≤ c.corrHor * (3/2) - 1/50000)
    (h : c.checkHorizon fp = .ok c') : Window c c' T := by
  unfold CInst.checkHorizon at h
  obtain ⟨d, hd, hc'⟩ := Hdl.bind_eq_ok h
  have hc' := Res.ok.inj hc'
  have hp := checkCorrectionHorizon_spec hn hc h0 fp hd
  subst hc'
  intro J b b' hb hbne hb'
  have hb' : (d.base.checkHorizon fp).ccf.find J = some b' := hb'
  rw [Inst.find_checkHorizon] at hb'
  obtain ⟨bd, hbd, hbb⟩ := Option.map_eq_some_iff.mp hb'
  obtain ⟨hlast, hsuf2⟩ := Buf.horizonRestricted_facts fp d.base.hor bd 4
  rw [hbb] at hlast hsuf2
  have hbds := hp.ok.ord.buf J bd hbd
  -- dropped corrections are at or before the newest factor
  have hdrop : ∀ l, bd.getLast? = some l → ∀ e ∈ c.corr, e ∉ Buf.checkHorizon fp d.corrHor d.corr → e.1 ≤ l.1 := by
    intro l hl e he hne
    rw [hp.corr, hp.corrHor] at hne
    cases hcl : c.corr.getLast? with
    | none => rw [List.getLast?_eq_none_iff] at hcl; rw [hcl] at he; simp at he
    | some y =>
      have hym := List.mem_of_getLast? hcl
      have hspan1 := (c15_span fp c.corrHor c.corr hc.strict.sorted hm0 (by linarith) (fun e he => ⟨(hk e he).1, by have := (hk e he).2; omega⟩) y hcl).2 e he
      have hold : ¬ ((y.1 - e.1 : ℤ) : ℚ) / 1000000000 ≤ c.corrHor - 1/100000 := fun hh => hne (hspan1 hh)
      obtain ⟨o, ho⟩ : ∃ o, c.corr.oldest = some o := by
        cases hcc : c.corr with
        | nil => rw [hcc] at he; simp at he
        | cons x r => exact ⟨x, rfl⟩
      have hom : o ∈ c.corr := List.mem_of_head? ho
      have hsp := hspan o hom y hym
      -- promotion happened
      by_cases hpr : fp.rnd (c.corrHor * (1/2)) < c.corr.horizon fp
      · have hmid := promoted_newest fp hc.ord hpr hd hbd hl
        refine le_trans (le_middle fp hc.strict hm0 hm1 ho (hk o hom).1 (hk o hom).2 e he ?_) hmid
        push_cast at hold hsp ⊢
        rw [sub_div] at hold hsp ⊢
        linarith
      · exfalso
        apply hne
        rw [(c15_newest_kept fp c.corrHor c.corr).2.2]
        · exact he
        · have e1 := fp.rnd_err (c.corrHor * (1/2)) 10000000 (by rw [abs_of_nonneg (by linarith)]; linarith)
          rw [abs_le] at e1
          norm_num at e1 hpr
          linarith
  cases hl : bd.getLast? with
  | none =>
    rw [List.getLast?_eq_none_iff] at hl
    exfalso
    obtain ⟨b0, hb0, hcase⟩ := hp.hist J bd hbd
    rw [hb] at hb0
    have hb0 := Option.some.inj hb0
    rcases hcase with heq | ⟨X, heq, -⟩
    · exact hbne (by rw [hb0, ← heq, hl])
    · have hmem := (Buf.mem_insertMap b0 (by rw [← hb0]; exact hc.ord.buf J b hb) (c.middle fp) X (c.middle fp, X)).mpr (Or.inl rfl)
      rw [← heq, hl] at hmem; simp at hmem
  | some l =>
    right
    rw [hl] at hlast
    refine ⟨l, List.mem_of_getLast? hlast, hp.ok.upTo.ccf J bd hbd l (List.mem_of_getLast? hl), ?_⟩
    exact fun e he hne => hdrop l hl e he hne

end CInst
end Ikf
