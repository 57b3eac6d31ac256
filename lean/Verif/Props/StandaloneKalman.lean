import Verif.Props.StandaloneDelay

/-!
# C101 for a linear Kalman filter

A filter as a user writes it on top of the base class: propagation from the newest older belief; a private observation first
propagates to its time if there is no belief there. It reports OUTOFORDER if a newer belief is stored.
-/

namespace Ikf
open Mat Matrix
namespace KalmanUser

/-- What a measurement carries: transition matrix and process noise since the newest older belief; measurement matrix, noise and
value. -/
structure Pay where
  Phi : Mat
  Q : Mat
  H : Mat
  R : Mat
  z : Mat

/-- Status reported. -/
def stat (h : Buf Belief) (t : Int) : Status := if h.existAfter t then .outOfOrder else .processed

/-- Propagate from the newest older belief to `t`. -/
noncomputable def propTo (h : Buf Belief) (p : Pay) (t : Int) : Buf Belief × Bool :=
  match h.getBefore t with
  | some e =>
    match SKF.propKF h p.Phi p.Q e.1 t with
    | .ok r => r
    | _ => (h, false)
  | none => (h, false)

noncomputable def prop (h : Buf Belief) (m : Meas Pay) : Buf Belief × Status :=
  let r := propTo h m.data m.t
  (r.1, if r.2 then stat h m.t else .discarded)

noncomputable def priv (cfg : Cfg) (h : Buf Belief) (m : Meas Pay) : Buf Belief × Status :=
  let r := if (SKF.beliefAt h m.t).isSome then (h, true) else propTo h m.data m.t
  if r.2 then
    match SKF.privKF r.1 m.data.H m.data.R m.data.z m.t cfg with
    | .ok q => (q.1, if q.2 then stat h m.t else .rejected)
    | _ => (r.1, .discarded)
  else (h, .discarded)

/-- The filter. -/
noncomputable def user (cfg : Cfg) : KFUser Belief Pay := ⟨prop, priv cfg, fun h _ => (h, false)⟩

/-- Measurements that fit an `n`-state filter. -/
def Fits (n : ℕ) (cfg : Cfg) (m : Meas Pay) : Prop :=
  (m.kind = .propagation ∨ m.kind = .priv) ∧
  (m.data.Phi.rows = n ∧ m.data.Phi.cols = n) ∧ (m.data.Q.rows = n ∧ m.data.Q.cols = n) ∧ (m.data.Q.toM n n).PosSemidef ∧
  (m.kind = .priv → ∃ k, (m.data.H.rows = k ∧ m.data.H.cols = n) ∧ (m.data.R.rows = k ∧ m.data.R.cols = k) ∧
    (m.data.z.rows = k ∧ m.data.z.cols = 1) ∧ (m.data.R.toM k k).PosSemidef ∧ (m.data.R.toM k k + cfg.eps • 1).PosDef)

/-- The newest older belief. -/
def older (h : Buf Belief) (t : Int) : Option (Int × Belief) := (h.filter (fun e => decide (e.1 < t))).getLast?

/-- The propagated belief. -/
noncomputable def predicted (h : Buf Belief) (p : Pay) (t : Int) : Option Belief :=
  (older h t).map (fun e => { e.2 with mean := p.Phi * e.2.mean, Sigma := p.Phi * e.2.Sigma * p.Phi.tr + p.Q, stamp := t })

/-- The corrected belief. -/
noncomputable def corrected (b : Belief) (p : Pay) (cfg : Cfg) : Belief :=
  { b with mean := b.mean + gainM p.H p.R b.Sigma cfg.eps * (p.z - p.H * b.mean), Sigma := postM p.H p.R b.Sigma cfg }

noncomputable def dfl : Belief := { mean := Mat.empty, Sigma := Mat.empty, stamp := 0 }

/-- The new belief. -/
noncomputable def val (cfg : Cfg) (h : Buf Belief) (m : Meas Pay) : Belief :=
  match m.kind with
  | .propagation => (predicted h m.data m.t).getD dfl
  | _ => corrected (((SKF.beliefAt h m.t).or (predicted h m.data m.t)).getD dfl) m.data cfg

theorem older_some {h : Buf Belief} {t : Int} (he : ∃ e ∈ h, e.1 < t) : ∃ e, older h t = some e ∧ e ∈ h ∧ e.1 < t := by
  obtain ⟨e, he, h1⟩ := he
  unfold older
  cases hl : (h.filter (fun e => decide (e.1 < t))).getLast? with
  | none =>
    rw [List.getLast?_eq_none_iff, List.filter_eq_nil_iff] at hl
    exact absurd (by simpa using h1) (hl e he)
  | some l =>
    have := List.mem_filter.mp (List.mem_of_getLast? hl)
    exact ⟨l, rfl, this.1, by simpa using this.2⟩

theorem beliefAt_mem {n : ℕ} {h : Buf Belief} (ho : SKF.Ok n h) {e : Int × Belief} (he : e ∈ h) : SKF.beliefAt h e.1 = some e.2 :=
  (Buf.absMap_eq_some h ho.strict e.1 e.2).mpr he

/-- Propagation from the newest older belief. -/
theorem propTo_eq {n : ℕ} {h : Buf Belief} (ho : SKF.Ok n h) (p : Pay) (t : Int) (he : ∃ e ∈ h, e.1 < t)
    (hP : p.Phi.rows = n ∧ p.Phi.cols = n) (hQ : p.Q.rows = n ∧ p.Q.cols = n) (pQ : (p.Q.toM n n).PosSemidef) :
    ∃ e b, older h t = some e ∧ predicted h p t = some b ∧ propTo h p t = (h.insertMap t b, true) ∧
      SKF.call h (.prop p.Phi p.Q e.1 t) = .ok (h.insertMap t b, true) ∧ SKF.Ok n (h.insertMap t b) := by
  obtain ⟨e, e1, e2, e3⟩ := older_some he
  have hb := beliefAt_mem ho e2
  obtain ⟨hm, hS, hPd⟩ := ho.at hb
  have hF : p.Phi.Shape n n := hP
  obtain ⟨h', hc⟩ := (SKF.c100_defined (m := 0) h ho e.1 e.2 hb).1 p.Phi p.Q t hP.1 hP.2 hQ.1 hQ.2
  have hok := (SKF.call_true ho (.prop p.Phi p.Q e.1 t) pQ hc).2
  have hc0 : SKF.propKF h p.Phi p.Q e.1 t = .ok (h', true) := hc
  have hc' := hc0
  unfold SKF.propKF at hc'
  rw [hb] at hc'
  simp only at hc'
  rw [if_pos ((Inst.checkDimMean_iff _ _).mpr ⟨hm.2, by rw [hm.1, hP.1], by rw [hP.1, hP.2]⟩), hF.mulC hm, Res.bind_ok] at hc'
  obtain ⟨_, _, _, hh⟩ := SKF.propEKF_true hS _ _ _ _ hc'
  refine ⟨e, _, e1, by unfold predicted; rw [e1]; rfl, ?_, ?_, ?_⟩
  · unfold propTo
    rw [Buf.getBefore_eq h (Buf.StrictKeys.sorted ho.strict)]
    rw [show (h.filter (fun e => decide (e.1 < t))).getLast? = some e from e1]
    simp only [hc0]
    rw [hh]; rfl
  · rw [hc, hh]; rfl
  · rw [hh] at hok; exact hok

/-- The correction. -/
theorem privKF_eq {n k : ℕ} {h : Buf Belief} (ho : SKF.Ok n h) (p : Pay) (t : Int) (cfg : Cfg) (ho' : cfg.outlier = false)
    (heps : 0 ≤ cfg.eps) {b : Belief} (hb : SKF.beliefAt h t = some b)
    (hH : p.H.rows = k ∧ p.H.cols = n) (hR : p.R.rows = k ∧ p.R.cols = k) (hz : p.z.rows = k ∧ p.z.cols = 1)
    (pR : (p.R.toM k k).PosSemidef) (pRe : (p.R.toM k k + cfg.eps • 1).PosDef) :
    SKF.call h (.priv p.H p.R p.z t cfg) = .ok (h.insertMap t (corrected b p cfg), true) ∧
      SKF.Ok n (h.insertMap t (corrected b p cfg)) := by
  obtain ⟨hm, hS, hPd⟩ := ho.at hb
  have sH : p.H.Shape k n := hH
  have sz : p.z.Shape k 1 := hz
  have hO : ObsShape p.H p.R (p.z - p.H * b.mean) b.Sigma n k := ⟨hH, hR, sz.sub, hS⟩
  have hc : SKF.call h (.priv p.H p.R p.z t cfg) = .ok (h.insertMap t (corrected b p cfg), true) := by
    simp only [SKF.call, SKF.privKF, hb]
    rw [sH.mulC hm, Res.bind_ok, sz.subC (sH.mul hm), Res.bind_ok]
    unfold SKF.privEKF
    rw [correctionStep_eq hO, ho']
    simp only [Bool.false_eq_true, if_false, Res.bind_ok, Bool.not_false, if_true]
    unfold Belief.correct
    rw [hm.addC ((gainM_shape hO _).mul hO.r), Res.bind_ok, Res.bind_ok]
    rfl
  refine ⟨hc, (SKF.call_true ho (.priv p.H p.R p.z t cfg) ?_ hc).2⟩
  have : p.z.rows = k := hz.1
  subst this
  exact ⟨heps, pR, pRe⟩

/-- What a fitting measurement does: it replaces the belief at its time by `val`, by accepted calls of the base class. -/
theorem delegate_eq {n : ℕ} (cfg : Cfg) (ho' : cfg.outlier = false) (heps : 0 ≤ cfg.eps) {h : Buf Belief} (ho : SKF.Ok n h)
    (m : Meas Pay) (hM : Fits n cfg m) (he : ∃ e ∈ h, e.1 < m.t) :
    SKF.delegate (user cfg) h m = (h.insertMap m.t (val cfg h m), if h.existAfter m.t then .outOfOrder else .processed) ∧
    SKF.Ok n (h.insertMap m.t (val cfg h m)) ∧
    ∃ e, older h m.t = some e ∧
      SKF.calls h (match m.kind with
        | .propagation => [.prop m.data.Phi m.data.Q e.1 m.t]
        | _ => (if (SKF.beliefAt h m.t).isSome then [] else [.prop m.data.Phi m.data.Q e.1 m.t]) ++
            [.priv m.data.H m.data.R m.data.z m.t cfg]) =
        .ok (h.insertMap m.t (val cfg h m), match m.kind with
          | .propagation => [true]
          | _ => if (SKF.beliefAt h m.t).isSome then [true] else [true, true]) := by
  obtain ⟨hkind, hP, hQ, pQ, hpriv⟩ := hM
  obtain ⟨e, b, p1, p2, p3, p4, p5⟩ := propTo_eq ho m.data m.t he hP hQ pQ
  rcases hkind with hkd | hkd
  · have hv : val cfg h m = b := by unfold val; simp only [hkd, p2, Option.getD_some]
    rw [hv]
    refine ⟨?_, p5, e, p1, ?_⟩
    · simp only [SKF.delegate, hkd]
      show prop h m = _
      unfold prop
      rw [p3]
      rfl
    · simp only [hkd, SKF.calls, p4, Res.bind_ok]
  · obtain ⟨k, hH, hR, hz, pR, pRe⟩ := hpriv hkd
    by_cases hs : (SKF.beliefAt h m.t).isSome
    · obtain ⟨b', hb'⟩ := Option.isSome_iff_exists.mp hs
      obtain ⟨q1, q2⟩ := privKF_eq ho m.data m.t cfg ho' heps hb' hH hR hz pR pRe
      have hv : val cfg h m = corrected b' m.data cfg := by unfold val; simp only [hkd, hb', Option.some_or, Option.getD_some]
      rw [hv]
      refine ⟨?_, q2, e, p1, ?_⟩
      · simp only [SKF.delegate, hkd]
        show priv cfg h m = _
        unfold priv
        simp only [hs, if_true]
        have q1' : SKF.privKF h m.data.H m.data.R m.data.z m.t cfg = _ := q1
        rw [q1']
        rfl
      · simp only [hkd, hs, if_true, List.nil_append, SKF.calls, q1, Res.bind_ok]
    · have hn : SKF.beliefAt h m.t = none := by simpa using hs
      have hb1 : SKF.beliefAt (h.insertMap m.t b) m.t = some b := by
        have := SKF.beliefAt_set ho.strict b m.t m.t
        rw [if_pos rfl] at this
        exact this
      obtain ⟨q1, q2⟩ := privKF_eq p5 m.data m.t cfg ho' heps hb1 hH hR hz pR pRe
      rw [Buf.insertMap_insertMap] at q1 q2
      have hv : val cfg h m = corrected b m.data cfg := by
        unfold val; simp only [hkd, hn, p2, Option.none_or, Option.getD_some]
      rw [hv]
      refine ⟨?_, q2, e, p1, ?_⟩
      · simp only [SKF.delegate, hkd]
        show priv cfg h m = _
        unfold priv
        rw [p3]
        have q1' : SKF.privKF (h.insertMap m.t b) m.data.H m.data.R m.data.z m.t cfg = _ := q1
        simp only [hn, Option.isSome_none, Bool.false_eq_true, if_false, if_true]
        rw [q1']
        rfl
      · simp only [hkd, hn, Option.isSome_none, Bool.false_eq_true, if_false, List.cons_append, List.nil_append, SKF.calls, p4,
          q1, Res.bind_ok]

/-- C101. This filter is causal, and each of its measurements is one or two accepted calls of the base class, i.e. textbook
steps (C100). -/
theorem c101_kalman (n : ℕ) (cfg : Cfg) (ho : cfg.outlier = false) (heps : 0 ≤ cfg.eps) :
    Causal (user cfg) (SKF.Ok n) (Fits n cfg) ∧
    ∀ h m, SKF.Ok n h → Fits n cfg m → (∃ e ∈ h, e.1 < m.t) →
      ∃ cs as, (∀ a ∈ as, a = true) ∧ cs.length = as.length ∧ 0 < cs.length ∧
        TextRun (SKF.estimates n h) cs as (SKF.estimates n (SKF.delegate (user cfg) h m).1) := by
  refine ⟨?_, ?_⟩
  · refine causal_of_value (val cfg) (fun h hh => hh.strict) ?_ ?_ ?_ ?_
    · intro h t hh
      exact ⟨List.Pairwise.filter _ hh.strict, fun e he => hh.bel e (List.mem_filter.mp he).1⟩
    · intro h m hh hM he
      exact (delegate_eq cfg ho heps hh m hM he).2.1
    · intro h m hh hM he
      have h1 : older (h.filter (fun e => decide (e.1 ≤ m.t))) m.t = older h m.t := by
        unfold older
        rw [List.filter_filter]
        congr 1
        apply List.filter_congr
        intro e _
        rw [Bool.eq_iff_iff]; simp; omega
      have h2 : SKF.beliefAt (h.filter (fun e => decide (e.1 ≤ m.t))) m.t = SKF.beliefAt h m.t := by
        have := Buf.absMap_filter h hh.strict (fun x => decide (x ≤ m.t)) m.t
        simp only [le_refl, decide_true, if_true] at this
        exact this
      unfold val predicted
      rw [h1, h2]
    · intro h m hh hM he
      exact (delegate_eq cfg ho heps hh m hM he).1
  · intro h m hh hM he
    obtain ⟨d1, d2, e, d3, d4⟩ := delegate_eq cfg ho heps hh m hM he
    rw [d1]
    refine ⟨_, _, ?_, ?_, ?_, (SKF.c100_textbook h hh _ ?_ _ _ d4).1⟩
    · intro a
      split
      · simp
      · split <;> simp
    · split
      · rfl
      · split <;> rfl
    · split <;> simp
    · obtain ⟨hkind, hP, hQ, pQ, hpriv⟩ := hM
      rcases hkind with hkd | hkd
      · simp only [hkd]
        intro c hc
        simp only [List.mem_singleton] at hc
        subst hc; exact pQ
      · obtain ⟨k, hH, hR, hz, pR, pRe⟩ := hpriv hkd
        simp only [hkd]
        intro c hc
        rcases List.mem_append.mp hc with hc | hc
        · split at hc
          · simp at hc
          · simp only [List.mem_singleton] at hc
            subst hc; exact pQ
        · simp only [List.mem_singleton] at hc
          subst hc
          have : m.data.z.rows = k := hz.1
          subst this
          exact ⟨heps, pR, pRe⟩

/-- A scalar instance: initial belief and a stream with one late observation. -/
noncomputable def pay : Pay := ⟨SKF.MathExample.sc 1, SKF.MathExample.sc 1, SKF.MathExample.sc 1, SKF.MathExample.sc 1, SKF.MathExample.sc 2⟩

example : SKF.Ok 1 [(0, { mean := SKF.MathExample.sc 0, Sigma := SKF.MathExample.sc 1, stamp := 0 })] ∧
    ∀ m ∈ ([⟨1, 1000000000, .propagation, pay⟩, ⟨1, 3000000000, .propagation, pay⟩, ⟨1, 2000000000, .priv, pay⟩] : List (Meas Pay)),
      Fits 1 { outlier := false } m ∧ 0 < m.t := by
  refine ⟨SKF.MathExample.h0_ok, ?_⟩
  have hk : ∀ k : ObsType, k = .propagation ∨ k = .priv → ∀ t : Int, Fits 1 { outlier := false } ⟨1, t, k, pay⟩ := by
    intro k hk t
    refine ⟨hk, ⟨rfl, rfl⟩, ⟨rfl, rfl⟩, SKF.MathExample.sc_psd (by norm_num), fun _ => ⟨1, ⟨rfl, rfl⟩, ⟨rfl, rfl⟩, ⟨rfl, rfl⟩,
      SKF.MathExample.sc_psd (by norm_num), ?_⟩⟩
    exact (SKF.MathExample.sc_pd (by norm_num)).add_posSemidef (Alg.smul_one_psd (by norm_num))
  intro m hm
  simp only [List.mem_cons, List.not_mem_nil, or_false] at hm
  rcases hm with rfl | rfl | rfl
  · exact ⟨hk _ (.inl rfl) _, by norm_num⟩
  · exact ⟨hk _ (.inl rfl) _, by norm_num⟩
  · exact ⟨hk _ (.inr rfl) _, by norm_num⟩

end KalmanUser
end Ikf
