import Verif.Props.Covariance
import Verif.Lemmas.CovarianceNet
import Verif.Props.StdExamples
import Verif.Props.CollabExamples

/-!
# C104 for teams of agents and for the filters without buffers
-/

namespace Ikf
open Mat

namespace Collab.Net
open Hdl

/-- Execution of one call in a team (`TeamCall`, Spec/Covariance.lean). -/
noncomputable def exec (T : Agents.Tables) (fp : FP) (near : Mat → Mat) (pj : Belief → Mat → Mat) (pred : ℕ → Inst → Int → Inst × Bool) (n : Net) :
    TeamCall → Res Net
  | .own a c => do
    let h ← Hdl.exec fp near pj pred (n a) c
    .ok (Function.update n a h)
  | .obsR a lk dH R r t cfg => do
    let x ← Net.applyObsR T a near pred lk n dH R r t cfg
    .ok x.1
  | .obsZ a dH z R t cfg => do
    let x ← Net.applyObsZ T a near pred n dH z R t cfg
    .ok x.1
  | .obsH a lk hf R z t ids cfg => do
    let x ← Net.applyObsH T a near pj pred hf lk n R z t ids cfg
    .ok x.1.1
  | .dci a lk hf R z t ids cfg => do
    let x ← Net.applyObsDci T a near pj pred hf lk n R z t ids cfg
    .ok x.1.1

/-- A sequence of calls, none of which throws or runs into undefined behaviour. -/
noncomputable def execAll (T : Agents.Tables) (fp : FP) (near : Mat → Mat) (pj : Belief → Mat → Mat) (pred : ℕ → Inst → Int → Inst × Bool) (n : Net) :
    List TeamCall → Res Net
  | [] => .ok n
  | c :: r => do
    let n1 ← exec T fp near pj pred n c
    execAll T fp near pj pred n1 r

section
variable {T : Agents.Tables} {fp : FP} {near : Mat → Mat} {pj : Belief → Mat → Mat} {pred : ℕ → Inst → Int → Inst × Bool} {n n' : Net}

theorem Covs.exec (hn : NearCov near) (hp : PredCov pred) (hc : Covs n) {c : TeamCall} (ho : c.Ok) (hx : exec T fp near pj pred n c = .ok n') : Covs n' := by
  cases c with
  | own a c =>
    obtain ⟨h, hh, hx⟩ := bind_eq_ok hx
    rw [← Res.ok.inj hx]
    exact hc.update ((hc a).exec hn hp ho hh) a
  | obsR a lk dH R r t cfg =>
    obtain ⟨x, h, hx⟩ := bind_eq_ok hx
    rw [← Res.ok.inj hx]
    exact hc.applyObsR hn hp h
  | obsZ a dH z R t cfg =>
    obtain ⟨x, h, hx⟩ := bind_eq_ok hx
    rw [← Res.ok.inj hx]
    exact hc.applyObsZ hn hp h
  | obsH a lk hf R z t ids cfg =>
    obtain ⟨x, h, hx⟩ := bind_eq_ok hx
    rw [← Res.ok.inj hx]
    exact hc.applyObsH hn hp (tr_of_symm ho.1 ho.2) h
  | dci a lk hf R z t ids cfg =>
    obtain ⟨x, h, hx⟩ := bind_eq_ok hx
    rw [← Res.ok.inj hx]
    exact hc.applyObsDci hn hp (tr_of_symm ho.1 ho.2) h

/-- C104 for a team: start with agents that hold nothing, let the agents make any calls in any order, whatever the messages
between them carry: every belief of every agent has a covariance matrix. -/
theorem c104_team (hn : NearCov near) (hp : PredCov pred) (l : List TeamCall) (hl : ∀ c ∈ l, c.Ok)
    (hx : execAll T fp near pj pred (fun _ => []) l = .ok n') : ∀ a, (n' a).Covs := by
  have key : ∀ (l : List TeamCall) (n : Net), Covs n → (∀ c ∈ l, c.Ok) → execAll T fp near pj pred n l = .ok n' → Covs n' := by
    intro l
    induction l with
    | nil => intro n hc _ hx; rw [← Res.ok.inj hx]; exact hc
    | cons c r ih =>
      intro n hc hl hx
      rw [execAll] at hx
      obtain ⟨n1, e1, hx⟩ := bind_eq_ok hx
      exact ih n1 (hc.exec hn hp (hl c List.mem_cons_self) e1) (fun c hc => hl c (List.mem_cons_of_mem _ hc)) hx
  exact key l _ (fun a x hx => by simp at hx) hl hx
end
end Collab.Net

namespace Collab.Example
open Hdl.Example

/-- Two agents register and initialise an instance each; agent 1 then observes both: all conditions of `c104_team` hold and the
run returns. -/
theorem c104_team_example : ∃ l n1, (∀ c ∈ l, TeamCall.Ok c) ∧ l.length = 5 ∧
    Net.execAll T FP.exact near linJac pred (fun _ => []) l = .ok n1 ∧ ∀ a, (n1 a).Covs := by
  obtain ⟨n1, e, -⟩ := joint_run 5
  have hall : ∀ c ∈ [TeamCall.own 1 (.add 1 10), .own 1 (.init 1 b0 0), .own 2 (.add 2 10), .own 2 (.init 2 b0 0), .obsR 1 {} dH (s 1) (s 5) 0 cfg], TeamCall.Ok c := by
    intro c hc
    simp only [List.mem_cons, List.not_mem_nil, or_false] at hc
    rcases hc with rfl | rfl | rfl | rfl | rfl
    · trivial
    · exact cov_s (by norm_num)
    · trivial
    · exact cov_s (by norm_num)
    · trivial
  have hrun : Net.execAll T FP.exact near linJac pred (fun _ => []) [TeamCall.own 1 (.add 1 10), .own 1 (.init 1 b0 0), .own 2 (.add 2 10), .own 2 (.init 2 b0 0),
      .obsR 1 {} dH (s 1) (s 5) 0 cfg] = .ok n1 := by
    have hs : ∀ l, Net.execAll T FP.exact near linJac pred (fun _ => []) (TeamCall.own 1 (.add 1 10) :: .own 1 (.init 1 b0 0) :: .own 2 (.add 2 10) ::
        .own 2 (.init 2 b0 0) :: l) = Net.execAll T FP.exact near linJac pred n0 l := by
      intro l
      have : n0 = Function.update (Function.update (Function.update (Function.update (fun _ => ([] : Hdl)) 1 [(1, ⟨[], [], 10⟩)]) 1 [(1, i0)]) 2 [(2, ⟨[], [], 10⟩)]) 2 [(2, i0)] := by
        funext x
        unfold n0
        by_cases h2 : x = 2
        · subst h2; simp
        · by_cases h1 : x = 1
          · subst h1; simp
          · simp [h1, h2]
      rw [this]
      rfl
    rw [hs]
    have e' : Net.applyObsR T 1 near pred {} n0 dH (s 1) (s 5) 0 cfg = .ok (n1, true) := e
    simp only [Net.execAll, Net.exec, e', Res.bind_ok]
  exact ⟨_, n1, hall, rfl, hrun, Net.c104_team near_cov pred_cov _ hall hrun⟩
end Collab.Example

namespace StdHdl
open Hdl

/-- Execution of one call (`StdCall`, Spec/Covariance.lean): `add` is IKFHandlerStd.cpp:22-28 for a filter just constructed
(KalmanFilterStd.cpp:25-34), `setBel` KalmanFilterStd.cpp:36. -/
noncomputable def exec (g1 g2 g3 : ℕ → ℕ → ℝ) (h : StdHdl) : StdCall → Res StdHdl
  | .add id b => .ok (SMap.emplace h id ⟨b, []⟩)
  | .setBel id b => do
    let i ← get h id
    .ok (SMap.set h id { i with bel := some b })
  | .ev e => do
    let r ← run g1 g2 g3 h e
    .ok r.1

/-- A sequence of calls, none of which throws or runs into undefined behaviour. -/
noncomputable def execAll (g1 g2 g3 : ℕ → ℕ → ℝ) (h : StdHdl) : List StdCall → Res StdHdl
  | [] => .ok h
  | c :: r => do
    let h1 ← exec g1 g2 g3 h c
    execAll g1 g2 g3 h1 r

variable {g1 g2 g3 : ℕ → ℕ → ℝ} {h h' : StdHdl}

/-- As `StdHdl.Covs` for one filter. -/
def One (i : StdInst) : Prop := ∀ b, i.bel = some b → IsCovMat b.Sigma

theorem Covs.set (hc : h.Covs) {i : StdInst} (hi : One i) (id : ℕ) : StdHdl.Covs (SMap.set h id i) := by
  intro x hx
  rcases SMap.mem_set_sub hx with hx | hx
  · rw [hx]; exact hi
  · exact hc x hx

theorem Covs.get (hc : h.Covs) {id : ℕ} {i : StdInst} (hg : StdHdl.get h id = .ok i) : One i := by
  unfold StdHdl.get at hg
  split at hg
  · rename_i j hj
    rw [← Res.ok.inj hg]
    exact hc _ (SMap.mem_of_find hj)
  · simp at hg

theorem One.deref {i : StdInst} (hi : One i) {b : Belief} (hb : i.deref = .ok b) : IsCovMat b.Sigma := by
  unfold StdInst.deref at hb
  split at hb
  · rename_i x hx
    rw [← Res.ok.inj hb]; exact hi x hx
  · simp at hb

theorem One.of {i : StdInst} {b : Belief} (hb : IsCovMat b.Sigma) (hi : i.bel = some b) : One i := by
  intro x hx
  rw [hi] at hx
  rw [← Option.some.inj hx]; exact hb

theorem One.bel_eq {i j : StdInst} (hi : One i) (h : j.bel = i.bel) : One j := by
  intro b hb; rw [h] at hb; exact hi b hb

theorem mulFactors_bel {i j : StdInst} {F : Mat} (h : i.mulFactors F = .ok j) : j.bel = i.bel := by
  unfold StdInst.mulFactors at h
  obtain ⟨c, _, h⟩ := bind_eq_ok h
  rw [← Res.ok.inj h]

theorem One.thenFactors {Phi : Mat} {r r' : StdInst × Bool} (hi : One r.1) (h : StdInst.thenFactors Phi r = .ok r') : One r'.1 := by
  unfold StdInst.thenFactors at h
  split at h
  · obtain ⟨j, hj, h⟩ := bind_eq_ok h
    rw [← Res.ok.inj h]
    exact hi.bel_eq (mulFactors_bel hj)
  · rw [← Res.ok.inj h]; exact hi

theorem One.prop {i : StdInst} (hi : One i) {Phi Q : Mat} (hQ : IsCovMat Q) {t : Int} {r : StdInst × Bool} (h : i.prop Phi Q t = .ok r) : One r.1 := by
  unfold StdInst.prop at h
  obtain ⟨x, hx, h⟩ := bind_eq_ok h
  refine One.thenFactors ?_ h
  unfold StdInst.baseProp at hx
  obtain ⟨b, hb, hx⟩ := bind_eq_ok hx
  split at hx
  · rename_i hd
    obtain ⟨S, hS, hx⟩ := bind_eq_ok hx
    obtain ⟨m, _, hx⟩ := bind_eq_ok hx
    rw [← Res.ok.inj hx]
    exact One.of (b := { b with mean := m, Sigma := S, stamp := t }) (Inst.covPropagation_cov (hi.deref hb) hQ hd.1 hS) rfl
  · rw [← Res.ok.inj hx]; exact hi

theorem rank_one_cov {G var Q a b P : Mat} (hv : var.cols = 1 ∧ ∀ i, 0 ≤ var.e i 0) (hQ : IsCovMat Q) (ha : G *! var = .ok a) (hb : a *! G.tr = .ok b)
    (hP : b +! Q = .ok P) : IsCovMat P ∧ P.rows = Q.rows ∧ P.cols = Q.cols := by
  obtain ⟨rfl, h1⟩ := mulC_eq ha
  obtain ⟨rfl, h2⟩ := mulC_eq hb
  obtain ⟨rfl, h3, h4⟩ := addC_eq hP
  have hk : G.cols = 1 := by change var.cols = G.cols at h2; rw [← h2]; exact hv.1
  refine ⟨?_, h3, h4⟩
  have hG : G.Shape Q.rows 1 := ⟨h3, hk⟩
  have hV : var.Shape 1 1 := ⟨by rw [← h1, hk], hv.1⟩
  obtain ⟨hQs, hQp⟩ := hQ.psd rfl
  refine isCov_of (n := Q.rows) ((hG.mul hV).mul hG.tr).add ?_
  rw [((hG.mul hV).mul hG.tr).toM_add hQs, (hG.mul hV).toM_mul, hG.toM_mul, toM_tr]
  refine (Alg.psd_congr ?_ _).add hQp
  have : var.toM 1 1 = Matrix.diagonal (fun _ => var.e 0 0) := by
    ext i j
    rw [Subsingleton.elim j i, Matrix.diagonal_apply_eq, toM_apply]
    rw [Subsingleton.elim i 0]; rfl
  rw [this]
  exact Matrix.PosSemidef.diagonal fun _ => hv.2 0

theorem One.propU {i : StdInst} (hi : One i) {Phi Q : Mat} (hQ : IsCovMat Q) {t : Int} {G u var : Mat} (hv : var.cols = 1 ∧ ∀ i, 0 ≤ var.e i 0)
    {r : StdInst × Bool} (h : i.propU Phi Q t G u var = .ok r) : One r.1 := by
  unfold StdInst.propU at h
  obtain ⟨x, hx, h⟩ := bind_eq_ok h
  refine One.thenFactors ?_ h
  unfold StdInst.basePropU at hx
  obtain ⟨b, hb, hx⟩ := bind_eq_ok hx
  split at hx
  · rename_i hd
    obtain ⟨pm, _, hx⟩ := bind_eq_ok hx
    obtain ⟨gu, _, hx⟩ := bind_eq_ok hx
    obtain ⟨m, _, hx⟩ := bind_eq_ok hx
    obtain ⟨gv, hgv, hx⟩ := bind_eq_ok hx
    obtain ⟨gvg, hgvg, hx⟩ := bind_eq_ok hx
    obtain ⟨Qd, hQd, hx⟩ := bind_eq_ok hx
    obtain ⟨S, hS, hx⟩ := bind_eq_ok hx
    rw [← Res.ok.inj hx]
    obtain ⟨q1, q2, q3⟩ := rank_one_cov hv hQ hgv hgvg hQd
    refine One.of (b := { b with mean := m, Sigma := S, stamp := t }) (Inst.covPropagation_cov (hi.deref hb) q1 ?_ hS) rfl
    obtain ⟨c1, c2, c3, c4⟩ := (checkDimQ_iff _ _ _).mp hd.1
    exact (checkDimQ_iff _ _ _).mpr ⟨c1, c2, by rw [q2, c3], by rw [q3, c4]⟩
  · rw [← Res.ok.inj hx]; exact hi

theorem noiseOk_default {R : Mat} (hR : IsCovMat R) : NoiseOk R {} := by
  refine ⟨hR, by norm_num, fun x hx => ?_⟩
  obtain ⟨i, hi, hx⟩ := hx
  have h1 := hR.2.2 x
  have h2 : 0 < ∑ i ∈ Finset.range R.rows, x i * x i :=
    Finset.sum_pos' (fun j _ => mul_self_nonneg _) ⟨i, Finset.mem_range.mpr hi, mul_self_pos.mpr hx⟩
  have h3 : (0:ℝ) < ({} : Cfg).eps := by norm_num
  have := mul_pos h3 h2
  linarith

theorem One.priv {i : StdInst} (hi : One i) {H R z : Mat} (hR : IsCovMat R) {r : StdInst × Bool} (h : i.priv H R z = .ok r) : One r.1 := by
  unfold StdInst.priv at h
  obtain ⟨b, hb, h⟩ := bind_eq_ok h
  obtain ⟨x, hx, h⟩ := bind_eq_ok h
  have h1 : One x.1 := by
    unfold StdInst.basePriv at hx
    obtain ⟨b1, hb1, hx⟩ := bind_eq_ok hx
    obtain ⟨_, _, hx⟩ := bind_eq_ok hx
    obtain ⟨_, _, hx⟩ := bind_eq_ok hx
    obtain ⟨res, hres, hx⟩ := bind_eq_ok hx
    split at hx
    · rename_i hrej
      obtain ⟨b', hb', hx⟩ := bind_eq_ok hx
      rw [← Res.ok.inj hx]
      exact One.of (correct_cov (Inst.step_cov (hi.deref hb1) (noiseOk_default hR) hres (by simpa using hrej)) hb') rfl
    · rw [← Res.ok.inj hx]; exact hi
  unfold StdInst.thenCorrect at h
  split at h
  · obtain ⟨_, _, h⟩ := bind_eq_ok h
    obtain ⟨j, hj, h⟩ := bind_eq_ok h
    rw [← Res.ok.inj h]
    exact h1.bel_eq (applyCorrection_bel hj)
  · rw [← Res.ok.inj h]; exact h1

theorem Covs.setSigma (hc : h.Covs) {I J : ℕ} {S : Mat} (hx : StdHdl.setSigma h I J S = .ok h') : h'.Covs := by
  unfold StdHdl.setSigma at hx
  split at hx
  · obtain ⟨i, hi, hx⟩ := bind_eq_ok hx
    simp only at hx
    obtain ⟨j, hj, hx⟩ := bind_eq_ok hx
    rw [← Res.ok.inj hx]
    have h1 : StdHdl.Covs (SMap.set h I (i.setCCF J S)) := hc.set (i := i.setCCF J S) ((hc.get hi).bel_eq (j := i.setCCF J S) rfl) I
    exact h1.set ((h1.get hj).bel_eq (j := j.setCCF I (one S.cols)) rfl) J
  · simp only at hx
    obtain ⟨j, hj, hx⟩ := bind_eq_ok hx
    obtain ⟨i, hi, hx⟩ := bind_eq_ok hx
    rw [← Res.ok.inj hx]
    have h1 : StdHdl.Covs (SMap.set h J (j.setCCF I S.tr)) := hc.set ((hc.get hj).bel_eq (j := j.setCCF I S.tr) rfl) J
    exact h1.set ((h1.get hi).bel_eq (j := i.setCCF J (one S.tr.cols)) rfl) I

theorem Covs.correctBel (hc : h.Covs) {id : ℕ} {dx P : Mat} (hP : IsCovMat P) (hx : StdHdl.correctBel h id dx P = .ok h') : h'.Covs := by
  unfold StdHdl.correctBel at hx
  obtain ⟨i, hi, hx⟩ := bind_eq_ok hx
  obtain ⟨b, hb, hx⟩ := bind_eq_ok hx
  obtain ⟨b', hb', hx⟩ := bind_eq_ok hx
  rw [← Res.ok.inj hx]
  exact hc.set (One.of (correct_cov hP hb') rfl) id

theorem Covs.commit (hc : h.Covs) {I J : ℕ} {SI SJ : Mat} {res : CorrRes} (hx : StdHdl.commit h I J SI SJ res = .ok h') : h'.Covs := by
  unfold StdHdl.commit at hx
  obtain ⟨_, h0, hx⟩ := bind_eq_ok hx
  obtain ⟨sp, hsp, hx⟩ := bind_eq_ok hx
  obtain ⟨i, hi, hx⟩ := bind_eq_ok hx
  obtain ⟨i1, hi1, hx⟩ := bind_eq_ok hx
  obtain ⟨j, hj, hx⟩ := bind_eq_ok hx
  obtain ⟨j1, hj1, hx⟩ := bind_eq_ok hx
  obtain ⟨h3, e3, hx⟩ := bind_eq_ok hx
  obtain ⟨_, _, hx⟩ := bind_eq_ok hx
  obtain ⟨h4, e4, hx⟩ := bind_eq_ok hx
  obtain ⟨_, _, hx⟩ := bind_eq_ok hx
  have hP : IsCovMat res.Sapos := by
    unfold expectPsd expect at h0
    split at h0
    · rename_i hq
      exact isCov_of (n := res.Sapos.rows) ⟨rfl, hq.1.symm⟩ hq.2
    · simp at h0
  have hsp' : IsCovMat sp.1 ∧ IsCovMat sp.2.1 := by
    unfold MatU.splitSigma2 at hsp
    split at hsp
    · simp at hsp
    · split at hsp
      · obtain ⟨II, hII, hsp⟩ := bind_eq_ok hsp
        obtain ⟨JJ, hJJ, hsp⟩ := bind_eq_ok hsp
        obtain ⟨IJ, _, hsp⟩ := bind_eq_ok hsp
        rw [← Res.ok.inj hsp]
        refine ⟨blockC_cov hP hII, ?_⟩
        unfold MatU.brC at hJJ
        split at hJJ
        · rw [← hP.1] at hJJ
          exact blockC_cov hP hJJ
        · simp at hJJ
      · simp at hsp
  have c1 : StdHdl.Covs (SMap.set h I i1) := hc.set ((hc.get hi).bel_eq (applyCorrection_bel hi1)) I
  have c2 : StdHdl.Covs (SMap.set (SMap.set h I i1) J j1) := c1.set ((c1.get hj).bel_eq (applyCorrection_bel hj1)) J
  exact ((c2.setSigma e3).correctBel hsp'.1 e4).correctBel hsp'.2 hx

theorem Covs.onInst (hc : h.Covs) {id : ℕ} {f : StdInst → Res (StdInst × Bool)} (hf : ∀ i r, One i → f i = .ok r → One r.1) {x : StdHdl × Bool}
    (hx : StdHdl.onInst h id f = .ok x) : x.1.Covs := by
  unfold StdHdl.onInst at hx
  obtain ⟨i, hi, hx⟩ := bind_eq_ok hx
  obtain ⟨r, hr, hx⟩ := bind_eq_ok hx
  rw [← Res.ok.inj hx]
  exact hc.set (hf i r (hc.get hi) hr) id

theorem Covs.exec (hc : h.Covs) {c : StdCall} (ho : c.Ok) (hx : StdHdl.exec g1 g2 g3 h c = .ok h') : h'.Covs := by
  cases c with
  | add id b =>
    rw [← Res.ok.inj hx]
    intro x hx
    rcases SMap.mem_emplace_sub hx with hx | hx
    · rw [hx]; exact ho
    · exact hc x hx
  | setBel id b =>
    obtain ⟨i, hi, hx⟩ := bind_eq_ok hx
    rw [← Res.ok.inj hx]
    exact hc.set (One.of ho rfl) id
  | ev e =>
    obtain ⟨r, hr, hx⟩ := bind_eq_ok hx
    rw [← Res.ok.inj hx]
    cases e with
    | prop id Phi Q t => exact hc.onInst (fun i r hi h => hi.prop ho h) hr
    | propU id Phi Q t G u var => exact hc.onInst (fun i r hi h => hi.propU ho.1 ho.2 h) hr
    | priv id H R z => exact hc.onInst (fun i r hi h => hi.priv ho h) hr
    | joint me I J HI HJ R z =>
      change StdHdl.joint g1 g2 g3 h me I J HI HJ R z = .ok r at hr
      unfold StdHdl.joint at hr
      obtain ⟨_, _, hr⟩ := bind_eq_ok hr
      obtain ⟨_, _, hr⟩ := bind_eq_ok hr
      obtain ⟨_, _, hr⟩ := bind_eq_ok hr
      obtain ⟨_, _, hr⟩ := bind_eq_ok hr
      obtain ⟨_, _, hr⟩ := bind_eq_ok hr
      obtain ⟨_, _, hr⟩ := bind_eq_ok hr
      obtain ⟨_, _, hr⟩ := bind_eq_ok hr
      obtain ⟨_, _, hr⟩ := bind_eq_ok hr
      obtain ⟨_, _, hr⟩ := bind_eq_ok hr
      obtain ⟨_, _, hr⟩ := bind_eq_ok hr
      obtain ⟨_, _, hr⟩ := bind_eq_ok hr
      obtain ⟨_, _, hr⟩ := bind_eq_ok hr
      obtain ⟨_, _, hr⟩ := bind_eq_ok hr
      obtain ⟨res, hres, hr⟩ := bind_eq_ok hr
      split at hr
      · obtain ⟨h1, e1, hr⟩ := bind_eq_ok hr
        rw [← Res.ok.inj hr]
        exact hc.commit e1
      · rw [← Res.ok.inj hr]; exact hc

/-- C104 for the filters without buffers: whatever the calls and their order, the estimate of every filter has a covariance
matrix. -/
theorem c104_std (l : List StdCall) (hl : ∀ c ∈ l, c.Ok) (hx : execAll g1 g2 g3 [] l = .ok h') : h'.Covs := by
  have key : ∀ (l : List StdCall) (h : StdHdl), h.Covs → (∀ c ∈ l, c.Ok) → execAll g1 g2 g3 h l = .ok h' → h'.Covs := by
    intro l
    induction l with
    | nil => intro h hc _ hx; rw [← Res.ok.inj hx]; exact hc
    | cons c r ih =>
      intro h hc hl hx
      rw [execAll] at hx
      obtain ⟨h1, e1, hx⟩ := bind_eq_ok hx
      exact ih h1 (hc.exec (hl c List.mem_cons_self) e1) (fun c hc => hl c (List.mem_cons_of_mem _ hc)) hx
  exact key l [] (fun x hx => by simp at hx) hl hx

namespace Example
open Hdl.Example (s b0 cov_s)

/-- Two filters are registered and one observes both: all conditions of `c104_std` hold and the run returns. -/
theorem c104_std_example : ∃ l h1, (∀ c ∈ l, StdCall.Ok c) ∧ l.length = 3 ∧ execAll g0 g0 g0 [] l = .ok h1 ∧ h1.Covs := by
  obtain ⟨h1, e⟩ := joint_accepted
  have hall : ∀ c ∈ [StdCall.add 1 (some b0), .add 2 (some b0), .ev (.joint 1 1 2 (s 1) (s (-1)) (s 1) (s 0))], c.Ok := by
    intro c hc
    simp only [List.mem_cons, List.not_mem_nil, or_false] at hc
    rcases hc with rfl | rfl | rfl
    · intro x hx; rw [← Option.some.inj hx]; exact cov_s (by norm_num)
    · intro x hx; rw [← Option.some.inj hx]; exact cov_s (by norm_num)
    · trivial
  have hrun : execAll g0 g0 g0 [] [StdCall.add 1 (some b0), .add 2 (some b0), .ev (.joint 1 1 2 (s 1) (s (-1)) (s 1) (s 0))] = .ok h1 := by
    have hs : ∀ l, execAll g0 g0 g0 [] (StdCall.add 1 (some b0) :: .add 2 (some b0) :: l) = execAll g0 g0 g0 h0 l := fun l => rfl
    rw [hs]
    simp only [execAll, exec, run, e, Res.bind_ok]
  exact ⟨_, h1, hall, rfl, hrun, c104_std _ hall hrun⟩

end Example
end StdHdl
end Ikf
