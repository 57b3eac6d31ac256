import Verif.Lemmas.Covariance
import Verif.Model.DciHandler

/-!
# Lemmas for C104: teams of agents
-/

namespace Ikf
open Mat
namespace Collab
open Hdl (bind_eq_ok DCovs)

variable {pred : ℕ → Inst → Int → Inst × Bool} {near : Mat → Mat}

theorem dcovs_insertAll {m n : SMap Belief} (hm : DCovs m) (hn : DCovs n) : DCovs (insertAll m n) := by
  unfold insertAll
  induction n generalizing m with
  | nil => exact hm
  | cons e r ih =>
    rw [List.foldl_cons]
    refine ih (fun x hx => ?_) (fun x hx => hn x (List.mem_cons_of_mem _ hx))
    rcases SMap.mem_emplace_sub hx with hx | hx
    · rw [hx]; exact hn e List.mem_cons_self
    · exact hm x hx

theorem getBels_covs (hp : PredCov pred) {t : Int} {ids : List ℕ} {h : Hdl} {acc : SMap Belief} (hc : h.Covs) (ha : DCovs acc) {x : Hdl × Option (SMap Belief)}
    (hx : getBels pred t ids h acc = .ok x) : x.1.Covs ∧ ∀ d, x.2 = some d → DCovs d := by
  induction ids generalizing h acc with
  | nil =>
    rw [← Res.ok.inj hx]
    refine ⟨hc, fun d hd => ?_⟩
    rw [← Option.some.inj hd]; exact ha
  | cons id r ih =>
    rw [getBels] at hx
    split at hx
    · obtain ⟨y, hy, hx⟩ := bind_eq_ok hx
      obtain ⟨g1, g2⟩ := hc.beliefPredict hp hy
      split at hx
      · rename_i b hb
        refine ih g1 (fun e he => ?_) hx
        rcases SMap.mem_emplace_sub he with he | he
        · rw [he]; exact g2 b hb
        · exact ha e he
      · rw [← Res.ok.inj hx]; exact ⟨g1, fun d hd => by simp at hd⟩
    · rw [← Res.ok.inj hx]; exact ⟨hc, fun d hd => by simp at hd⟩

theorem getBF_covs (hp : PredCov pred) {h : Hdl} {ids parts : List ℕ} {t : Int} (hc : h.Covs) {x : Hdl × Option (SMap Belief × SMap (SMap Mat))}
    (hx : getBF pred h ids parts t = .ok x) : x.1.Covs ∧ ∀ d, x.2 = some d → DCovs d.1 := by
  unfold getBF at hx
  obtain ⟨y, hy, hx⟩ := bind_eq_ok hx
  obtain ⟨g1, g2⟩ := getBels_covs hp hc Hdl.dcovs_nil hy
  split at hx
  · rename_i bs hb
    obtain ⟨F, _, hx⟩ := bind_eq_ok hx
    rw [← Res.ok.inj hx]
    refine ⟨g1, fun d hd => ?_⟩
    rw [← Option.some.inj hd]; exact g2 bs hb
  · rw [← Res.ok.inj hx]; exact ⟨g1, fun d hd => by simp at hd⟩

theorem applyCorrSigma_bel {i j : Inst} {t : Int} {A B : Mat} (hj : i.applyCorrectionSigma t A B = .ok j) : j.bel = i.bel := by
  unfold Inst.applyCorrectionSigma at hj
  obtain ⟨_, _, hj⟩ := bind_eq_ok hj
  obtain ⟨_, _, hj⟩ := bind_eq_ok hj
  exact Inst.applyCorrection_bel' hj

theorem applyCorrL_covs {P : Mat} {t : Int} {d : SMap Belief} {row : ℕ} {h h' : Hdl} (hc : h.Covs) (hx : applyCorrL P t d row h = .ok h') : h'.Covs := by
  induction d generalizing row h with
  | nil => rw [← Res.ok.inj hx]; exact hc
  | cons e r ih =>
    rw [applyCorrL] at hx
    obtain ⟨B, _, hx⟩ := bind_eq_ok hx
    split at hx
    · rename_i i hi
      obtain ⟨j, hj, hx⟩ := bind_eq_ok hx
      exact ih (hc.set (Inst.Covs.bel_eq (hc _ (SMap.mem_of_find hi)) (applyCorrSigma_bel hj)) _) hx
    · exact ih hc hx

theorem setRow_bel (t : Int) (row : SMap Mat) (i : Inst) : (setRow t row i).bel = i.bel := by
  unfold setRow
  induction row generalizing i with
  | nil => rfl
  | cons e r ih => rw [List.foldl_cons, ih, Inst.setCCF_bel']

theorem setFCCs_covs {t : Int} {F : SMap (SMap Mat)} {l : List ℕ} {h h' : Hdl} (hc : h.Covs) (hx : setFCCs t F l h = .ok h') : h'.Covs := by
  induction l generalizing h with
  | nil => rw [← Res.ok.inj hx]; exact hc
  | cons I r ih =>
    rw [setFCCs] at hx
    obtain ⟨row, _, hx⟩ := bind_eq_ok hx
    obtain ⟨i, hi, hx⟩ := bind_eq_ok hx
    exact ih (hc.set ((hc.get hi).bel_eq (setRow_bel _ _ _)) _) hx

theorem setFCCsH_covs {t : Int} {F : SMap (SMap Mat)} {d : SMap Belief} {l : List ℕ} {h h' : Hdl} (hc : h.Covs) (hx : setFCCsH t F d l h = .ok h') : h'.Covs := by
  induction l generalizing h with
  | nil => rw [← Res.ok.inj hx]; exact hc
  | cons I r ih =>
    rw [setFCCsH] at hx
    split at hx
    · obtain ⟨row, _, hx⟩ := bind_eq_ok hx
      obtain ⟨i, hi, hx⟩ := bind_eq_ok hx
      exact ih (hc.set ((hc.get hi).bel_eq (setRow_bel _ _ _)) _) hx
    · exact ih hc hx

theorem correctL_covs {P dx : Mat} (hP : IsCovMat P) {t : Int} {d : SMap Belief} {row : ℕ} {x y : Hdl × SMap Belief} (hc : x.1.Covs) (hd : DCovs x.2)
    (hx : correctL P dx t d row x = .ok y) : y.1.Covs ∧ DCovs y.2 := by
  induction d generalizing row x with
  | nil => rw [← Res.ok.inj hx]; exact ⟨hc, hd⟩
  | cons e r ih =>
    rw [correctL] at hx
    split at hx
    · obtain ⟨B, hB, hx⟩ := bind_eq_ok hx
      obtain ⟨v, _, hx⟩ := bind_eq_ok hx
      obtain ⟨b, hb, hx⟩ := bind_eq_ok hx
      have hbc := Hdl.correct_cov (Hdl.blockC_cov hP hB) hb
      split at hx
      · rename_i i hi
        exact ih (x := (x.1.set e.1 (i.setBelief b t), x.2)) (hc.set (Inst.Covs.setBelief (hc _ (SMap.mem_of_find hi)) hbc t) _) hd hx
      · refine ih (x := (x.1, x.2.set e.1 b)) hc (fun f hf => ?_) hx
        rcases SMap.mem_set_sub hf with hf | hf
        · rw [hf]; exact hbc
        · exact hd f hf
    · exact ih hc hd hx

theorem remoteSet_covs {t : Int} {F : SMap (SMap Mat)} {d : SMap Belief} {h h' : Hdl} (hd : DCovs d) (hc : h.Covs) (hx : remoteSet t F d h = .ok h') :
    h'.Covs := by
  induction d generalizing h with
  | nil => rw [← Res.ok.inj hx]; exact hc
  | cons e r ih =>
    rw [remoteSet] at hx
    obtain ⟨i, hi, hx⟩ := bind_eq_ok hx
    have he := hd e List.mem_cons_self
    have hr : DCovs r := fun x hx => hd x (List.mem_cons_of_mem _ hx)
    split at hx
    · obtain ⟨b0, _, hx⟩ := bind_eq_ok hx
      obtain ⟨j, hj, hx⟩ := bind_eq_ok hx
      exact ih hr (hc.set (Inst.Covs.setBelief (((hc.get hi).bel_eq (applyCorrSigma_bel hj)).bel_eq (setRow_bel _ _ _)) he t) _) hx
    · exact ih hr (hc.set ((hc.get hi).setBelief he t) _) hx

theorem interTail_covs (hn : NearCov near) {lk : Link} {l rm : Hdl} {lb rb : SMap Belief} {lF rF : SMap (SMap Mat)} {H R r : Mat} {t : Int} {cfg : Cfg}
    {remote loc : List ℕ} (hl : l.Covs) (hr : rm.Covs) (hb : DCovs rb) {x : Hdl × Hdl × Bool}
    (hx : interTail near lk l rm lb rb lF rF H R r t cfg remote loc = .ok x) : x.1.Covs ∧ x.2.1.Covs := by
  unfold interTail at hx
  simp only at hx
  obtain ⟨S0, _, hx⟩ := bind_eq_ok hx
  obtain ⟨S, _, hx⟩ := bind_eq_ok hx
  obtain ⟨res, hres, hx⟩ := bind_eq_ok hx
  split at hx
  · rename_i hrej
    obtain ⟨a, b⟩ := Hdl.correctionStep_symm hres (by simpa using hrej)
    have hP := (fixPsd_cov hn a b).2
    obtain ⟨l1, e1, hx⟩ := bind_eq_ok hx
    obtain ⟨G, _, hx⟩ := bind_eq_ok hx
    obtain ⟨l2, e2, hx⟩ := bind_eq_ok hx
    obtain ⟨y, e3, hx⟩ := bind_eq_ok hx
    obtain ⟨g1, g2⟩ := correctL_covs hP (setFCCs_covs (applyCorrL_covs hl e1) e2) hb e3
    split at hx
    · obtain ⟨rm', e4, hx⟩ := bind_eq_ok hx
      rw [← Res.ok.inj hx]
      exact ⟨g1, remoteSet_covs g2 hr e4⟩
    · rw [← Res.ok.inj hx]; exact ⟨g1, hr⟩
  · rw [← Res.ok.inj hx]; exact ⟨hl, hr⟩

theorem interTailH_covs (hn : NearCov near) {hf : SMap Belief → List ℕ → Mat → SMap Mat × Mat} {lk : Link} {l rm : Hdl} {lb rb : SMap Belief}
    {lF rF : SMap (SMap Mat)} {R z : Mat} {t : Int} {ids : List ℕ} {cfg : Cfg} {remote loc : List ℕ} (hl : l.Covs) (hr : rm.Covs) (hb : DCovs rb)
    {x : Hdl × Hdl × Status × Mat} (hx : interTailH near hf lk l rm lb rb lF rF R z t ids cfg remote loc = .ok x) : x.1.Covs ∧ x.2.1.Covs := by
  unfold interTailH at hx
  simp only at hx
  obtain ⟨H, _, hx⟩ := bind_eq_ok hx
  obtain ⟨S0, _, hx⟩ := bind_eq_ok hx
  obtain ⟨S, _, hx⟩ := bind_eq_ok hx
  obtain ⟨res, hres, hx⟩ := bind_eq_ok hx
  split at hx
  · rename_i hrej
    obtain ⟨a, b⟩ := Hdl.correctionStep_symm hres (by simpa using hrej)
    have hP := (fixPsd_cov hn a b).2
    obtain ⟨l1, e1, hx⟩ := bind_eq_ok hx
    obtain ⟨G, _, hx⟩ := bind_eq_ok hx
    obtain ⟨l2, e2, hx⟩ := bind_eq_ok hx
    obtain ⟨y, e3, hx⟩ := bind_eq_ok hx
    obtain ⟨g1, g2⟩ := correctL_covs hP (setFCCsH_covs (applyCorrL_covs hl e1) e2) hb e3
    split at hx
    · obtain ⟨rm', e4, hx⟩ := bind_eq_ok hx
      rw [← Res.ok.inj hx]
      exact ⟨g1, remoteSet_covs g2 hr e4⟩
    · rw [← Res.ok.inj hx]; exact ⟨g1, hr⟩
  · rw [← Res.ok.inj hx]; exact ⟨hl, hr⟩

theorem interR_covs (hn : NearCov near) (hp : PredCov pred) {lk : Link} {l rm : Hdl} {dH : SMap Mat} {R r : Mat} {t : Int} {cfg : Cfg} {remote loc : List ℕ}
    (hl : l.Covs) (hr : rm.Covs) {x : Hdl × Hdl × Bool} (hx : interR near pred lk l rm dH R r t cfg remote loc = .ok x) : x.1.Covs ∧ x.2.1.Covs := by
  unfold interR at hx
  simp only at hx
  obtain ⟨H, _, hx⟩ := bind_eq_ok hx
  obtain ⟨xl, exl, hx⟩ := bind_eq_ok hx
  obtain ⟨g1, -⟩ := getBF_covs hp hl exl
  split at hx
  · rw [← Res.ok.inj hx]; exact ⟨g1, hr⟩
  · split at hx
    · rw [← Res.ok.inj hx]; exact ⟨g1, hr⟩
    · split at hx
      · obtain ⟨xr, exr, hx⟩ := bind_eq_ok hx
        obtain ⟨k1, k2⟩ := getBF_covs hp hr exr
        split at hx
        · rw [← Res.ok.inj hx]; exact ⟨g1, k1⟩
        · rename_i hxr
          split at hx
          · rw [← Res.ok.inj hx]; exact ⟨g1, k1⟩
          · exact interTail_covs hn g1 k1 (k2 _ hxr) hx
      · rw [← Res.ok.inj hx]; exact ⟨g1, hr⟩

theorem interH_covs (hn : NearCov near) (hp : PredCov pred) {hf : SMap Belief → List ℕ → Mat → SMap Mat × Mat} {lk : Link} {l rm : Hdl} {R z : Mat} {t : Int}
    {ids : List ℕ} {cfg : Cfg} {remote loc : List ℕ} (hl : l.Covs) (hr : rm.Covs) {x : Hdl × Hdl × Status × Mat}
    (hx : interH near pred hf lk l rm R z t ids cfg remote loc = .ok x) : x.1.Covs ∧ x.2.1.Covs := by
  unfold interH at hx
  simp only at hx
  obtain ⟨xl, exl, hx⟩ := bind_eq_ok hx
  obtain ⟨g1, -⟩ := getBF_covs hp hl exl
  split at hx
  · rw [← Res.ok.inj hx]; exact ⟨g1, hr⟩
  · split at hx
    · rw [← Res.ok.inj hx]; exact ⟨g1, hr⟩
    · split at hx
      · obtain ⟨xr, exr, hx⟩ := bind_eq_ok hx
        obtain ⟨k1, k2⟩ := getBF_covs hp hr exr
        split at hx
        · rw [← Res.ok.inj hx]; exact ⟨g1, k1⟩
        · rename_i hxr
          split at hx
          · rw [← Res.ok.inj hx]; exact ⟨g1, k1⟩
          · exact interTailH_covs hn g1 k1 (k2 _ hxr) hx
      · rw [← Res.ok.inj hx]; exact ⟨g1, hr⟩

/-! ### Covariance intersection -/

theorem correctCov_symm (hn : NearCov near) {S P : Mat} (h : correctCov near S = .ok P) : IsCovMat P := by
  unfold correctCov at h
  obtain ⟨S1, e1, h⟩ := bind_eq_ok h
  obtain ⟨a, b, c⟩ := Hdl.stabilize_res e1
  rw [← Res.ok.inj h]
  exact (fixPsd_cov hn a b).2

theorem tr_smul (c : ℝ) (A : Mat) : (Mat.smul c A).tr = Mat.smul c A.tr := by
  refine Mat.ext' rfl rfl fun i j _ _ => ?_
  rw [tr_e, smul_e, smul_e, tr_e]

theorem smul_mul (c : ℝ) (A B : Mat) : Mat.smul c A * B = Mat.smul c (A * B) := by
  refine Mat.ext' rfl rfl fun i j _ _ => ?_
  rw [mul_e, smul_e, mul_e, Finset.mul_sum]
  refine Finset.sum_congr rfl fun k _ => ?_
  rw [smul_e]; ring

theorem ciCorrection_symm {Hi Hj R r Si Sj : Mat} {w : ℝ} {cfg : Cfg} (hi : Si.tr = Si) {res : CorrRes} (h : ciCorrection Hi Hj R r Si Sj w cfg = .ok res)
    (hr : res.rejected = false) : res.Sapos.Shape res.Sapos.rows res.Sapos.rows ∧ res.Sapos.tr = res.Sapos := by
  unfold ciCorrection at h
  split at h
  · simp only at h
    obtain ⟨a, _, h⟩ := bind_eq_ok h
    obtain ⟨b, _, h⟩ := bind_eq_ok h
    obtain ⟨S0, _, h⟩ := bind_eq_ok h
    obtain ⟨S, hS, h⟩ := bind_eq_ok h
    obtain ⟨rj, _, h⟩ := bind_eq_ok h
    obtain ⟨Sinv, hSinv, h⟩ := bind_eq_ok h
    obtain ⟨c, hc, h⟩ := bind_eq_ok h
    obtain ⟨d, hd, h⟩ := bind_eq_ok h
    obtain ⟨e, he, h⟩ := bind_eq_ok h
    obtain ⟨f, hf, h⟩ := bind_eq_ok h
    obtain ⟨P0, hP0, h⟩ := bind_eq_ok h
    obtain ⟨_, _, h⟩ := bind_eq_ok h
    obtain ⟨_, _, h⟩ := bind_eq_ok h
    obtain ⟨_, _, h⟩ := bind_eq_ok h
    obtain ⟨P, hP, h⟩ := bind_eq_ok h
    rw [← Res.ok.inj h]
    have hSs : Sinv.tr = Sinv := by
      unfold Mat.invC at hSinv
      split at hSinv
      · rw [← Res.ok.inj hSinv]; exact Hdl.inv_tr (Hdl.stabilize_res hS).2.1
      · simp at hSinv
    have hs0 : P0.tr = P0 := by
      rw [(Hdl.subC_eq hP0).1, Hdl.tr_sub, tr_smul, hi, (Hdl.mulC_eq hf).1, (Hdl.mulC_eq he).1, (Hdl.mulC_eq hd).1, (Hdl.mulC_eq hc).1]
      congr 1
      simp only [smul_mul, tr_smul, tr_mul, tr_tr, hi, hSs, Mat.mul_assoc]
    have : P.tr = P := by
      split at hP
      · exact (Hdl.stabilize_res hP).2.1
      · rw [← Res.ok.inj hP]; exact hs0
    exact ⟨⟨rfl, congrArg Mat.rows this⟩, this⟩
  · rw [← Res.ok.inj h] at hr
    simp [CorrRes.dflt] at hr

theorem dciTail_covs (hn : NearCov near) {hf : SMap Belief → List ℕ → Mat → SMap Mat × Mat} {l : Hdl} {lb rb : SMap Belief} {lF rF : SMap (SMap Mat)}
    {R z : Mat} {t : Int} {ids : List ℕ} {cfg : Cfg} {remote loc : List ℕ} (hl : l.Covs) {x : Hdl × Status × Mat}
    (hx : dciTail near hf l lb rb lF rF R z t ids cfg remote loc = .ok x) : x.1.Covs := by
  unfold dciTail at hx
  simp only at hx
  obtain ⟨Hi, _, hx⟩ := bind_eq_ok hx
  obtain ⟨Hj, _, hx⟩ := bind_eq_ok hx
  obtain ⟨Si0, _, hx⟩ := bind_eq_ok hx
  obtain ⟨Sj0, _, hx⟩ := bind_eq_ok hx
  obtain ⟨Si, hSi, hx⟩ := bind_eq_ok hx
  obtain ⟨Sj, hSj, hx⟩ := bind_eq_ok hx
  obtain ⟨res, hres, hx⟩ := bind_eq_ok hx
  split at hx
  · rename_i hrej
    obtain ⟨a, b⟩ := ciCorrection_symm (correctCov_symm hn hSi).tr_eq hres (by simpa using hrej)
    obtain ⟨h1, e1, hx⟩ := bind_eq_ok hx
    rw [← Res.ok.inj hx]
    exact hl.commit (fixPsd_cov hn a b).2 e1
  · rw [← Res.ok.inj hx]; exact hl

theorem interDci_covs (hn : NearCov near) (hp : PredCov pred) {hf : SMap Belief → List ℕ → Mat → SMap Mat × Mat} {lk : Link} {l rm : Hdl} {R z : Mat} {t : Int}
    {ids : List ℕ} {cfg : Cfg} {remote loc : List ℕ} (hl : l.Covs) (hr : rm.Covs) {x : Hdl × Hdl × Status × Mat}
    (hx : interDci near pred hf lk l rm R z t ids cfg remote loc = .ok x) : x.1.Covs ∧ x.2.1.Covs := by
  unfold interDci at hx
  obtain ⟨xl, exl, hx⟩ := bind_eq_ok hx
  obtain ⟨g1, -⟩ := getBF_covs hp hl exl
  split at hx
  · rw [← Res.ok.inj hx]; exact ⟨g1, hr⟩
  · split at hx
    · rw [← Res.ok.inj hx]; exact ⟨g1, hr⟩
    · split at hx
      · obtain ⟨xr, exr, hx⟩ := bind_eq_ok hx
        obtain ⟨k1, k2⟩ := getBF_covs hp hr exr
        split at hx
        · rw [← Res.ok.inj hx]; exact ⟨g1, k1⟩
        · rename_i hxr
          split at hx
          · rw [← Res.ok.inj hx]; exact ⟨g1, k1⟩
          · obtain ⟨y, hy, hx⟩ := bind_eq_ok hx
            rw [← Res.ok.inj hx]
            exact ⟨dciTail_covs hn g1 hy, k1⟩
      · rw [← Res.ok.inj hx]; exact ⟨g1, hr⟩

/-! ### All agents -/
namespace Net
variable {T : Agents.Tables} {a : ℕ} {n n' : Net}

/-- All beliefs of all agents have a covariance matrix. -/
def Covs (n : Net) : Prop := ∀ a, (n a).Covs

theorem Covs.update (hc : Covs n) {h : Hdl} (hh : h.Covs) (a : ℕ) : Covs (Function.update n a h) := by
  intro b
  by_cases hb : b = a
  · subst hb; rw [Function.update_self]; exact hh
  · rw [Function.update_of_ne hb]; exact hc b

theorem Covs.get (hc : Covs n) {p : ℕ} {i : Inst} (hg : Net.get T a n p = .ok i) : i.Covs := (hc _).get hg

theorem Covs.put (hc : Covs n) {i : Inst} (hi : i.Covs) (p : ℕ) : Covs (Net.put T a n p i) := hc.update ((hc _).set hi p) _

theorem Covs.setSigma (hc : Covs n) {I J : ℕ} {S : Mat} {t : Int} (hs : Net.setSigma T a n I J S t = .ok n') : Covs n' := by
  unfold Net.setSigma at hs
  split at hs
  · obtain ⟨i, hi, hs⟩ := bind_eq_ok hs
    obtain ⟨j, hj, hs⟩ := bind_eq_ok hs
    have h1 : Covs (Net.put T a n I (i.setCCF t J S)) := hc.put ((hc.get hi).bel_eq (Inst.setCCF_bel' t J S)) I
    rw [← Res.ok.inj hs]
    exact h1.put ((h1.get hj).bel_eq (Inst.setCCF_bel' _ _ _)) J
  · obtain ⟨j, hj, hs⟩ := bind_eq_ok hs
    obtain ⟨i, hi, hs⟩ := bind_eq_ok hs
    have h1 : Covs (Net.put T a n J (j.setCCF t I S.tr)) := hc.put ((hc.get hj).bel_eq (Inst.setCCF_bel' t I S.tr)) J
    rw [← Res.ok.inj hs]
    exact h1.put ((h1.get hi).bel_eq (Inst.setCCF_bel' _ _ _)) I

theorem Covs.getDictBel (hp : PredCov pred) {l : List ℕ} {t : Int} {acc : SMap Belief} (hc : Covs n) (ha : DCovs acc) {x : Net × SMap Belief}
    (hx : Net.getDictBel T a pred n l t acc = .ok x) : Covs x.1 ∧ DCovs x.2 := by
  induction l generalizing n acc with
  | nil => rw [← Res.ok.inj hx]; exact ⟨hc, ha⟩
  | cons id r ih =>
    rw [Net.getDictBel] at hx
    obtain ⟨i, hi, hx⟩ := bind_eq_ok hx
    have hi' := hc.get hi
    simp only at hx
    split at hx <;> rename_i hx'
    · split at hx
      · rw [← Res.ok.inj hx]; exact ⟨hc, Hdl.dcovs_nil⟩
      · rw [← Res.ok.inj hx]; exact ⟨hc.put (hp id i t hi') id, Hdl.dcovs_nil⟩
    · rename_i b
      split at hx
      · rename_i he
        rw [if_pos he] at hx'
        refine ih hc (fun e hm => ?_) hx
        rcases SMap.mem_emplace_sub hm with hm | hm
        · rw [hm]; exact hi'.beliefAt hx'
        · exact ha e hm
      · rename_i he
        rw [if_neg he] at hx'
        refine ih (hc.put (hp id i t hi') id) (fun e hm => ?_) hx
        rcases SMap.mem_emplace_sub hm with hm | hm
        · rw [hm]
          simp only at hx'
          split at hx'
          · exact (hp id i t hi').beliefAt hx'
          · simp at hx'
        · exact ha e hm

theorem Covs.applyCorr {P : Mat} {t : Int} {d : SMap Belief} {row : ℕ} (hc : Covs n) (hx : Net.applyCorr T a P t d row n = .ok n') : Covs n' := by
  induction d generalizing row n with
  | nil => rw [← Res.ok.inj hx]; exact hc
  | cons e r ih =>
    rw [Net.applyCorr] at hx
    obtain ⟨B, _, hx⟩ := bind_eq_ok hx
    obtain ⟨i, hi, hx⟩ := bind_eq_ok hx
    obtain ⟨j, hj, hx⟩ := bind_eq_ok hx
    exact ih (hc.put ((hc.get hi).bel_eq (applyCorrSigma_bel hj)) _) hx

theorem Covs.splitRow {P : Mat} {t : Int} {I di row : ℕ} {l : List (ℕ × ℕ)} {col : ℕ} (hc : Covs n) (hs : Net.splitRow T a P t I di row l col n = .ok n') :
    Covs n' := by
  induction l generalizing col n with
  | nil => rw [← Res.ok.inj hs]; exact hc
  | cons e r ih =>
    rw [Net.splitRow] at hs
    obtain ⟨B, _, hs⟩ := bind_eq_ok hs
    obtain ⟨h1, h1s, hs⟩ := bind_eq_ok hs
    exact ih (hc.setSigma h1s) hs

theorem Covs.splitRows {P : Mat} {t : Int} {l : List (ℕ × ℕ)} {row off : ℕ} (hc : Covs n) (hs : Net.splitRows T a P t l row off n = .ok n') : Covs n' := by
  induction l generalizing row off n with
  | nil => rw [← Res.ok.inj hs]; exact hc
  | cons e r ih =>
    rw [Net.splitRows] at hs
    obtain ⟨h1, h1s, hs⟩ := bind_eq_ok hs
    exact ih (hc.splitRow h1s) hs

theorem Covs.correctBeliefs {P dx : Mat} (hP : IsCovMat P) {t : Int} {d : SMap Belief} {row : ℕ} (hc : Covs n)
    (hs : Net.correctBeliefs T a P dx t d row n = .ok n') : Covs n' := by
  induction d generalizing row n with
  | nil => rw [← Res.ok.inj hs]; exact hc
  | cons e r ih =>
    rw [Net.correctBeliefs] at hs
    split at hs
    · obtain ⟨B, hB, hs⟩ := bind_eq_ok hs
      obtain ⟨x, _, hs⟩ := bind_eq_ok hs
      obtain ⟨b, hb, hs⟩ := bind_eq_ok hs
      obtain ⟨i, hi, hs⟩ := bind_eq_ok hs
      exact ih (hc.put ((hc.get hi).setBelief (Hdl.correct_cov (Hdl.blockC_cov hP hB) hb) t) _) hs
    · exact ih hc hs

theorem Covs.correctJoint (hn : NearCov near) (hc : Covs n) {d : SMap Belief} {H R r S : Mat} {t : Int} {cfg : Cfg} {x : Net × Bool}
    (hx : Net.correctJoint T a near n d H R r S t cfg = .ok x) : Covs x.1 := by
  unfold Net.correctJoint at hx
  obtain ⟨res, hres, hx⟩ := bind_eq_ok hx
  split at hx
  · rename_i hrej
    obtain ⟨p, q⟩ := Hdl.correctionStep_symm hres (by simpa using hrej)
    simp only at hx
    obtain ⟨n1, e1, hx⟩ := bind_eq_ok hx
    obtain ⟨n2, e2, hx⟩ := bind_eq_ok hx
    obtain ⟨n3, e3, hx⟩ := bind_eq_ok hx
    rw [← Res.ok.inj hx]
    unfold Net.splitRightUpper at e2
    simp only at e2
    split at e2
    · simp at e2
    · exact ((hc.applyCorr e1).splitRows e2).correctBeliefs (fixPsd_cov hn p q).2 e3
  · rw [← Res.ok.inj hx]; exact hc

theorem Covs.generalR (hn : NearCov near) (hp : PredCov pred) (hc : Covs n) {dH : SMap Mat} {R r : Mat} {t : Int} {cfg : Cfg} {x : Net × Bool}
    (hx : Net.generalR T a near pred n dH R r t cfg = .ok x) : Covs x.1 := by
  unfold Net.generalR at hx
  obtain ⟨_, _, hx⟩ := bind_eq_ok hx
  obtain ⟨y, hy, hx⟩ := bind_eq_ok hx
  have g := hc.getDictBel hp Hdl.dcovs_nil hy
  split at hx
  · rw [← Res.ok.inj hx]; exact g.1
  · obtain ⟨_, _, hx⟩ := bind_eq_ok hx
    obtain ⟨_, _, hx⟩ := bind_eq_ok hx
    exact g.1.correctJoint hn hx

theorem Covs.generalZ (hn : NearCov near) (hp : PredCov pred) (hc : Covs n) {dH : SMap Mat} {R z : Mat} {t : Int} {cfg : Cfg} {x : Net × Bool}
    (hx : Net.generalZ T a near pred n dH z R t cfg = .ok x) : Covs x.1 := by
  unfold Net.generalZ at hx
  obtain ⟨_, _, hx⟩ := bind_eq_ok hx
  obtain ⟨y, hy, hx⟩ := bind_eq_ok hx
  have g := hc.getDictBel hp Hdl.dcovs_nil hy
  split at hx
  · rw [← Res.ok.inj hx]; exact g.1
  · obtain ⟨_, _, hx⟩ := bind_eq_ok hx
    obtain ⟨_, _, hx⟩ := bind_eq_ok hx
    obtain ⟨_, _, hx⟩ := bind_eq_ok hx
    obtain ⟨_, _, hx⟩ := bind_eq_ok hx
    obtain ⟨_, _, hx⟩ := bind_eq_ok hx
    exact g.1.correctJoint hn hx

theorem Covs.applyObsR (hn : NearCov near) (hp : PredCov pred) (hc : Covs n) {lk : Link} {dH : SMap Mat} {R r : Mat} {t : Int} {cfg : Cfg} {x : Net × Bool}
    (hx : Net.applyObsR T a near pred lk n dH R r t cfg = .ok x) : Covs x.1 := by
  unfold Net.applyObsR Agents.applyObsDict at hx
  simp only at hx
  split at hx
  · obtain ⟨y, hy, hx⟩ := bind_eq_ok hx
    rw [← Res.ok.inj hx]
    exact hc.update ((hc a).applyObsR hn hp hy) a
  · split at hx
    · obtain ⟨y, hy, hx⟩ := bind_eq_ok hx
      obtain ⟨g1, g2⟩ := interR_covs hn hp (hc a) (hc _) hy
      rw [← Res.ok.inj hx]
      exact (hc.update g1 a).update g2 _
    · exact hc.generalR hn hp hx

theorem Covs.applyObsZ (hn : NearCov near) (hp : PredCov pred) (hc : Covs n) {dH : SMap Mat} {R z : Mat} {t : Int} {cfg : Cfg} {x : Net × Bool}
    (hx : Net.applyObsZ T a near pred n dH z R t cfg = .ok x) : Covs x.1 := by
  unfold Net.applyObsZ at hx
  split at hx
  · obtain ⟨y, hy, hx⟩ := bind_eq_ok hx
    rw [← Res.ok.inj hx]
    exact hc.update ((hc a).applyObsZ hn hp hy) a
  · exact hc.generalZ hn hp hx

theorem Covs.applyObsH (hn : NearCov near) (hp : PredCov pred) {pj : Belief → Mat → Mat} {hf : SMap Belief → List ℕ → Mat → SMap Mat × Mat} (hc : Covs n)
    {lk : Link} {R z : Mat} (hR : R.tr = R) {t : Int} {ids : List ℕ} {cfg : Cfg} {x : (Net × Mat) × Status}
    (hx : Net.applyObsH T a near pj pred hf lk n R z t ids cfg = .ok x) : Covs x.1.1 := by
  unfold Net.applyObsH Agents.applyObsH at hx
  simp only at hx
  split at hx
  · obtain ⟨y, hy, hx⟩ := bind_eq_ok hx
    rw [← Res.ok.inj hx]
    exact hc.update ((hc a).applyObsI hn hp hR hy) a
  · split at hx
    · obtain ⟨y, hy, hx⟩ := bind_eq_ok hx
      obtain ⟨g1, g2⟩ := interH_covs hn hp (hc a) (hc _) hy
      rw [← Res.ok.inj hx]
      exact (hc.update g1 a).update g2 _
    · rw [← Res.ok.inj hx]; exact hc

theorem Covs.applyObsDci (hn : NearCov near) (hp : PredCov pred) {pj : Belief → Mat → Mat} {hf : SMap Belief → List ℕ → Mat → SMap Mat × Mat} (hc : Covs n)
    {lk : Link} {R z : Mat} (hR : R.tr = R) {t : Int} {ids : List ℕ} {cfg : Cfg} {x : (Net × Mat) × Status}
    (hx : Net.applyObsDci T a near pj pred hf lk n R z t ids cfg = .ok x) : Covs x.1.1 := by
  unfold Net.applyObsDci Agents.applyObsH at hx
  simp only at hx
  split at hx
  · obtain ⟨y, hy, hx⟩ := bind_eq_ok hx
    rw [← Res.ok.inj hx]
    exact hc.update ((hc a).applyObsI hn hp hR hy) a
  · split at hx
    · obtain ⟨y, hy, hx⟩ := bind_eq_ok hx
      obtain ⟨g1, g2⟩ := interDci_covs hn hp (hc a) (hc _) hy
      rw [← Res.ok.inj hx]
      exact (hc.update g1 a).update g2 _
    · rw [← Res.ok.inj hx]; exact hc

end Net
end Collab
end Ikf
