import Verif.Spec.Std
import Verif.Lemmas.Central
import Verif.Props.MatUtils
import Verif.Props.Progress
import Verif.Props.CrossCov

/-! # The filters without buffers simulate the centralised filter -/

namespace Ikf
open Mat

/-- What can be read from a set of filters: registered, belief, factor. -/
structure StdView where
  has : ℕ → Prop
  bl : ℕ → Option Belief
  fc : ℕ → ℕ → Option Mat

namespace StdView

/-- One filter moves. -/
def transform (v : StdView) (id : ℕ) (F : Mat) (b : Belief) : StdView where
  has := v.has
  bl p := if p = id then some b else v.bl p
  fc p q := if p = id then (v.fc p q).map (F * ·) else v.fc p q

/-- The factors of a pair are stored. -/
def setFac (v : StdView) (a b : ℕ) (A B : Mat) : StdView where
  has := v.has
  bl := v.bl
  fc p q := if p = a ∧ q = b then some A else if p = b ∧ q = a then some B else v.fc p q

/-- The filters hold the state `c` in factored form. -/
structure Rel (dim : ℕ → ℕ) (v : StdView) (c : Central) : Prop where
  bel : ∀ p, v.has p → ∃ b, v.bl p = some b ∧ b.mean = c.mu p ∧ b.Sigma = c.cov p p ∧ b.stamp = c.tm p
  pos : ∀ p, v.has p → 0 < dim p
  muS : ∀ p, v.has p → (c.mu p).Shape (dim p) 1
  covS : ∀ p q, v.has p → v.has q → (c.cov p q).Shape (dim p) (dim q)
  symm : ∀ p q, v.has p → v.has q → c.cov q p = (c.cov p q).tr
  rows : ∀ p, v.has p → ∀ q M, v.fc p q = some M → M.rows = dim p
  pair : ∀ p q, v.has p → v.has q → p ≠ q →
    (∃ F G, v.fc p q = some F ∧ v.fc q p = some G ∧ 0 < F.cols ∧ G.cols = F.cols ∧ c.cov p q = F * G.tr) ∨
    (v.fc p q = none ∧ v.fc q p = none ∧ c.cov p q = Mat.zero (dim p) (dim q))

variable {dim : ℕ → ℕ} {v : StdView} {c : Central}

theorem Rel.transform (hr : Rel dim v c) {id : ℕ} {F : Mat} {b : Belief}
    (hF : F.Shape (dim id) (dim id)) (hm : b.mean.Shape (dim id) 1) (hS : b.Sigma.Shape (dim id) (dim id))
    (hsym : b.Sigma.tr = b.Sigma) (fx : Bool) :
    Rel dim (v.transform id F b) (c.transform id F b.mean b.Sigma b.stamp fx) := by
  constructor
  · intro p hp
    simp only [StdView.transform, Central.transform]
    by_cases hpi : p = id
    · simp only [if_pos hpi]; exact ⟨b, rfl, rfl, by simp [hpi], rfl⟩
    · simp only [if_neg hpi]
      obtain ⟨x, h1, h2, h3, h4⟩ := hr.bel p hp
      exact ⟨x, h1, h2, by simpa [hpi] using h3, h4⟩
  · exact fun p hp => hr.pos p hp
  · intro p hp
    simp only [Central.transform]
    split
    · rename_i hpi; rw [hpi]; exact hm
    · exact hr.muS p hp
  · intro p q hp hq
    have hc := hr.covS p q hp hq
    simp only [Central.transform]
    by_cases hpi : p = id
    · by_cases hqi : q = id
      · rw [if_pos ⟨hpi, hqi⟩, hpi, hqi]; exact hS
      · rw [if_neg (fun hh => hqi hh.2), if_pos hpi]
        rw [hpi] at hc ⊢
        exact hF.mul hc
    · rw [if_neg (fun hh => hpi hh.1), if_neg hpi]
      split
      · rename_i hqi
        rw [hqi] at hc ⊢
        exact hc.mul hF.tr
      · exact hc
  · intro p q hp hq
    have hc := hr.symm p q hp hq
    simp only [Central.transform]
    by_cases hpi : p = id
    · by_cases hqi : q = id
      · rw [if_pos ⟨hqi, hpi⟩, if_pos ⟨hpi, hqi⟩, hsym]
      · rw [if_neg (fun hh => hqi hh.1), if_neg hqi, if_pos hpi, if_neg (fun hh => hqi hh.2), if_pos hpi, tr_mul, hc]
    · by_cases hqi : q = id
      · rw [if_neg (fun hh => hpi hh.2), if_pos hqi, if_neg (fun hh => hpi hh.1), if_neg hpi, if_pos hqi, tr_mul, tr_tr, hc]
      · rw [if_neg (fun hh => hqi hh.1), if_neg hqi, if_neg hpi, if_neg (fun hh => hpi hh.1), if_neg hpi, if_neg hqi, hc]
  · intro p hp q M hM
    simp only [StdView.transform] at hM
    split at hM
    · rename_i hpi
      obtain ⟨M0, h0, rfl⟩ := Option.map_eq_some_iff.mp hM
      rw [mul_rows, hF.1, hpi]
    · exact hr.rows p hp q M hM
  · intro p q hp hq hpq
    have hp' : v.has p := hp
    have hq' : v.has q := hq
    simp only [StdView.transform]
    by_cases hpi : p = id
    · have hqi : q ≠ id := fun hh => hpq (hpi.trans hh.symm)
      rw [if_pos hpi, if_neg hqi]
      have hcov : (c.transform id F b.mean b.Sigma b.stamp fx).cov p q = F * c.cov p q := by
        simp only [Central.transform]; rw [if_neg (fun hh => hqi hh.2), if_pos hpi]
      rw [hcov]
      rcases hr.pair p q hp' hq' hpq with ⟨A, B, h1, h2, h3, h4, h5⟩ | ⟨h1, h2, h3⟩
      · left; rw [h1, h2]
        exact ⟨F * A, B, rfl, rfl, h3, h4, by rw [h5, Mat.mul_assoc]⟩
      · right; rw [h1, h2]
        refine ⟨rfl, rfl, ?_⟩
        rw [h3, hpi]; exact Hdl.mul_zero_mat hF
    · rw [if_neg hpi]
      by_cases hqi : q = id
      · rw [if_pos hqi]
        have hcov : (c.transform id F b.mean b.Sigma b.stamp fx).cov p q = c.cov p q * F.tr := by
          simp only [Central.transform]; rw [if_neg (fun hh => hpi hh.1), if_neg hpi, if_pos hqi]
        rw [hcov]
        rcases hr.pair p q hp' hq' hpq with ⟨A, B, h1, h2, h3, h4, h5⟩ | ⟨h1, h2, h3⟩
        · left; rw [h1, h2]
          exact ⟨A, F * B, rfl, rfl, h3, h4, by rw [h5, Mat.mul_assoc, tr_mul]⟩
        · right; rw [h1, h2]
          refine ⟨rfl, rfl, ?_⟩
          rw [h3, hqi]; exact Hdl.zero_mul_mat hF.tr
      · rw [if_neg hqi]
        have hcov : (c.transform id F b.mean b.Sigma b.stamp fx).cov p q = c.cov p q := by
          simp only [Central.transform]; rw [if_neg (fun hh => hpi hh.1), if_neg hpi, if_neg hqi]
        rw [hcov]
        exact hr.pair p q hp' hq' hpq

theorem Rel.setFac (hr : Rel dim v c) {a b : ℕ} (hab : a ≠ b) {A B : Mat}
    (rA : A.rows = dim a) (rB : B.rows = dim b) (pA : 0 < A.cols) (cB : B.cols = A.cols) :
    Rel dim (v.setFac a b A B) (c.setCov a b (A * B.tr)) := by
  have hS : (A * B.tr).Shape (dim a) (dim b) := ⟨rA, rB⟩
  constructor
  · intro p hp
    obtain ⟨x, h1, h2, h3, h4⟩ := hr.bel p hp
    refine ⟨x, h1, h2, ?_, h4⟩
    rw [h3]
    simp only [Central.setCov]
    rw [if_neg (by rintro ⟨h1, h2⟩; exact hab (h1.symm.trans h2)), if_neg (by rintro ⟨h1, h2⟩; exact hab (h2.symm.trans h1))]
  · exact fun p hp => hr.pos p hp
  · exact fun p hp => hr.muS p hp
  · intro p q hp hq
    simp only [Central.setCov]
    split
    · rename_i hc; rw [hc.1, hc.2]; exact hS
    · split
      · rename_i hc; rw [hc.1, hc.2]; exact hS.tr
      · exact hr.covS p q hp hq
  · intro p q hp hq
    simp only [Central.setCov]
    by_cases h1 : p = a ∧ q = b
    · rw [if_pos h1, if_neg (by rintro ⟨x, y⟩; exact hab (h1.1.symm.trans y)), if_pos ⟨h1.2, h1.1⟩]
    · by_cases h2 : p = b ∧ q = a
      · rw [if_pos ⟨h2.2, h2.1⟩, if_neg h1, if_pos h2, tr_tr]
      · rw [if_neg (fun hh => h2 ⟨hh.2, hh.1⟩), if_neg (fun hh => h1 ⟨hh.2, hh.1⟩), if_neg h1, if_neg h2]
        exact hr.symm p q hp hq
  · intro p hp q M hM
    simp only [StdView.setFac] at hM
    by_cases h1 : p = a ∧ q = b
    · rw [if_pos h1] at hM; rw [← Option.some.inj hM, rA, h1.1]
    · rw [if_neg h1] at hM
      by_cases h2 : p = b ∧ q = a
      · rw [if_pos h2] at hM; rw [← Option.some.inj hM, rB, h2.1]
      · rw [if_neg h2] at hM
        exact hr.rows p hp q M hM
  · intro p q hp hq hpq
    simp only [StdView.setFac]
    by_cases h1 : p = a ∧ q = b
    · left
      obtain ⟨rfl, rfl⟩ := h1
      exact ⟨A, B, by simp, by simp [hpq, Ne.symm hpq], pA, cB, by simp [Central.setCov]⟩
    · by_cases h2 : p = b ∧ q = a
      · left
        obtain ⟨rfl, rfl⟩ := h2
        refine ⟨B, A, by simp [hpq], by simp, by omega, cB.symm, ?_⟩
        simp [Central.setCov, hpq, tr_mul]
      · rw [if_neg h1, if_neg h2, if_neg (fun hh => h2 ⟨hh.2, hh.1⟩), if_neg (fun hh => h1 ⟨hh.2, hh.1⟩)]
        have : (c.setCov a b (A * B.tr)).cov p q = c.cov p q := by
          simp only [Central.setCov]; rw [if_neg h1, if_neg h2]
        rw [this]
        exact hr.pair p q hp hq hpq

end StdView

namespace StdHdl

/-- What can be read from the filters. -/
def view (h : StdHdl) : StdView where
  has p := (h.find p).isSome
  bl p := (h.find p).bind (·.bel)
  fc p q := (h.find p).bind (fun i => i.ccf.find q)

theorem get_ok {h : StdHdl} {p : ℕ} {i : StdInst} (hi : h.find p = some i) : get h p = .ok i := by
  unfold get; rw [hi]

/-- Replacing a filter by one with multiplied factors. -/
theorem view_transform {h : StdHdl} {id : ℕ} {i j : StdInst} (hi : h.find id = some i) {F : Mat} {b : Belief}
    (hb : j.bel = some b) (hf : ∀ q, j.ccf.find q = (i.ccf.find q).map (F * ·)) :
    view (h.set id j) = (view h).transform id F b := by
  unfold view StdView.transform
  simp only [SMap.find_set]
  congr 1
  · funext p
    by_cases hp : id = p
    · subst hp; simp [hi]
    · rw [if_neg hp]
  · funext p
    by_cases hp : p = id
    · subst hp; simp [hb]
    · rw [if_neg (Ne.symm hp), if_neg hp]
  · funext p q
    by_cases hp : p = id
    · subst hp; simp [hi, hf]
    · rw [if_neg (Ne.symm hp), if_neg hp]

theorem mulFactors_find {i j : StdInst} {F : Mat} (h : i.mulFactors F = .ok j) :
    j.bel = i.bel ∧ ∀ q, j.ccf.find q = (i.ccf.find q).map (F * ·) := by
  unfold StdInst.mulFactors at h
  obtain ⟨m, hm, h⟩ := Hdl.bind_eq_ok h
  have := Res.ok.inj h
  subst this
  refine ⟨rfl, fun q => ?_⟩
  obtain ⟨-, h1, h2, -⟩ := SMap.mapR_spec _ _ _ hm
  cases hq : i.ccf.find q with
  | none => exact h1 q hq
  | some M =>
    obtain ⟨w, hw, hf⟩ := h2 q M hq
    rw [show SMap.find m q = some w from hf]
    unfold mulC at hw
    split at hw
    · rw [← Res.ok.inj hw]; rfl
    · simp at hw

theorem mulFactors_ok {i : StdInst} {F : Mat} (h : ∀ e ∈ i.ccf, e.2.rows = F.cols) :
    i.mulFactors F = .ok { i with ccf := i.ccf.mapV (F * ·) } := by
  unfold StdInst.mulFactors
  rw [SMap.mapR_ok _ (F * ·) i.ccf (fun e he => mulC_ok (h e he).symm), Res.bind_ok]


end StdHdl

namespace StdInst

theorem deref_ok {i : StdInst} {b : Belief} (h : i.bel = some b) : i.deref = .ok b := by unfold deref; rw [h]

section
variable {i : StdInst} {b : Belief} {n : ℕ} {Phi Q : Mat} {t : Int}

theorem checkDimQ_shape (hS : b.Sigma.Shape n n) : checkDimQ b.Sigma Phi Q = true ↔ Phi.Shape n n ∧ Q.Shape n n := by
  rw [checkDimQ_iff, hS.1]
  exact ⟨fun ⟨a, b, c, d⟩ => ⟨⟨a, b⟩, ⟨c, d⟩⟩, fun ⟨⟨a, b⟩, ⟨c, d⟩⟩ => ⟨a, b, c, d⟩⟩

theorem covProp_eq {S : Mat} (hS : S.Shape n n) (hP : Phi.Shape n n) (hQ : Q.Shape n n) :
    covPropagation S Phi Q false = .ok (Phi * S * Phi.tr + Q) := by
  have hc : checkDimQ S Phi Q = true := by
    rw [checkDimQ_iff]; exact ⟨by rw [hP.1, hS.1], by rw [hP.2, hS.1], by rw [hQ.1, hS.1], by rw [hQ.2, hS.1]⟩
  unfold covPropagation
  rw [if_pos hc, if_neg (by simp), hP.mulC hS, Res.bind_ok, (hP.mul hS).mulC hP.tr, Res.bind_ok,
      ((hP.mul hS).mul hP.tr).addC hQ]

theorem baseProp_yes (hb : i.bel = some b) (hm : b.mean.Shape n 1) (hS : b.Sigma.Shape n n) (hP : Phi.Shape n n) (hQ : Q.Shape n n)
    (ht : b.stamp < t) : i.baseProp Phi Q t =
      .ok ({ i with bel := some { b with mean := Phi * b.mean, Sigma := Phi * b.Sigma * Phi.tr + Q, stamp := t } }, true) := by
  unfold baseProp
  rw [deref_ok hb, Res.bind_ok, if_pos ⟨(checkDimQ_shape hS).mpr ⟨hP, hQ⟩, ht⟩, covProp_eq hS hP hQ, Res.bind_ok, hP.mulC hm, Res.bind_ok]

theorem baseProp_no (hb : i.bel = some b) (hS : b.Sigma.Shape n n) (h : ¬ (Phi.Shape n n ∧ Q.Shape n n ∧ b.stamp < t)) :
    i.baseProp Phi Q t = .ok (i, false) := by
  unfold baseProp
  rw [deref_ok hb, Res.bind_ok, if_neg]
  rintro ⟨h1, h2⟩
  have := (checkDimQ_shape hS).mp h1
  exact h ⟨this.1, this.2, h2⟩

theorem prop_yes (hb : i.bel = some b) (hm : b.mean.Shape n 1) (hS : b.Sigma.Shape n n) (hc : ∀ e ∈ i.ccf, e.2.rows = n)
    (hP : Phi.Shape n n) (hQ : Q.Shape n n) (ht : b.stamp < t) : i.prop Phi Q t =
      .ok (⟨some { b with mean := Phi * b.mean, Sigma := Phi * b.Sigma * Phi.tr + Q, stamp := t }, i.ccf.mapV (Phi * ·)⟩, true) := by
  unfold prop
  rw [baseProp_yes hb hm hS hP hQ ht, Res.bind_ok]
  unfold thenFactors
  rw [if_pos rfl, StdHdl.mulFactors_ok (by intro e he; rw [hc e he, hP.2]), Res.bind_ok]

theorem prop_no (hb : i.bel = some b) (hS : b.Sigma.Shape n n) (h : ¬ (Phi.Shape n n ∧ Q.Shape n n ∧ b.stamp < t)) :
    i.prop Phi Q t = .ok (i, false) := by
  unfold prop
  rw [baseProp_no hb hS h, Res.bind_ok]
  rfl

theorem thenFactors_inv {r : StdInst × Bool} {j : StdInst} {a : Bool} (h : thenFactors Phi r = .ok (j, a)) :
    a = r.2 ∧ (a = false → j = r.1) ∧ (a = true → r.1.mulFactors Phi = .ok j) := by
  unfold thenFactors at h
  split at h
  · rename_i hr
    obtain ⟨k, hk, h⟩ := Hdl.bind_eq_ok h
    obtain ⟨rfl, rfl⟩ := Prod.mk.inj (Res.ok.inj h)
    exact ⟨hr.symm, by simp, fun _ => hk⟩
  · rename_i hr
    have := Res.ok.inj h
    subst this
    exact ⟨rfl, fun _ => rfl, fun ha => absurd ha hr⟩

theorem mulC_inv {A B C : Mat} (h : A *! B = .ok C) : A.cols = B.rows ∧ C = A * B := by
  unfold mulC at h
  split at h
  · rename_i hh; exact ⟨hh, (Res.ok.inj h).symm⟩
  · simp at h

theorem addC_inv {A B C : Mat} (h : A +! B = .ok C) : A.rows = B.rows ∧ A.cols = B.cols ∧ C = A + B := by
  unfold addC at h
  split at h
  · rename_i hh; exact ⟨hh.1, hh.2, (Res.ok.inj h).symm⟩
  · simp at h

theorem subC_inv {A B C : Mat} (h : A -! B = .ok C) : A.rows = B.rows ∧ A.cols = B.cols ∧ C = A - B := by
  unfold subC at h
  split at h
  · rename_i hh; exact ⟨hh.1, hh.2, (Res.ok.inj h).symm⟩
  · simp at h

/-- Every outcome of the propagation with input. -/
theorem basePropU_inv {j : StdInst} {a : Bool} {G u var : Mat} (hb : i.bel = some b) (hm : b.mean.Shape n 1) (hS : b.Sigma.Shape n n)
    (h : i.basePropU Phi Q t G u var = .ok (j, a)) :
    (a = false ∧ j = i ∧ ¬ (Phi.Shape n n ∧ Q.Shape n n ∧ b.stamp < t)) ∨
    (a = true ∧ Phi.Shape n n ∧ Q.Shape n n ∧ b.stamp < t ∧ G.rows = n ∧ G.cols = u.rows ∧ u.cols = 1 ∧ var.Shape G.cols G.cols ∧
      j = { i with bel := some { b with mean := Phi * b.mean + G * u, Sigma := Phi * b.Sigma * Phi.tr + (G * var * G.tr + Q), stamp := t } }) := by
  unfold basePropU at h
  rw [deref_ok hb, Res.bind_ok] at h
  split at h
  · rename_i hc
    obtain ⟨hP, hQ⟩ := (checkDimQ_shape hS).mp hc.1
    obtain ⟨pm, h1, h⟩ := Hdl.bind_eq_ok h
    obtain ⟨gu, h2, h⟩ := Hdl.bind_eq_ok h
    obtain ⟨m, h3, h⟩ := Hdl.bind_eq_ok h
    obtain ⟨gv, h4, h⟩ := Hdl.bind_eq_ok h
    obtain ⟨gvg, h5, h⟩ := Hdl.bind_eq_ok h
    obtain ⟨Qd, h6, h⟩ := Hdl.bind_eq_ok h
    obtain ⟨S, h7, h⟩ := Hdl.bind_eq_ok h
    obtain ⟨e1, rfl⟩ := mulC_inv h1
    obtain ⟨e2, rfl⟩ := mulC_inv h2
    obtain ⟨e3, e3', rfl⟩ := addC_inv h3
    obtain ⟨e4, rfl⟩ := mulC_inv h4
    obtain ⟨e5, rfl⟩ := mulC_inv h5
    obtain ⟨e6, e6', rfl⟩ := addC_inv h6
    simp only [mul_rows, mul_cols, tr_rows] at e3 e3' e5 e6
    have hG : G.rows = n := by rw [← e3]; exact hP.1
    rw [covProp_eq hS hP (show (G * var * G.tr + Q).Shape n n from ⟨hG, hG⟩)] at h7
    obtain rfl := Res.ok.inj h7
    obtain ⟨rfl, rfl⟩ := Prod.mk.inj (Res.ok.inj h)
    exact Or.inr ⟨rfl, hP, hQ, hc.2, hG, e2, by rw [← e3']; exact hm.2, ⟨e4.symm, e5⟩, rfl⟩
  · rename_i hc
    obtain ⟨rfl, rfl⟩ := Prod.mk.inj (Res.ok.inj h)
    refine Or.inl ⟨rfl, rfl, ?_⟩
    rintro ⟨h1, h2, h3⟩
    exact hc ⟨(checkDimQ_shape hS).mpr ⟨h1, h2⟩, h3⟩

theorem correct_eq {dx P : Mat} (hm : b.mean.Shape n 1) (hx : dx.Shape n 1) : b.correct dx P = .ok { b with mean := b.mean + dx, Sigma := P } := by
  unfold Belief.correct
  rw [hm.addC hx, Res.bind_ok]

theorem correct_inv {dx P : Mat} {b' : Belief} (h : b.correct dx P = .ok b') : b' = { b with mean := b.mean + dx, Sigma := P } := by
  unfold Belief.correct at h
  obtain ⟨m, h1, h⟩ := Hdl.bind_eq_ok h
  obtain ⟨-, -, rfl⟩ := addC_inv h1
  exact (Res.ok.inj h).symm

theorem applyCorrection_inv {j : StdInst} {S P : Mat} (h : i.applyCorrection S P = .ok j) : i.mulFactors (P * S.inv) = .ok j := by
  unfold applyCorrection at h
  obtain ⟨m, h1, k1⟩ := Hdl.bind_eq_ok h
  obtain ⟨L, h2, k2⟩ := Hdl.bind_eq_ok k1
  unfold invC at h1
  split at h1
  · obtain rfl := Res.ok.inj h1
    rw [(mulC_inv h2).2] at k2
    exact k2
  · simp at h1

theorem applyCorrection_ok {S P : Mat} (hS : S.Shape n n) (hP : P.Shape n n) (hc : ∀ e ∈ i.ccf, e.2.rows = n) :
    i.applyCorrection S P = .ok { i with ccf := i.ccf.mapV (P * S.inv * ·) } := by
  unfold applyCorrection
  rw [hS.invC, Res.bind_ok, hP.mulC hS.inv, Res.bind_ok, StdHdl.mulFactors_ok]
  intro e he; rw [hc e he]; exact hS.1.symm

/-- Every outcome of the private update. -/
theorem basePriv_inv {j : StdInst} {a : Bool} {H R z : Mat} (hb : i.bel = some b) (h : i.basePriv H R z = .ok (j, a)) :
    ∃ res, correctionStep H R (z - H * b.mean) b.Sigma {} = .ok res ∧ a = !res.rejected ∧
      (a = false → j = i) ∧ (a = true → j = { i with bel := some { b with mean := b.mean + res.dx, Sigma := res.Sapos } }) := by
  unfold basePriv at h
  rw [deref_ok hb, Res.bind_ok] at h
  obtain ⟨hm, h1, k1⟩ := Hdl.bind_eq_ok h
  obtain ⟨r, h2, k2⟩ := Hdl.bind_eq_ok k1
  obtain ⟨res, h3, k⟩ := Hdl.bind_eq_ok k2
  obtain ⟨-, rfl⟩ := mulC_inv h1
  obtain ⟨-, -, rfl⟩ := subC_inv h2
  refine ⟨res, h3, ?_⟩
  clear k1 k2 h
  split at k
  · rename_i hr
    obtain ⟨b', h4, k⟩ := Hdl.bind_eq_ok k
    obtain ⟨rfl, rfl⟩ := Prod.mk.inj (Res.ok.inj k)
    exact ⟨hr.symm, by simp, fun _ => by rw [correct_inv h4]⟩
  · rename_i hr
    obtain ⟨rfl, rfl⟩ := Prod.mk.inj (Res.ok.inj k)
    exact ⟨by simpa using hr, fun _ => rfl, by simp⟩

theorem priv_inv {j : StdInst} {a : Bool} {H R z : Mat} (hb : i.bel = some b) (h : i.priv H R z = .ok (j, a)) :
    ∃ res, correctionStep H R (z - H * b.mean) b.Sigma {} = .ok res ∧ a = !res.rejected ∧
      (a = false → j = i) ∧ (a = true → StdInst.mulFactors { i with bel := some { b with mean := b.mean + res.dx, Sigma := res.Sapos } }
        (res.Sapos * b.Sigma.inv) = .ok j) := by
  unfold priv at h
  rw [deref_ok hb, Res.bind_ok] at h
  obtain ⟨r, h1, h⟩ := Hdl.bind_eq_ok h
  obtain ⟨k, a'⟩ := r
  obtain ⟨res, g1, g2, g3, g4⟩ := basePriv_inv hb h1
  refine ⟨res, g1, ?_⟩
  unfold thenCorrect at h
  split at h
  · rename_i hr
    simp only at hr
    subst hr
    have hk := g4 rfl
    subst hk
    rw [deref_ok rfl, Res.bind_ok] at h
    obtain ⟨j1, h4, h⟩ := Hdl.bind_eq_ok h
    obtain ⟨rfl, rfl⟩ := Prod.mk.inj (Res.ok.inj h)
    exact ⟨g2, by simp, fun _ => applyCorrection_inv h4⟩
  · rename_i hr
    simp only [Bool.not_eq_true] at hr
    subst hr
    obtain ⟨rfl, rfl⟩ := Prod.mk.inj (Res.ok.inj h)
    exact ⟨g2, fun _ => g3 rfl, by simp⟩

end
end StdInst
end Ikf
