import Verif.Lemmas.HonestTeam
import Verif.Props.EndToEnd
import Verif.Props.Progress
import Verif.Props.Schmidt
import Verif.Props.TeamExamples

/-! # Property C116: the covariances isolated filters report, taken together, cover their errors -/

namespace Ikf
namespace Honest
open MeasureTheory Mat Hdl

section
variable {Ω : Type} [MeasurableSpace Ω] {P : Measure Ω} {dim grp : ℕ → ℕ} {ids : Finset ℕ} {fp : FP} {near : Mat → Mat}
  {pred : ℕ → Inst → Int → Inst × Bool}

/-! ## One step of the centralised filters -/

theorem app_mul {m : Mat} {n : ℕ} (hm : m.Shape n 1) (F : Mat) (i : ℕ) : (F * m).e i 0 = app F n (fun k => m.e k 0) i :=
  mul_e' F m n (Or.inr (by rw [hm.1])) i 0

theorem bil_pull {K R : Mat} {n m : ℕ} (hK : K.Shape n m) (hR : R.Shape m m) (x : ℕ → ℝ) :
    bil (K * R * K.tr) n n x x = bil R m m (pull K n x) (pull K n x) := by
  have e : ∀ i j, (K * R * K.tr).e i j = ∑ b ∈ Finset.range m, (∑ a ∈ Finset.range m, K.e i a * R.e a b) * K.e j b := by
    intro i j
    rw [mul_e' (K * R) K.tr m (Or.inl (by rw [(hK.mul hR).2]))]
    refine Finset.sum_congr rfl fun b _ => ?_
    rw [mul_e' K R m (Or.inl (by rw [hK.2])), tr_e]
  unfold bil pull
  simp only [e, Finset.mul_sum, Finset.sum_mul]
  calc _ = ∑ i ∈ Finset.range n, ∑ j ∈ Finset.range n, ∑ a ∈ Finset.range m, ∑ b ∈ Finset.range m, x i * (K.e i a * R.e a b * K.e j b) * x j :=
        Finset.sum_congr rfl fun i _ => Finset.sum_congr rfl fun j _ => Finset.sum_comm
    _ = ∑ i ∈ Finset.range n, ∑ a ∈ Finset.range m, ∑ j ∈ Finset.range n, ∑ b ∈ Finset.range m, x i * (K.e i a * R.e a b * K.e j b) * x j :=
        Finset.sum_congr rfl fun i _ => Finset.sum_comm
    _ = ∑ a ∈ Finset.range m, ∑ i ∈ Finset.range n, ∑ j ∈ Finset.range n, ∑ b ∈ Finset.range m, x i * (K.e i a * R.e a b * K.e j b) * x j := Finset.sum_comm
    _ = ∑ a ∈ Finset.range m, ∑ i ∈ Finset.range n, ∑ b ∈ Finset.range m, ∑ j ∈ Finset.range n, x i * (K.e i a * R.e a b * K.e j b) * x j :=
        Finset.sum_congr rfl fun a _ => Finset.sum_congr rfl fun i _ => Finset.sum_comm
    _ = ∑ a ∈ Finset.range m, ∑ b ∈ Finset.range m, ∑ i ∈ Finset.range n, ∑ j ∈ Finset.range n, x i * (K.e i a * R.e a b * K.e j b) * x j :=
        Finset.sum_congr rfl fun a _ => Finset.sum_comm
    _ = _ := by
      refine Finset.sum_congr rfl fun a _ => Finset.sum_congr rfl fun b _ => ?_
      rw [Finset.sum_comm]
      exact Finset.sum_congr rfl fun j _ => Finset.sum_congr rfl fun i _ => by ring

/-- The new covariance is at least that of `(1 - K H) e - K v`. -/
theorem grow {H R r S : Mat} {n m : ℕ} {cfg : Cfg} {res : CorrRes} (hO : ObsShape H R r S n m) (hS : IsCovMat S) (hR : NoiseOk R cfg)
    (h : correctionStep H R r S cfg = .ok res) (x : ℕ → ℝ) :
    bil ((one n - gainM H R S cfg.eps * H) * S * (one n - gainM H R S cfg.eps * H).tr) n n x x +
      bil R m m (pull (gainM H R S cfg.eps) n x) (pull (gainM H R S cfg.eps) n x) ≤ bil res.Sapos n n x x := by
  obtain ⟨-, pS⟩ := hS.psd hO.S.1
  obtain ⟨pR, he, pRe⟩ := hR.pd hO.R.1
  obtain ⟨-, -, -, -, -, a6, a7, -, -, -, -, -⟩ := c18_kalman_update H R r S cfg hO pS pR he pRe res h
  have hU : (one n - gainM H R S cfg.eps * H).toM n n = 1 - Alg.gain (S.toM n n) (H.toM m n) (R.toM m m + cfg.eps • 1) * H.toM m n := by
    rw [← Hdl.updM_eq hO.S, toM_updM hO pS pR]
  have hKM := toM_gainM hO pS pR cfg.eps
  have hUs : (one n - gainM H R S cfg.eps * H).Shape n n := ⟨rfl, rfl⟩
  have hKs := gainM_shape hO cfg.eps
  have hA : ((one n - gainM H R S cfg.eps * H) * S * (one n - gainM H R S cfg.eps * H).tr).Shape n n := ⟨rfl, rfl⟩
  have hB : (gainM H R S cfg.eps * R * (gainM H R S cfg.eps).tr).Shape n n := (hKs.mul hO.R).mul hKs.tr
  rw [← bil_pull hKs hO.R, ← bil_add hA]
  apply bil_le_of_psd
  rw [hA.toM_add hB, (hUs.mul hO.S).toM_mul, hUs.toM_mul, toM_tr, (hKs.mul hO.R).toM_mul, hKs.toM_mul, toM_tr, hU, hKM, a6]
  set K := Alg.gain (S.toM n n) (H.toM m n) (R.toM m m + cfg.eps • 1)
  have hK : S.toM n n * (H.toM m n).transpose * (H.toM m n * S.toM n n * (H.toM m n).transpose + (R.toM m m + cfg.eps • 1))⁻¹ = K := rfl
  rw [hK] at a7 ⊢
  have h2 : (cfg.eps • (K * K.transpose)).PosSemidef := by
    have := Alg.psd_congr (Matrix.PosSemidef.one (n := Fin m) (R := ℝ)) K
    rw [Matrix.mul_one] at this
    exact this.smul he
  have h3 : (if cfg.stab then cfg.eps • (1 : Matrix (Fin n) (Fin n) ℝ) else 0).PosSemidef := by
    split
    · exact Alg.smul_one_psd he
    · exact Matrix.PosSemidef.zero
  split
  · rw [add_sub_cancel_left]; exact h3
  · nth_rewrite 1 [a7]
    rw [add_assoc, add_sub_cancel_left]; exact h2.add h3

/-- `x - (m + K (H x + v - H m)) = (1 - K H) (x - m) - K v`, in components. -/
theorem corr_err {K H r m : Mat} {n k : ℕ} (hK : K.Shape n k) (hH : H.Shape k n) (hr : r.Shape k 1) {x v : ℕ → ℝ}
    (hz : ∀ j < k, r.e j 0 = app H n x j + v j - app H n (fun i => m.e i 0) j) {i : ℕ} (hi : i < n) :
    x i - (m.e i 0 + (K * r).e i 0) = ∑ a ∈ Finset.range n, (one n - K * H).e i a * (x a - m.e a 0) + ∑ b ∈ Finset.range k, -K.e i b * v b := by
  have h1 : ∀ a ∈ Finset.range n, (one n - K * H).e i a = (if i = a then 1 else 0) - ∑ b ∈ Finset.range k, K.e i b * H.e b a := by
    intro a ha
    rw [sub_e _ _ (by rw [(hK.mul hH).1]; rfl) (by rw [(hK.mul hH).2]; rfl), mul_e' K H k (Or.inl (by rw [hK.2]))]
    congr 1
    show (Mat.of n n _).e i a = _
    rw [of_e, if_pos ⟨hi, Finset.mem_range.mp ha⟩]
  rw [Finset.sum_congr rfl fun a ha => by rw [h1 a ha, _root_.sub_mul, ite_mul, _root_.one_mul, MulZeroClass.zero_mul], Finset.sum_sub_distrib, Finset.sum_ite_eq,
    if_pos (Finset.mem_range.mpr hi), mul_e' K r k (Or.inl (by rw [hK.2])),
    Finset.sum_congr rfl fun b hb => by rw [hz b (Finset.mem_range.mp hb)]]
  have h2 : ∑ a ∈ Finset.range n, (∑ b ∈ Finset.range k, K.e i b * H.e b a) * (x a - m.e a 0) =
      ∑ b ∈ Finset.range k, K.e i b * (app H n x b - app H n (fun i => m.e i 0) b) := by
    simp only [app, ← Finset.sum_sub_distrib, Finset.mul_sum, Finset.sum_mul]
    rw [Finset.sum_comm]
    exact Finset.sum_congr rfl fun b _ => Finset.sum_congr rfl fun a _ => by ring
  rw [h2]
  have h3 : ∑ b ∈ Finset.range k, K.e i b * (app H n x b + v b - app H n (fun i => m.e i 0) b) =
      ∑ b ∈ Finset.range k, K.e i b * (app H n x b - app H n (fun i => m.e i 0) b) + ∑ b ∈ Finset.range k, K.e i b * v b := by
    rw [← Finset.sum_add_distrib]
    exact Finset.sum_congr rfl fun b _ => by ring
  rw [h3, Finset.sum_congr rfl fun b _ => neg_mul (K.e i b) (v b), Finset.sum_neg_distrib]
  ring

/-- The errors of the estimates. -/
def errs (x : ℕ → RVec Ω) (m : Ω → ℕ → Mat) (p : ℕ) (ω : Ω) (i : ℕ) : ℝ := x p ω i - (m ω p).e i 0

/-- What is kept along a run: centralised filters with the same covariances whatever chance is. -/
structure Kept (P : Measure Ω) (dim grp : ℕ → ℕ) (ids : Finset ℕ) (o : Ω) (h : Ω → Hdl) (c : Ω → Central) (x : ℕ → RVec Ω) (l : List (ℕ × RVec Ω)) : Prop where
  rel : ∀ ω, Rel dim (h ω) (c ω)
  reg : ∀ ω, ∀ p ∈ ids, ((h ω).find p).isSome
  same : ∀ ω, ∀ p ∈ ids, ∀ q ∈ ids, (c ω).cov p q = (c o).cov p q
  team : ∀ ω, TeamInv dim grp ids (c ω)
  inv : HInv P dim grp ids (c o).cov (errs x fun ω => (c ω).mu) l

theorem isCov_stab {S : Mat} {n : ℕ} (hS : S.Shape n n) (hs : ∀ i j, S.e i j = S.e j i) (hp : ∀ s : ℕ → ℝ, 0 ≤ bil S n n s s) {d : ℝ} (hd : 0 ≤ d) :
    IsCovMat (stabM S d) := by
  have h0 : IsCovMat S := ⟨by rw [hS.1, hS.2], hs, fun x => by rw [hS.1]; exact hp x⟩
  obtain ⟨-, pS⟩ := h0.psd hS.1
  have e := toM_stabM_symm hS d (by ext i j; exact hs _ _)
  refine isCov_of (hS.stabM d) ?_
  rw [e]
  exact pS.add (Alg.smul_one_psd hd)

theorem Kept.move {o : Ω} {h h' : Ω → Hdl} {c c' : Ω → Central} {x : ℕ → RVec Ω} {id : ℕ} {F Q : Mat} {ta tb : Int} {w : RVec Ω} {l : List (ℕ × RVec Ω)}
    (hk : Kept P dim grp ids o h c x ((NStp.move id F Q ta tb w).noise dim :: l)) (hv : (NStp.move id F Q ta tb w).Valid P dim grp ids)
    (hl : ∀ μ ∈ l, (∀ k < μ.1, (fun ω => μ.2 ω k) ∈ sq2 P) ∧ Uncorr P ((NStp.move id F Q ta tb w).noise dim) μ)
    (hr' : ∀ ω, Rel dim (h' ω) (c' ω)) (hreg' : ∀ ω, ∀ p ∈ ids, ((h' ω).find p).isSome) (ht : ∀ ω, TeamInv dim grp ids (c' ω))
    (hs : ∀ ω, SpecStep dim near (c ω) ((NStp.move id F Q ta tb w).call dim x ω) (c' ω)) :
    Kept P dim grp ids o h' c' ((NStp.move id F Q ta tb w).truth dim x) l := by
  obtain ⟨hid, hQ, hw⟩ := hv
  have hc : ∀ ω, c' ω = (c ω).transform id F (F * (c ω).mu id) (F * (c ω).cov id id * F.tr + Q) tb ((c ω).fix id) := by
    intro ω
    have := hs ω
    simp only [NStp.call] at this
    generalize c' ω = d at this
    cases this
    rfl
  have hsh : ∀ p ∈ ids, ∀ q ∈ ids, ((c o).cov p q).Shape (dim p) (dim q) := fun p hp q hq => (hk.rel o).covS p q (hk.reg o p hp) (hk.reg o q hq)
  refine ⟨hr', hreg', fun ω p hp q hq => ?_, ht, ?_⟩
  · rw [hc ω, hc o]
    simp only [Central.transform]
    rw [hk.same ω p hp q hq, hk.same ω id hid id hid]
  · have hco : (c' o).cov = ((c o).transform id F (F * (c o).mu id) (F * (c o).cov id id * F.tr + Q) tb ((c o).fix id)).cov := by rw [hc o]
    rw [hco]
    refine hk.inv.transform hsh (fun k hk => hw.1 k hk) hl hid (B := fun i k => if i = k then 1 else 0) (fun ω i hi => ?_) (fun p hp hne ω i hi => ?_) fun y => ?_
    · have hm := (hk.rel ω).muS id (hk.reg ω id hid)
      simp only [errs, NStp.truth, if_true, hc ω, Central.transform, NStp.noise, ite_mul, _root_.one_mul, MulZeroClass.zero_mul]
      rw [app_mul hm, Finset.sum_ite_eq, if_pos (Finset.mem_range.mpr hi)]
      simp only [app, mul_sub, Finset.sum_sub_distrib]
      ring
    · simp only [errs, NStp.truth, if_neg hne, hc ω, Central.transform]
    · have h1 := (hr' o).covS id id (hreg' o id hid) (hreg' o id hid)
      rw [hc o] at h1
      simp only [Central.transform] at h1
      rw [if_pos ⟨trivial, trivial⟩] at h1
      rw [bil_add (A := F * (c o).cov id id * F.tr) ⟨h1.1, h1.2⟩]
      refine add_le_add le_rfl (le_trans (le_of_eq ?_) (hw.2 y))
      refine integral_congr_ae (Filter.Eventually.of_forall fun ω => ?_)
      simp only [NStp.noise]
      congr 1
      refine Finset.sum_congr rfl fun k hk => ?_
      simp only [mul_ite, _root_.mul_one, MulZeroClass.mul_zero]
      rw [Finset.sum_ite_eq', if_pos hk]

theorem Kept.priv {o : Ω} {h h' : Ω → Hdl} {c c' : Ω → Central} {x : ℕ → RVec Ω} {id : ℕ} {H R : Mat} {t : Int} {cfg : Cfg} {v : RVec Ω} {l : List (ℕ × RVec Ω)}
    (hk : Kept P dim grp ids o h c x ((NStp.priv id H R t cfg v).noise dim :: l)) (hv : (NStp.priv id H R t cfg v).Valid P dim grp ids)
    (hl : ∀ μ ∈ l, (∀ k < μ.1, (fun ω => μ.2 ω k) ∈ sq2 P) ∧ Uncorr P ((NStp.priv id H R t cfg v).noise dim) μ)
    (hr' : ∀ ω, Rel dim (h' ω) (c' ω)) (hreg' : ∀ ω, ∀ p ∈ ids, ((h' ω).find p).isSome) (ht : ∀ ω, TeamInv dim grp ids (c' ω))
    (hs : ∀ ω, SpecStep dim near (c ω) ((NStp.priv id H R t cfg v).call dim x ω) (c' ω)) :
    Kept P dim grp ids o h' c' ((NStp.priv id H R t cfg v).truth dim x) l := by
  obtain ⟨hid, hR, hw⟩ := hv
  have hsh : ∀ ω, ∀ p ∈ ids, ∀ q ∈ ids, ((c ω).cov p q).Shape (dim p) (dim q) := fun ω p hp q hq => (hk.rel ω).covS p q (hk.reg ω p hp) (hk.reg ω q hq)
  have hS := hk.same
  set S := (c o).cov id id with hSd
  let r : Ω → Mat := fun ω => Mat.of R.rows 1 (fun i _ => app H (dim id) (x id ω) i + v ω i) - H * (c ω).mu id
  have hc : ∀ ω, ObsShape H R (r ω) S (dim id) H.rows ∧ (∃ res, correctionStep H R (r ω) S cfg = .ok res ∧ res.Sapos = postM H R S cfg) ∧
      c' ω = (c ω).transform id (one (dim id) - gainM H R S cfg.eps * H) ((c ω).mu id + gainM H R S cfg.eps * r ω) (postM H R S cfg) t ((c ω).fix id) := by
    intro ω
    have h1 := hs ω
    simp only [NStp.call] at h1
    generalize c' ω = d at h1
    cases h1 with
    | privKF _ _ _ _ _ _ res hcs hrj =>
      obtain ⟨hO, hres⟩ := Inst.correctionStep_accept (hsh ω id hid id hid) cfg res hcs hrj
      rw [hk.same ω id hid id hid] at hO hres hcs ⊢
      exact ⟨hO, ⟨res, hcs, by rw [hres]⟩, by rw [hres]⟩
  obtain ⟨hO, ⟨res, hres, hSa⟩, -⟩ := hc o
  have hRr : R.rows = H.rows := hO.R.1
  have own : IsCovMat S := (hk.team o).cov.own hid (hsh o id hid id hid) ((hk.rel o).symm id id (hk.reg o id hid) (hk.reg o id hid))
  refine ⟨hr', hreg', fun ω p hp q hq => ?_, ht, ?_⟩
  · rw [(hc ω).2.2, (hc o).2.2]
    simp only [Central.transform]
    rw [hk.same ω p hp q hq]
  · have hco : (c' o).cov = ((c o).transform id (one (dim id) - gainM H R S cfg.eps * H) ((c o).mu id + gainM H R S cfg.eps * r o) (postM H R S cfg) t ((c o).fix id)).cov := by
      rw [(hc o).2.2]
    rw [hco]
    refine hk.inv.transform (hsh o) (fun k hk => hw.1 k hk) hl hid (B := fun i k => -(gainM H R S cfg.eps).e i k) (fun ω i hi => ?_) (fun p hp hne ω i hi => ?_) fun y => ?_
    · have hm := (hk.rel ω).muS id (hk.reg ω id hid)
      have hKs := gainM_shape (hc ω).1 cfg.eps
      have hrs := (hc ω).1.r
      simp only [errs, NStp.truth, (hc ω).2.2, Central.transform, if_true, NStp.noise]
      rw [add_e _ _ (by rw [(hKs.mul hrs).1, hm.1]) (by rw [(hKs.mul hrs).2, hm.2]), hRr]
      refine corr_err hKs (hc ω).1.H hrs (fun j hj => ?_) hi
      have hz : (H * (c ω).mu id).Shape H.rows 1 := ⟨rfl, hm.2⟩
      simp only [r]
      rw [sub_e _ _ (by rw [hz.1]; exact hRr.symm) (by rw [hz.2]; rfl), of_e, if_pos ⟨by rw [hRr]; exact hj, Nat.one_pos⟩, app_mul hm]
    · simp only [errs, NStp.truth, if_neg hne, (hc ω).2.2, Central.transform]
    · have h1 := grow hO own hR hres y
      rw [hSa] at h1
      refine le_trans (add_le_add le_rfl ?_) h1
      refine le_trans (le_of_eq ?_) ((hw.2 fun k => -pull (gainM H R S cfg.eps) (dim id) y k).trans (le_of_eq ?_))
      · refine integral_congr_ae (Filter.Eventually.of_forall fun ω => ?_)
        simp only [NStp.noise, pull, mul_neg, Finset.sum_neg_distrib]
      · rw [hRr]
        unfold bil
        exact Finset.sum_congr rfl fun i _ => Finset.sum_congr rfl fun j _ => by ring

theorem sideBySide_app {dH : SMap Mat} (hd : dH.Sorted) (hcols : ∀ e ∈ dH, e.2.cols = dim e.1) {H : Mat} (hH : SideBySide dH H) (x : ℕ → ℕ → ℝ) (i : ℕ) :
    app H (tot (dH.map fun e => (e.1, dim e.1))) (stackV (dH.map fun e => (e.1, dim e.1)) x) i = (dH.map fun e => app e.2 (dim e.1) (x e.1) i).sum := by
  have e1 : (dH.map fun e => (e.1, e.2.cols)) = dH.map fun e => (e.1, dim e.1) := List.map_congr_left fun e he => by rw [hcols e he]
  have hn : ((dH.map fun e => (e.1, dim e.1)).map (·.1)).Nodup := by
    rw [List.map_map]
    exact Hdl.Sorted.nodup hd
  unfold app
  rw [sum_stack _ hn x fun k v => H.e i k * v, List.map_map]
  congr 1
  refine List.map_congr_left fun e he => ?_
  simp only [Function.comp]
  refine Finset.sum_congr rfl fun j hj => ?_
  rw [← (hH.2 e he).2 i j (by rw [hcols e he]; exact Finset.mem_range.mp hj), e1]

theorem stackV_off {bs : List (ℕ × ℕ)} (hn : (bs.map (·.1)).Nodup) {b : ℕ × ℕ} (hb : b ∈ bs) {i : ℕ} (hi : i < b.2) (x : ℕ → ℕ → ℝ) :
    stackV bs x (off bs b.1 + i) = x b.1 i := by
  induction bs with
  | nil => simp at hb
  | cons d r ih =>
    rw [List.map_cons, List.nodup_cons] at hn
    rcases List.mem_cons.mp hb with rfl | hb'
    · rw [off, if_pos rfl, Nat.zero_add, stackV, if_pos hi]
    · have hne : d.1 ≠ b.1 := fun e => hn.1 (by rw [e]; exact List.mem_map.mpr ⟨b, hb', rfl⟩)
      rw [off, if_neg hne, stackV, if_neg (by omega)]
      rw [show d.2 + off r b.1 + i - d.2 = off r b.1 + i by omega]
      exact ih hn.2 hb'

theorem stackV_sub (bs : List (ℕ × ℕ)) (x y : ℕ → ℕ → ℝ) (k : ℕ) : stackV bs (fun p i => x p i - y p i) k = stackV bs x k - stackV bs y k := by
  induction bs generalizing k with
  | nil => simp [stackV]
  | cons b r ih =>
    simp only [stackV]
    split
    · rfl
    · exact ih _

theorem Kept.joint {o : Ω} {h h' : Ω → Hdl} {c c' : Ω → Central} {x : ℕ → RVec Ω} {dH : SMap Mat} {R : Mat} {t : Int} {cfg : Cfg} {v : RVec Ω} {l : List (ℕ × RVec Ω)}
    (hk : Kept P dim grp ids o h c x ((NStp.joint dH R t cfg v).noise dim :: l)) (hv : (NStp.joint dH R t cfg v).Valid P dim grp ids) (hd : dH.Sorted)
    (hl : ∀ μ ∈ l, (∀ k < μ.1, (fun ω => μ.2 ω k) ∈ sq2 P) ∧ Uncorr P ((NStp.joint dH R t cfg v).noise dim) μ)
    (hr' : ∀ ω, Rel dim (h' ω) (c' ω)) (hreg' : ∀ ω, ∀ p ∈ ids, ((h' ω).find p).isSome) (ht : ∀ ω, TeamInv dim grp ids (c' ω))
    (hs : ∀ ω, SpecStep dim near (c ω) ((NStp.joint dH R t cfg v).call dim x ω) (c' ω)) :
    Kept P dim grp ids o h' c' ((NStp.joint dH R t cfg v).truth dim x) l := by
  obtain ⟨hne, hcols, ⟨g, hg⟩, hR, hw⟩ := hv
  have hsh : ∀ ω, ∀ p ∈ ids, ∀ q ∈ ids, ((c ω).cov p q).Shape (dim p) (dim q) := fun ω p hp q hq => (hk.rel ω).covS p q (hk.reg ω p hp) (hk.reg ω q hq)
  set bs := dH.map fun e => (e.1, dim e.1) with hbs
  have hb : ∀ b ∈ bs, b.2 = dim b.1 := by
    intro b hb
    obtain ⟨e, -, rfl⟩ := List.mem_map.mp hb
    rfl
  have hkeys : bs.map (·.1) = dH.keys := by
    rw [hbs, List.map_map]
    rfl
  have hn : (bs.map (·.1)).Nodup := by
    rw [hkeys]
    exact Hdl.Sorted.nodup hd
  have hin : ∀ p ∈ bs.map (·.1), p ∈ ids := fun p hp => ((hg p).mp (by rw [← hkeys]; exact hp)).1
  have hpart : ∀ ω, participants dim (c ω) dH = bs := by
    intro ω
    unfold participants
    rw [List.filter_eq_self.mpr fun p hp => by rw [(hk.team ω).free p ((hg p).mp hp).1]; rfl, hbs]
    unfold SMap.keys
    rw [List.map_map]
    rfl
  obtain ⟨H0, S0, hH0, hS0⟩ : ∃ H S, SideBySide dH H ∧ StackedCov bs (c o).cov S := by
    have h1 := hs o
    simp only [NStp.call] at h1
    generalize c' o = d at h1
    cases h1 with
    | jointZ _ _ _ _ _ H S m res hH hS hm hcs hrj => exact ⟨H, S, hH, by rw [← hpart o]; exact hS⟩
  set S1 := stabM S0 (1 / 10 ^ 12) with hS1
  let K := gainM H0 R S1 cfg.eps
  let m : Ω → ℕ → ℝ := fun ω => stackV bs fun p i => ((c ω).mu p).e i 0
  let X : Ω → ℕ → ℝ := fun ω => stackV bs fun p i => x p ω i
  have hc : ∀ ω, ∃ M r : Mat, M.Shape (tot bs) 1 ∧ (∀ k < tot bs, M.e k 0 = m ω k) ∧ r.Shape H0.rows 1 ∧
      (∀ j < H0.rows, r.e j 0 = app H0 (tot bs) (X ω) j + v ω j - app H0 (tot bs) (m ω) j) ∧
      ObsShape H0 R r S1 (tot bs) H0.rows ∧ (∃ res, correctionStep H0 R r S1 cfg = .ok res ∧ res.Sapos = postM H0 R S1 cfg) ∧
      c' ω = (c ω).joint bs (fixPsd near (postM H0 R S1 cfg)) (K * r) := by
    intro ω
    have h1 := hs ω
    simp only [NStp.call] at h1
    generalize c' ω = d at h1
    cases h1 with
    | jointZ _ _ _ _ _ H S M res hH hS hm hcs hrj =>
      obtain rfl := sideBySide_unique hd hne hH hH0
      rw [hpart ω] at hS hm ⊢
      have hS' : StackedCov bs (c o).cov S := by
        refine ⟨hS.1, fun p hp q hq i hi j hj => ?_⟩
        rw [hS.2 p hp q hq i hi j hj, hk.same ω p.1 (hin _ (List.mem_map.mpr ⟨p, hp, rfl⟩)) q.1 (hin _ (List.mem_map.mpr ⟨q, hq, rfl⟩))]
      obtain rfl := stacked_unique hn hS' hS0
      obtain ⟨hO, hres⟩ := Inst.correctionStep_accept (hS.1.stabM _) cfg res hcs hrj
      have hMe : ∀ k < tot bs, M.e k 0 = m ω k := by
        intro k hkk
        obtain ⟨b, hbm, i, hi, e1, hx⟩ := stackV_cover hn hkk
        simp only [m]
        rw [hx, e1, hm.2 b hbm i hi]
      refine ⟨M, _, hm.1, hMe, hO.r, fun j hj => ?_, hO, ⟨res, hcs, by rw [hres]⟩, by rw [hres]⟩
      have hRr : R.rows = H.rows := hO.R.1
      have hz : (H * M).Shape H.rows 1 := ⟨rfl, hm.1.2⟩
      rw [sub_e _ _ (by rw [hz.1]; exact hRr.symm) (by rw [hz.2]; rfl), of_e, if_pos ⟨by rw [hRr]; exact hj, Nat.one_pos⟩, app_mul hm.1,
        sideBySide_app hd hcols hH]
      congr 1
      exact Finset.sum_congr rfl fun k hkk => by simp only [hMe k (Finset.mem_range.mp hkk)]
  have symS : ∀ i j, S0.e i j = S0.e j i := by
    intro i j
    by_cases hij : i < tot bs ∧ j < tot bs
    · obtain ⟨a, ha, i', hi', rfl⟩ := off_cover hn hij.1
      obtain ⟨b, hb', j', hj', rfl⟩ := off_cover hn hij.2
      have ka := hk.reg o a.1 (hin _ (List.mem_map.mpr ⟨a, ha, rfl⟩))
      have kb := hk.reg o b.1 (hin _ (List.mem_map.mpr ⟨b, hb', rfl⟩))
      rw [hS0.2 a ha b hb' i' hi' j' hj', hS0.2 b hb' a ha j' hj' i' hi', (hk.rel o).symm a.1 b.1 ka kb, tr_e]
    · rw [S0.out i j (by rw [hS0.1.1, hS0.1.2]; omega), S0.out j i (by rw [hS0.1.1, hS0.1.2]; omega)]
  obtain ⟨k1, k2⟩ := hk.inv.stacked hb hn hin hS0
  have own : IsCovMat S1 := isCov_stab hS0.1 symS (fun s => (integral_nonneg fun ω => sq_nonneg _).trans (k2 s)) (by norm_num)
  obtain ⟨M0, r0, -, -, -, -, hO, ⟨res, hres, hSa⟩, -⟩ := hc o
  have hRr : R.rows = H0.rows := hO.R.1
  have hKs := gainM_shape hO cfg.eps
  have hfix : fixPsd near (postM H0 R S1 cfg) = postM H0 R S1 cfg := by
    have h1 := postM_shape hO cfg
    obtain ⟨-, pS⟩ := own.psd hO.S.1
    obtain ⟨pR, he, pRe⟩ := hR.pd hO.R.1
    unfold fixPsd
    rw [if_pos]
    refine ⟨by rw [h1.1, h1.2], ?_⟩
    rw [h1.1]
    refine Matrix.PosSemidef.of_dotProduct_mulVec_nonneg ?_ fun u => ?_
    · rw [Matrix.IsHermitian, Matrix.conjTranspose_eq_transpose_of_trivial, ← toM_tr, postM_symm hO cfg]
    · have h2 := grow hO own hR hres fun i => if hi : i < tot bs then u ⟨i, hi⟩ else 0
      have hU : (one (tot bs) - gainM H0 R S1 cfg.eps * H0).Shape (tot bs) (tot bs) := ⟨rfl, rfl⟩
      rw [bil_pull hU hO.S, hSa, bil_toM (postM H0 R S1 cfg)] at h2
      have h3 := own.bil (tot bs) (pull (one (tot bs) - gainM H0 R S1 cfg.eps * H0) (tot bs) fun i => if hi : i < tot bs then u ⟨i, hi⟩ else 0)
      have h4 := hR.1.bil H0.rows (pull (gainM H0 R S1 cfg.eps) (tot bs) fun i => if hi : i < tot bs then u ⟨i, hi⟩ else 0)
      have h5 : (fun i : Fin (tot bs) => if hi : (i : ℕ) < tot bs then u ⟨i, hi⟩ else 0) = u := by
        funext i
        rw [dif_pos i.2]
      rw [h5] at h2
      rw [star_trivial]
      linarith
  refine ⟨hr', hreg', fun ω p hp q hq => ?_, ht, ?_⟩
  · obtain ⟨-, r1, -, -, -, -, -, -, e1⟩ := hc ω
    obtain ⟨-, r2, -, -, -, -, -, -, e2⟩ := hc o
    rw [e1, e2]
    simp only [Central.joint]
    rw [hk.same ω p hp q hq, hk.same ω p hp p hp, hk.same ω q hq q hq]
  · obtain ⟨-, r2, -, -, -, -, -, -, e2⟩ := hc o
    have hco : (c' o).cov = ((c o).joint bs (fixPsd near (postM H0 R S1 cfg)) (K * r2)).cov := by rw [e2]
    rw [hco]
    have hlk : ∀ p ∈ bs.map (·.1), (bs.lookup p).getD 0 = dim p := by
      intro p hp
      obtain ⟨b, hbm, rfl⟩ := List.mem_map.mp hp
      rw [lookup_of_mem hn hbm, ← hb b hbm]; rfl
    choose M r f1 f2 f3 f4 f5 f6 f7 using hc
    have hE : ∀ ω, ∀ k < tot bs, X ω k - (m ω k + (K * r ω).e k 0) = ∑ j ∈ Finset.range (tot bs), (one (tot bs) - K * H0).e k j * stackE bs (errs x fun ω => (c ω).mu) ω j +
        ∑ j ∈ Finset.range H0.rows, -K.e k j * v ω j := by
      intro ω k hkk
      have := corr_err (m := M ω) hKs hO.H (f3 ω) (x := X ω) (v := v ω) (fun j hj => by
        rw [f4 ω j hj]
        congr 1
        exact Finset.sum_congr rfl fun k hkk => by simp only [f2 ω k (Finset.mem_range.mp hkk)]) hkk
      rw [f2 ω k hkk] at this
      rw [this]
      congr 1
      refine Finset.sum_congr rfl fun j hj => ?_
      rw [f2 ω j (Finset.mem_range.mp hj)]
      unfold stackE errs
      rw [stackV_sub]
    refine hk.inv.joint (fun k hkk => hw.1 k hkk) hl (hk.team o).apart hb hn (fun p => by rw [hkeys]; exact hg p)
      (U := fun k j => (one (tot bs) - K * H0).e k j) (B := fun k j => -K.e k j) (E' := fun ω k => X ω k - (m ω k + (K * r ω).e k 0)) (fun ω k hkk => ?_) (fun p hp ω i hi => ?_)
      (fun p hp hnp ω i hi => ?_) fun s => ?_
    · rw [hE ω k hkk]
      simp only [NStp.noise]
      rw [hRr]
    · obtain ⟨b, hbm, rfl⟩ := List.mem_map.mp hp
      have hi' : i < b.2 := by rw [hb b hbm]; exact hi
      have hst := stackV_off hn hbm hi'
      have hm := (hk.rel ω).muS b.1 (hk.reg ω b.1 (hin _ hp))
      simp only [errs, NStp.truth, f7 ω, Central.joint, if_pos hp, hlk _ hp, X, m, hst]
      rw [add_e _ _ (by rw [hm.1]; rfl) (by rw [hm.2]; rfl), block_e, if_pos ⟨hi, Nat.one_pos⟩, Nat.zero_add]
    · simp only [errs, NStp.truth, f7 ω, Central.joint, if_neg hnp]
    · rw [hfix]
      have h1 := grow hO own hR hres s
      rw [hSa] at h1
      have hU : (one (tot bs) - gainM H0 R S1 cfg.eps * H0).Shape (tot bs) (tot bs) := ⟨rfl, rfl⟩
      rw [bil_pull hU hO.S] at h1
      set y := pull (one (tot bs) - gainM H0 R S1 cfg.eps * H0) (tot bs) s with hy
      set w := pull (gainM H0 R S1 cfg.eps) (tot bs) s with hwd
      let a : Ω → ℝ := fun ω => ∑ j ∈ Finset.range (tot bs), y j * stackE bs (errs x fun ω => (c ω).mu) ω j
      let b : Ω → ℝ := fun ω => ∑ j ∈ Finset.range R.rows, -w j * v ω j
      have hb2 : b ∈ sq2 P := lin_mem _ _ (fun j => -w j) (fun j ω => v ω j) fun j hj => hw.1 j (Finset.mem_range.mp hj)
      have ha2 : a ∈ orth P b hb2 := by
        refine lin_mem _ _ y (fun j ω => stackE bs (errs x fun ω => (c ω).mu) ω j) fun j hj => ?_
        obtain ⟨d, hdm, i, hi, -, hx⟩ := stackV_cover hn (Finset.mem_range.mp hj)
        have e1 : (fun ω => stackE bs (errs x fun ω => (c ω).mu) ω j) = fun ω => errs x (fun ω => (c ω).mu) d.1 ω i := by funext ω; exact hx _
        have hdi := hin _ (List.mem_map.mpr ⟨d, hdm, rfl⟩)
        have hi' : i < dim d.1 := by rw [← hb d hdm]; exact hi
        rw [e1]
        refine orth_comm (lin_mem (orth P _ (hk.inv.cov.1 d.1 hdi i hi')) _ (fun j => -w j) (fun j ω => v ω j) fun j hj => ?_)
        refine orth_comm (hb := hw.1 j (Finset.mem_range.mp hj)) ⟨hk.inv.cov.1 d.1 hdi i hi', ?_⟩
        exact hk.inv.later _ List.mem_cons_self d.1 hdi i hi' j (Finset.mem_range.mp hj)
      have hcomb : ∀ ω, ∑ k ∈ Finset.range (tot bs), s k * (X ω k - (m ω k + (K * r ω).e k 0)) = a ω + b ω := by
        intro ω
        rw [Finset.sum_congr rfl fun k hkk => by rw [hE ω k (Finset.mem_range.mp hkk), _root_.mul_add, Finset.mul_sum, Finset.mul_sum], Finset.sum_add_distrib]
        simp only [a, b, hy, hwd, pull, hRr]
        congr 1
        · rw [Finset.sum_comm]
          refine Finset.sum_congr rfl fun k _ => ?_
          rw [Finset.sum_mul]
          exact Finset.sum_congr rfl fun i _ => by ring
        · rw [Finset.sum_comm]
          refine Finset.sum_congr rfl fun k _ => ?_
          rw [← Finset.sum_neg_distrib, Finset.sum_mul]
          exact Finset.sum_congr rfl fun i _ => by ring
      simp only [hcomb]
      rw [int_sq_add ha2.1 hb2 ha2]
      refine le_trans (add_le_add ((k2 y).trans ?_) ((hw.2 fun j => -w j).trans (le_of_eq ?_))) h1
      · refine bil_le_of_psd ?_ y
        rw [hS1, toM_stabM_symm hS0.1 _ (by ext i j; exact symS _ _), add_sub_cancel_left]
        exact Alg.smul_one_psd (by norm_num)
      · rw [hRr]
        unfold bil
        exact Finset.sum_congr rfl fun i _ => Finset.sum_congr rfl fun j _ => by ring

/-- The noises fit together: finite second moments, uncorrelated with each other. -/
theorem later_ok {s : NStp Ω} {l : List (NStp Ω)} (hv : ∀ s' ∈ l, s'.Valid P dim grp ids) (hu : ((s :: l).map (·.noise dim)).Pairwise (Uncorr P)) :
    ∀ μ ∈ l.map (·.noise dim), (∀ k < μ.1, (fun ω => μ.2 ω k) ∈ sq2 P) ∧ Uncorr P (s.noise dim) μ := by
  intro μ hμ
  rw [List.map_cons, List.pairwise_cons] at hu
  refine ⟨?_, hu.1 μ hμ⟩
  obtain ⟨s', hs', rfl⟩ := List.mem_map.mp hμ
  have := hv s' hs'
  cases s' with
  | move id F Q ta tb w => exact this.2.2.1
  | priv id H R t cfg v => exact this.2.2.1
  | joint dH R t cfg v => exact this.2.2.2.2.1

theorem Valid.teamEv {s : NStp Ω} (hv : s.Valid P dim grp ids) (x : ℕ → RVec Ω) (ω : Ω) : TeamEv grp ids (s.call dim x ω) := by
  cases s with
  | move id F Q ta tb w => exact hv.2.1
  | priv id H R t cfg v => exact hv.2.1
  | joint dH R t cfg v =>
    obtain ⟨g, hg⟩ := hv.2.2.1
    exact ⟨g, fun p hp => by rw [hg p]; exact ⟨fun e => ⟨hp, e⟩, fun e => e.2⟩⟩

theorem Kept.step (hnear : NearOk near) (hn : NearCov near) {o : Ω} {h h' : Ω → Hdl} {c : Ω → Central} {x : ℕ → RVec Ω} {s : NStp Ω} {l : List (ℕ × RVec Ω)}
    (hk : Kept P dim grp ids o h c x (s.noise dim :: l)) (hv : s.Valid P dim grp ids)
    (hl : ∀ μ ∈ l, (∀ k < μ.1, (fun ω => μ.2 ω k) ∈ sq2 P) ∧ Uncorr P (s.noise dim) μ) (hw : ∀ ω, Wf dim (h ω) (s.call dim x ω))
    (hrun : ∀ ω, Hdl.run fp near pred (h ω) (s.call dim x ω) = .ok (h' ω, true)) :
    ∃ c' : Ω → Central, (∀ ω, SpecStep dim near (c ω) (s.call dim x ω) (c' ω)) ∧ Kept P dim grp ids o h' c' (s.truth dim x) l := by
  choose c' st hr' using fun ω => Hdl.accepted hnear (hk.rel ω) _ (hw ω) (hrun ω)
  have hreg' : ∀ ω, ∀ p ∈ ids, ((h' ω).find p).isSome := fun ω p hp => sameDom_isSome (step_dom (hk.rel ω) _ (hw ω) (hrun ω)) (hk.reg ω p hp)
  have ht : ∀ ω, TeamInv dim grp ids (c' ω) := fun ω => (hk.team ω).step hn (hk.rel ω) (hr' ω) (hk.reg ω) (hreg' ω) (hw ω) (Valid.teamEv hv x ω) (st ω)
  refine ⟨c', st, ?_⟩
  cases s with
  | move id F Q ta tb w => exact hk.move hv hl hr' hreg' ht st
  | priv id H R t cfg v => exact hk.priv hv hl hr' hreg' ht st
  | joint dH R t cfg v => exact hk.joint hv (hw o).1 hl hr' hreg' ht st

theorem Kept.runs (hnear : NearOk near) (hn : NearCov near) {o : Ω} {h h' : Ω → Hdl} {c : Ω → Central} {x : ℕ → RVec Ω} {l : List (NStp Ω)}
    (hk : Kept P dim grp ids o h c x (l.map (·.noise dim))) (hv : ∀ s ∈ l, s.Valid P dim grp ids) (hu : (l.map (·.noise dim)).Pairwise (Uncorr P))
    (hrun : ∀ ω, Runs fp near pred dim (h ω) ((teamScript dim l x ω).map (·, true)) (h' ω)) :
    ∃ c' : Ω → Central, Kept P dim grp ids o h' c' (teamTruth dim l x) [] := by
  induction l generalizing h c x with
  | nil =>
    have : h' = h := by
      funext ω
      have := hrun ω
      simp only [teamScript, List.map_nil] at this
      generalize h' ω = a at this
      generalize h ω = b at this
      cases this
      rfl
    rw [this]
    exact ⟨c, hk⟩
  | cons s l ih =>
    have hex : ∀ ω, ∃ h1, Wf dim (h ω) (s.call dim x ω) ∧ Hdl.run fp near pred (h ω) (s.call dim x ω) = .ok (h1, true) ∧
        Runs fp near pred dim h1 ((teamScript dim l (s.truth dim x) ω).map (·, true)) (h' ω) := by
      intro ω
      have := hrun ω
      simp only [teamScript, List.map_cons] at this
      cases this with
      | step hw hs r => exact ⟨_, hw, hs, r⟩
    choose h1 hw hs hr using hex
    have hv' : ∀ s' ∈ l, s'.Valid P dim grp ids := fun s' hs' => hv s' (List.mem_cons_of_mem _ hs')
    obtain ⟨c1, -, k1⟩ := hk.step hnear hn (hv s List.mem_cons_self) (later_ok hv' hu) hw hs
    exact ih k1 hv' (List.pairwise_cons.mp (by rw [← List.map_cons]; exact hu)).2 hr

/-- What the user starts from: for every outcome a reachable state with the team's instances at time `t`, none of them fixed, with the covariances `C` (the same
whatever chance is) and the means `m` as they are read at `t`; the covariances cover the errors; covariances of different groups vanish and their
errors are uncorrelated; the noises to come are uncorrelated with each other and with the errors. -/
structure Start (P : Measure Ω) (fp : FP) (near : Mat → Mat) (pred : ℕ → Inst → Int → Inst × Bool) (dim grp : ℕ → ℕ) (ids : Finset ℕ) (h : Ω → Hdl) (t : Int)
    (C : ℕ → ℕ → Mat) (m : Ω → ℕ → Mat) (x : ℕ → RVec Ω) (l : List (NStp Ω)) : Prop where
  reach : ∀ ω, Reach fp near pred dim (h ω)
  newest : ∀ ω, ∀ p ∈ ids, Newest (h ω) p t
  free : ∀ ω, ∀ p ∈ ids, fixedAt (h ω) t p = false
  cov : ∀ ω, ∀ p ∈ ids, ∀ q ∈ ids, IsCov dim (h ω) p q t (C p q)
  mean : ∀ ω, ∀ p ∈ ids, IsMean (h ω) p t (m ω p)
  covers : Covers P dim ids C fun p ω i => x p ω i - (m ω p).e i 0
  apart : ∀ p ∈ ids, ∀ q ∈ ids, grp p ≠ grp q → (∀ i j, (C p q).e i j = 0) ∧ Uncorr P (dim p, fun ω i => x p ω i - (m ω p).e i 0) (dim q, fun ω i => x q ω i - (m ω q).e i 0)
  later : ∀ s ∈ l, ∀ p ∈ ids, Uncorr P (dim p, fun ω i => x p ω i - (m ω p).e i 0) (s.noise dim)
  noises : (l.map (·.noise dim)).Pairwise (Uncorr P)

theorem IsMean.unique {h : Hdl} {p : ℕ} {t : Int} {m m' : Mat} (h1 : IsMean h p t m) (h2 : IsMean h p t m') : m = m' := by
  obtain ⟨b, hb, rfl⟩ := h1
  obtain ⟨b', hb', rfl⟩ := h2
  rw [hb] at hb'
  rw [Option.some.inj hb']

theorem Start.kept (hnear : NearOk near) {h : Ω → Hdl} {t : Int} {C : ℕ → ℕ → Mat} {m : Ω → ℕ → Mat} {x : ℕ → RVec Ω} {l : List (NStp Ω)}
    (hs : Start P fp near pred dim grp ids h t C m x l) (o : Ω) : ∃ c : Ω → Central, Kept P dim grp ids o h c x (l.map (·.noise dim)) ∧ ∀ ω, ∀ p ∈ ids, (c ω).tm p = t := by
  choose c hr using fun ω => (hs.reach ω).rel hnear
  have eC : ∀ ω, ∀ p ∈ ids, ∀ q ∈ ids, (c ω).cov p q = C p q := fun ω p hp q hq =>
    ((hr ω).isCov (hs.newest ω p hp) (hs.newest ω q hq)).unique (hs.cov ω p hp q hq)
  have em : ∀ ω, ∀ p ∈ ids, (c ω).mu p = m ω p := fun ω p hp => IsMean.unique ((hr ω).isMean (hs.newest ω p hp)) (hs.mean ω p hp)
  have ee : ∀ p ∈ ids, errs x (fun ω => (c ω).mu) p = fun ω i => x p ω i - (m ω p).e i 0 := by
    intro p hp
    funext ω i
    rw [errs, em ω p hp]
  have hC : TeamCov dim ids C := fun y => (integral_nonneg fun ω => sq_nonneg _).trans (hs.covers.2 y)
  refine ⟨c, ⟨hr, fun ω p hp => ((hs.newest ω p hp).rel (hr ω)).1, fun ω p hp q hq => by rw [eC ω p hp q hq, eC o p hp q hq], fun ω => ?_, ⟨⟨?_, fun y => ?_⟩, ?_, ?_⟩⟩,
    fun ω p hp => ((hs.newest ω p hp).rel (hr ω)).2⟩
  · exact ⟨hC.congr (eC ω), fun p hp q hq hg i j => by rw [eC ω p hp q hq]; exact (hs.apart p hp q hq hg).1 i j,
      fun p hp => fix_of_fixedAt (hr ω) (hs.newest ω p hp) (hs.free ω p hp)⟩
  · intro p hp
    rw [ee p hp]
    exact hs.covers.1 p hp
  · refine le_trans (le_of_eq ?_) ((hs.covers.2 y).trans (le_of_eq ?_))
    · unfold meanSq
      refine integral_congr_ae (Filter.Eventually.of_forall fun ω => ?_)
      simp only
      congr 1
      exact Finset.sum_congr rfl fun p hp => by rw [ee p hp]
    · exact Finset.sum_congr rfl fun p hp => Finset.sum_congr rfl fun q hq => by rw [eC o p hp q hq]
  · intro p hp q hq hg
    rw [ee p hp, ee q hq]
    exact (hs.apart p hp q hq hg).2
  · intro ν hν p hp
    obtain ⟨s, hs', rfl⟩ := List.mem_map.mp hν
    rw [ee p hp]
    exact hs.later s hs' p hp

theorem Covers.subset {C : ℕ → ℕ → Mat} {e : ℕ → RVec Ω} {sub : Finset ℕ} (h : Covers P dim ids C e) (hs : sub ⊆ ids) : Covers P dim sub C e := by
  classical
  refine ⟨fun p hp => h.1 p (hs hp), fun y => ?_⟩
  have h1 := h.2 fun p i => if p ∈ sub then y p i else 0
  refine le_trans (le_of_eq ?_) (h1.trans (le_of_eq ?_))
  · unfold meanSq
    refine integral_congr_ae (Filter.Eventually.of_forall fun ω => ?_)
    simp only
    congr 1
    refine (Finset.sum_congr rfl fun p hp => ?_).trans (Finset.sum_subset hs fun p _ hp => ?_)
    · simp only [if_pos hp]
    · simp only [if_neg hp, MulZeroClass.zero_mul, Finset.sum_const_zero]
  · symm
    refine (Finset.sum_congr rfl fun p hp => ?_).trans (Finset.sum_subset hs fun p _ hp => ?_)
    · refine (Finset.sum_congr rfl fun q hq => ?_).trans (Finset.sum_subset hs fun q _ hq => ?_)
      · simp only [if_pos hp, if_pos hq]
      · simp only [if_neg hq]
        exact bil_zero_right _ _ _ _ fun _ => rfl
    · refine Finset.sum_eq_zero fun q _ => ?_
      simp only [if_neg hp]
      exact bil_zero_left _ _ _ (fun _ => rfl) _

/-- C116: true states move and are measured with random noise that is uncorrelated and at most what the filters are told; joint measurements are of whole
groups. If for every outcome the calls go through and are accepted, then afterwards the covariances read at a time `t'` from the instances `sub`
that are at `t'` do not depend on chance and, taken together, cover the errors of the means read: no linear combination of the errors of all of them, with
whatever weights, has a larger mean square than the reported covariances say. -/
theorem c116_groups_partial [IsProbabilityMeasure P] (hnear : NearOk near) (hn : NearCov near) {h h' : Ω → Hdl} {t : Int} {C : ℕ → ℕ → Mat} {m : Ω → ℕ → Mat}
    {x : ℕ → RVec Ω} {l : List (NStp Ω)} (hs : Start P fp near pred dim grp ids h t C m x l) (hv : ∀ s ∈ l, s.Valid P dim grp ids)
    (hrun : ∀ ω, Runs fp near pred dim (h ω) ((teamScript dim l x ω).map (·, true)) (h' ω)) {t' : Int} {sub : Finset ℕ} (hsub : sub ⊆ ids)
    (hN' : ∀ ω, ∀ p ∈ sub, Newest (h' ω) p t') :
    ∃ (C' : ℕ → ℕ → Mat) (m' : Ω → ℕ → Mat), (∀ ω, ∀ p ∈ sub, ∀ q ∈ sub, IsCov dim (h' ω) p q t' (C' p q)) ∧ (∀ ω, ∀ p ∈ sub, IsMean (h' ω) p t' (m' ω p)) ∧
      Covers P dim sub C' fun p ω i => teamTruth dim l x p ω i - (m' ω p).e i 0 := by
  obtain ⟨o⟩ := nonempty_of_isProbabilityMeasure P
  obtain ⟨c, hk, -⟩ := hs.kept hnear o
  obtain ⟨c', hk'⟩ := hk.runs hnear hn hv hs.noises hrun
  refine ⟨(c' o).cov, fun ω => (c' ω).mu, fun ω p hp q hq => ?_, fun ω p hp => (hk'.rel ω).isMean (hN' ω p hp), hk'.inv.cov.subset hsub⟩
  rw [← hk'.same ω p (hsub hp) q (hsub hq)]
  exact (hk'.rel ω).isCov (hN' ω p hp) (hN' ω q hq)

theorem Kept.accept (hnear : NearOk near) (hn : NearCov near) {o : Ω} {h : Ω → Hdl} {c : Ω → Central} {x : ℕ → RVec Ω} {l : List (NStp Ω)} {tm : ℕ → Int}
    (hk : Kept P dim grp ids o h c x (l.map (·.noise dim))) (hv : ∀ s ∈ l, s.Valid P dim grp ids) (hf : ∀ s ∈ l, s.Fit dim)
    (hu : (l.map (·.noise dim)).Pairwise (Uncorr P)) (ht : Timed l tm) (htm : ∀ ω, ∀ p ∈ ids, (c ω).tm p = tm p) :
    ∃ h' : Ω → Hdl, ∀ ω, Runs fp near pred dim (h ω) ((teamScript dim l x ω).map (·, true)) (h' ω) ∧ ∀ p ∈ ids, Newest (h' ω) p (endTm l tm p) := by
  induction l generalizing h c x tm with
  | nil => exact ⟨h, fun ω => ⟨Runs.nil _, fun p hp => Newest.of_rel (hk.rel ω) (hk.reg ω p hp) (htm ω p hp)⟩⟩
  | cons s l ih =>
    have hv' : ∀ s' ∈ l, s'.Valid P dim grp ids := fun s' hs' => hv s' (List.mem_cons_of_mem _ hs')
    have hvs := hv s List.mem_cons_self
    have hfs := hf s List.mem_cons_self
    have new : ∀ ω, ∀ p ∈ ids, Newest (h ω) p (tm p) := fun ω p hp => Newest.of_rel (hk.rel ω) (hk.reg ω p hp) (htm ω p hp)
    have fixd : ∀ ω, ∀ p ∈ ids, fixedAt (h ω) (tm p) p = false := by
      intro ω p hp
      obtain ⟨b, hb, -, -, -, h5⟩ := (hk.rel ω).bel p (hk.reg ω p hp)
      have hb' : belief (h ω) p (tm p) = some b := by rw [← htm ω p hp]; exact hb
      unfold fixedAt
      rw [hb', ← (hk.team ω).free p hp, ← h5]
    have hwf : ∀ ω, Wf dim (h ω) (s.call dim x ω) ∧ Fits dim (h ω) (s.call dim x ω) ∧ Ungated (s.call dim x ω) := by
      intro ω
      cases s with
      | move id F Q ta tb w =>
        obtain ⟨f1, f2, f3⟩ := hfs
        refine ⟨⟨?_, f3, ?_⟩, ⟨f1, f2⟩, trivial⟩
        · rw [← ht.1]; exact new ω id hvs.1
        · refine Mat.ext' (by rw [tr_rows, f2.1, f2.2]) (by rw [tr_cols, f2.1, f2.2]) fun i j _ _ => ?_
          rw [tr_e]; exact hvs.2.1.2.1 j i
      | priv id H R t cfg v =>
        obtain ⟨f1, f2, f3⟩ := hfs
        refine ⟨?_, ⟨f1, f2, ⟨f2.1, rfl⟩, Or.inl f3⟩, f3⟩
        show Newest (h ω) id t
        rw [← ht.1]; exact new ω id hvs.1
      | joint dH R t cfg v =>
        obtain ⟨f1, f2, f3⟩ := hfs
        obtain ⟨v1, v2, ⟨g, hg⟩, v4, -⟩ := hvs
        refine ⟨⟨f1, fun p hp => ?_⟩, ⟨v1, ⟨R.rows, fun e he => ⟨⟨f2 e he, v2 e he⟩, ?_⟩, ⟨rfl, v4.1.1.symm⟩, ⟨rfl, rfl⟩⟩, Or.inl f3⟩, f3⟩
        · rw [← ht.1 p hp]; exact new ω p ((hg p).mp hp).1
        · have hp : e.1 ∈ dH.keys := List.mem_map.mpr ⟨e, he, rfl⟩
          rw [← ht.1 e.1 hp]; exact fixd ω e.1 ((hg e.1).mp hp).1
    have hex : ∀ ω, ∃ h1, Hdl.run fp near pred (h ω) (s.call dim x ω) = .ok (h1, true) := by
      intro ω
      obtain ⟨h1, a, e, ha⟩ := progress_rel (fp := fp) (pred := pred) hnear (hk.rel ω) _ (hwf ω).1 (hwf ω).2.1
      rw [ha (hwf ω).2.2] at e
      exact ⟨h1, e⟩
    choose h1 hs using hex
    obtain ⟨c1, st, k1⟩ := hk.step hnear hn hvs (later_ok hv' hu) (fun ω => (hwf ω).1) hs
    have hnext : ∃ tm', Timed l tm' ∧ endTm (s :: l) tm = endTm l tm' ∧ ∀ ω, ∀ p ∈ ids, (c1 ω).tm p = tm' p := by
      cases s with
      | move id F Q ta tb w =>
        refine ⟨_, ht.2, rfl, fun ω p hp => ?_⟩
        have h2 := st ω
        simp only [NStp.call] at h2
        generalize c1 ω = d at h2
        cases h2
        simp only [Central.transform, Function.update_apply]
        split
        · rfl
        · exact htm ω p hp
      | priv id H R t cfg v =>
        refine ⟨_, ht.2, rfl, fun ω p hp => ?_⟩
        have h2 := st ω
        simp only [NStp.call] at h2
        generalize c1 ω = d at h2
        cases h2
        simp only [Central.transform]
        split
        · rename_i e; rw [e]; exact ht.1.symm
        · exact htm ω p hp
      | joint dH R t cfg v =>
        refine ⟨_, ht.2, rfl, fun ω p hp => ?_⟩
        have h2 := st ω
        simp only [NStp.call] at h2
        generalize c1 ω = d at h2
        cases h2
        exact htm ω p hp
    obtain ⟨tm', ht', he, htm'⟩ := hnext
    obtain ⟨h2, hr2⟩ := ih k1 hv' (fun s' hs' => hf s' (List.mem_cons_of_mem _ hs')) (List.pairwise_cons.mp (by rw [← List.map_cons]; exact hu)).2 ht' htm'
    exact ⟨h2, fun ω => ⟨Runs.step (hwf ω).1 (hs ω) (hr2 ω).1, by rw [he]; exact (hr2 ω).2⟩⟩

/-- ... and if the matrices fit, the outlier gate is off and every step is at the time of the newest estimates, the calls do go through and are accepted,
whatever chance is, and lead to the expected times. -/
theorem c116_accepts [IsProbabilityMeasure P] (hnear : NearOk near) (hn : NearCov near) {h : Ω → Hdl} {t : Int} {C : ℕ → ℕ → Mat} {m : Ω → ℕ → Mat}
    {x : ℕ → RVec Ω} {l : List (NStp Ω)} (hs : Start P fp near pred dim grp ids h t C m x l) (hv : ∀ s ∈ l, s.Valid P dim grp ids) (hf : ∀ s ∈ l, s.Fit dim)
    (ht : Timed l fun _ => t) : ∃ h' : Ω → Hdl, ∀ ω, Runs fp near pred dim (h ω) ((teamScript dim l x ω).map (·, true)) (h' ω) ∧
      ∀ p ∈ ids, Newest (h' ω) p (endTm l (fun _ => t) p) := by
  obtain ⟨o⟩ := nonempty_of_isProbabilityMeasure P
  obtain ⟨c, hk, htm⟩ := hs.kept hnear o
  exact hk.accept hnear hn hv hf hs.noises ht htm

end

/-! ## Example: three instances, two of them observed together -/

open ProbabilityTheory in
/-- Five independent standard Gaussian numbers. -/
noncomputable def gauss5 : Measure (Fin 5 → ℝ) := Measure.pi fun _ => gaussianReal 0 1

noncomputable instance : IsProbabilityMeasure gauss5 := by unfold gauss5; infer_instance

open ProbabilityTheory in
theorem gauss5_facts (k : Fin 5) : MemLp (fun ω : Fin 5 → ℝ => ω k) 2 gauss5 ∧ ∫ ω : Fin 5 → ℝ, ω k ^ 2 ∂gauss5 = 1 ∧
    ∀ j, j ≠ k → ∫ ω : Fin 5 → ℝ, ω k * ω j ∂gauss5 = 0 := by
  have hp : ∀ k : Fin 5, MeasurePreserving (Function.eval k) gauss5 (gaussianReal 0 1) := fun k =>
    measurePreserving_eval (fun _ : Fin 5 => gaussianReal 0 1) k
  have hi : iIndepFun (fun (i : Fin 5) (ω : Fin 5 → ℝ) => (fun z : ℝ => z) (ω i)) gauss5 := iIndepFun_pi (X := fun _ z => z) (fun i => by fun_prop)
  have h0 : ∀ k : Fin 5, ∫ ω, ω k ∂gauss5 = 0 := by
    intro k
    have := integral_map (μ := gauss5) (hp k).measurable.aemeasurable (f := fun x : ℝ => x) (by fun_prop)
    rw [(hp k).map_eq, integral_id_gaussianReal] at this
    exact this.symm
  refine ⟨(memLp_id_gaussianReal (μ := 0) (v := 1) 2).comp_measurePreserving (hp k), ?_, ?_⟩
  · have := integral_map (μ := gauss5) (hp k).measurable.aemeasurable (f := fun x : ℝ => x ^ 2) (by fun_prop)
    rw [(hp k).map_eq] at this
    have hv := variance_fun_id_gaussianReal (μ := 0) (v := 1)
    rw [variance_eq_integral (by fun_prop), integral_id_gaussianReal] at hv
    refine this.symm.trans (Eq.trans ?_ (hv.trans (by simp)))
    exact integral_congr_ae (Filter.Eventually.of_forall fun x => by simp)
  · intro j hj
    have := (hi.indepFun (fun h => hj h.symm) : IndepFun (fun ω : Fin 5 → ℝ => ω k) (fun ω => ω j) gauss5).integral_fun_mul_eq_mul_integral
      (measurable_pi_apply k).aestronglyMeasurable (measurable_pi_apply j).aestronglyMeasurable
    rw [this, h0, MulZeroClass.zero_mul]

/-- The number `k` of them as a random vector. -/
def draw5 (k : Fin 5) : RVec (Fin 5 → ℝ) := fun ω _ => ω k

theorem draw5_uncorr (n m : ℕ) {k j : Fin 5} (h : j ≠ k) : Uncorr gauss5 (n, draw5 k) (m, draw5 j) := fun _ _ _ _ => (gauss5_facts k).2.2 j h

open Hdl.Example (s s_shape s_tr near nearOk pred cfg dim)
open Hdl.TeamEx (h3 c3 init3 reach3 newest3)

theorem draw5_atMost (k : Fin 5) : AtMost gauss5 1 (draw5 k) (s 1) := by
  refine ⟨fun _ _ => (gauss5_facts k).1, fun y => ?_⟩
  rw [Hdl.TeamEx.bil1]
  simp only [Finset.range_one, Finset.sum_singleton, draw5, mul_pow]
  rw [integral_const_mul, (gauss5_facts k).2.1]
  have : (s 1).e 0 0 = 1 := rfl
  rw [this]
  exact le_of_eq (by ring)

/-- The states at the start: instance 1 has the first number, instance 2 the second, all others the third. -/
def start5 (p : ℕ) : RVec (Fin 5 → ℝ) := if p = 1 then draw5 0 else if p = 2 then draw5 1 else draw5 2

/-- The difference of the states of 1 and 3 is measured with the fourth number as error; then the state of 2 is measured with the fifth. -/
noncomputable def demo5 : List (NStp (Fin 5 → ℝ)) := [.joint [(1, s 1), (3, s (-1))] (s 1) 0 cfg (draw5 3), .priv 2 (s 1) (s 1) 0 cfg (draw5 4)]

theorem noise5 : NoiseOk (s 1) cfg := by
  refine ⟨⟨rfl, fun i j => ?_, fun y => ?_⟩, by norm_num [cfg], fun y hy => ?_⟩
  · rw [← s_tr 1, tr_e, s_tr]
  · have : (s 1).rows = 1 := rfl
    rw [this]
    simp only [Finset.range_one, Finset.sum_singleton]
    have : (s 1).e 0 0 = 1 := rfl
    rw [this]
    nlinarith [sq_nonneg (y 0)]
  · have h1 : (s 1).rows = 1 := rfl
    obtain ⟨i, hi, hne⟩ := hy
    rw [h1] at hi ⊢
    have : i = 0 := by omega
    subst this
    simp only [Finset.range_one, Finset.sum_singleton]
    have : (s 1).e 0 0 = 1 := rfl
    rw [this]
    have : 0 < y 0 * y 0 := mul_self_pos.mpr hne
    have h2 : (0 : ℝ) ≤ cfg.eps := by norm_num [cfg]
    nlinarith [mul_nonneg h2 this.le]

theorem valid5 : (∀ st ∈ demo5, st.Valid gauss5 dim (fun p => if p = 2 then 1 else 0) {1, 2, 3}) ∧ ∀ st ∈ demo5, st.Fit dim := by
  constructor
  · intro st hst
    simp only [demo5, List.mem_cons, List.not_mem_nil, or_false] at hst
    rcases hst with rfl | rfl
    · refine ⟨by simp, ?_, ⟨0, fun p => ?_⟩, noise5, draw5_atMost 3⟩
      · intro e he
        simp only [List.mem_cons, List.not_mem_nil, or_false] at he
        rcases he with rfl | rfl <;> rfl
      · simp only [SMap.keys, List.map_cons, List.map_nil, List.mem_cons, List.not_mem_nil, or_false, Finset.mem_insert, Finset.mem_singleton]
        constructor
        · rintro (rfl | rfl) <;> simp
        · rintro ⟨rfl | rfl | rfl, h⟩ <;> simp_all
    · exact ⟨by simp, noise5, draw5_atMost 4⟩
  · intro st hst
    simp only [demo5, List.mem_cons, List.not_mem_nil, or_false] at hst
    rcases hst with rfl | rfl
    · refine ⟨by simp [SMap.Sorted], ?_, rfl⟩
      intro e he
      simp only [List.mem_cons, List.not_mem_nil, or_false] at he
      rcases he with rfl | rfl <;> rfl
    · exact ⟨rfl, ⟨rfl, rfl⟩, rfl⟩

theorem c3_diag (p : ℕ) : c3.cov p p = s 1 := by
  simp only [c3]
  rw [if_pos trivial]

theorem c3_off {p q : ℕ} (h : p ≠ q) (i j : ℕ) : (c3.cov p q).e i j = 0 := by
  simp only [c3]
  rw [if_neg h]
  simp [Mat.zero, Mat.of]

/-- The index of the number an instance starts with. -/
def num5 (p : ℕ) : Fin 5 := if p = 1 then 0 else if p = 2 then 1 else 2

theorem start5_eq (p : ℕ) : start5 p = draw5 (num5 p) := by
  unfold start5 num5
  split
  · rfl
  · split <;> rfl

theorem start5_err (p : ℕ) : (fun (ω : Fin 5 → ℝ) (i : ℕ) => start5 p ω i - ((fun (_ : Fin 5 → ℝ) (_ : ℕ) => s 0) ω p).e i 0) = draw5 (num5 p) := by
  funext ω i
  have : (s 0).e i 0 = 0 := by
    show (Mat.of 1 1 _).e i 0 = 0
    rw [of_e]
    split <;> rfl
  rw [this, sub_zero, start5_eq]

theorem num5_ne {p q : ℕ} (hp : p = 1 ∨ p = 2 ∨ p = 3) (hq : q = 1 ∨ q = 2 ∨ q = 3) (h : p ≠ q) : num5 q ≠ num5 p := by
  rcases hp with rfl | rfl | rfl <;> rcases hq with rfl | rfl | rfl <;> first | exact absurd rfl h | decide

theorem start5_ok : Start gauss5 FP.exact near pred dim (fun p => if p = 2 then 1 else 0) {1, 2, 3} (fun _ => h3) 0 c3.cov (fun _ _ => s 0) start5 demo5 := by
  have mem : ∀ p ∈ ({1, 2, 3} : Finset ℕ), p = 1 ∨ p = 2 ∨ p = 3 := fun p hp => by simpa using hp
  have nn : ∀ p ∈ ({1, 2, 3} : Finset ℕ), Newest h3 p 0 := fun p hp => newest3 (mem p hp)
  refine ⟨fun _ => reach3, fun _ => nn, fun _ p hp => ?_, fun _ p hp q hq => init3.rel.isCov (nn p hp) (nn q hq), fun _ p hp => init3.rel.isMean (nn p hp), ⟨?_, fun y => ?_⟩, ?_, ?_, ?_⟩
  · rcases mem p hp with rfl | rfl | rfl <;> rfl
  · intro p _ i _
    have := congrFun₂ (start5_err p)
    rw [show (fun ω : Fin 5 → ℝ => start5 p ω i - ((fun (_ : Fin 5 → ℝ) (_ : ℕ) => s 0) ω p).e i 0) = fun ω => ω (num5 p) from funext fun ω => this ω i]
    exact (gauss5_facts _).1
  · have e1 : ∀ ω : Fin 5 → ℝ, (∑ p ∈ ({1, 2, 3} : Finset ℕ), ∑ i ∈ Finset.range (dim p), y p i * (start5 p ω i - ((fun (_ : Fin 5 → ℝ) (_ : ℕ) => s 0) ω p).e i 0)) ^ 2 =
        (y 1 0 ^ 2 * ω 0 ^ 2 + y 2 0 ^ 2 * ω 1 ^ 2 + y 3 0 ^ 2 * ω 2 ^ 2) +
          (2 * (y 1 0 * y 2 0) * (ω 0 * ω 1) + 2 * (y 1 0 * y 3 0) * (ω 0 * ω 2) + 2 * (y 2 0 * y 3 0) * (ω 1 * ω 2)) := by
      intro ω
      have e : ∀ p, ∑ i ∈ Finset.range (dim p), y p i * (start5 p ω i - ((fun (_ : Fin 5 → ℝ) (_ : ℕ) => s 0) ω p).e i 0) = y p 0 * ω (num5 p) := by
        intro p
        show ∑ i ∈ Finset.range 1, _ = _
        rw [Finset.sum_range_one]
        exact congrArg _ (congrFun₂ (start5_err p) ω 0)
      rw [Finset.sum_congr rfl fun p _ => e p, Finset.sum_insert (by simp), Finset.sum_insert (by simp), Finset.sum_singleton]
      have n1 : num5 1 = 0 := rfl
      have n2 : num5 2 = 1 := rfl
      have n3 : num5 3 = 2 := rfl
      rw [n1, n2, n3]
      ring
    have l2 : ∀ k : Fin 5, (fun ω : Fin 5 → ℝ => ω k) ∈ sq2 gauss5 := fun k => (gauss5_facts k).1
    have i2 : ∀ (a : ℝ) (k j : Fin 5), Integrable (fun ω : Fin 5 → ℝ => a * (ω k * ω j)) gauss5 := fun a k j => (l2_int (l2 k) (l2 j)).const_mul a
    have i1 : ∀ (a : ℝ) (k : Fin 5), Integrable (fun ω : Fin 5 → ℝ => a * ω k ^ 2) gauss5 := fun a k => by
      have := i2 a k k
      simpa only [sq] using this
    unfold meanSq
    simp only [e1]
    have a2 : ∀ (a b : ℝ) (k j : Fin 5), Integrable (fun ω : Fin 5 → ℝ => a * ω k ^ 2 + b * ω j ^ 2) gauss5 := fun a b k j => (i1 a k).add (i1 b j)
    have a3 : ∀ (a b c : ℝ) (k j l : Fin 5), Integrable (fun ω : Fin 5 → ℝ => a * ω k ^ 2 + b * ω j ^ 2 + c * ω l ^ 2) gauss5 := fun a b c k j l => (a2 a b k j).add (i1 c l)
    have b2 : ∀ (a b : ℝ) (k j k' j' : Fin 5), Integrable (fun ω : Fin 5 → ℝ => a * (ω k * ω j) + b * (ω k' * ω j')) gauss5 := fun a b k j k' j' => (i2 a k j).add (i2 b k' j')
    have b3 : ∀ (a b c : ℝ) (k j k' j' m n : Fin 5), Integrable (fun ω : Fin 5 → ℝ => a * (ω k * ω j) + b * (ω k' * ω j') + c * (ω m * ω n)) gauss5 :=
      fun a b c k j k' j' m n => (b2 a b k j k' j').add (i2 c m n)
    rw [integral_add (a3 _ _ _ _ _ _) (b3 _ _ _ _ _ _ _ _ _), integral_add (a2 _ _ _ _) (i1 _ _), integral_add (i1 _ _) (i1 _ _),
      integral_add (b2 _ _ _ _ _ _) (i2 _ _ _), integral_add (i2 _ _ _) (i2 _ _ _)]
    simp only [integral_const_mul]
    rw [(gauss5_facts 0).2.1, (gauss5_facts 1).2.1, (gauss5_facts 2).2.1, (gauss5_facts 0).2.2 1 (by decide), (gauss5_facts 0).2.2 2 (by decide), (gauss5_facts 1).2.2 2 (by decide)]
    have e2 : ∀ p ∈ ({1, 2, 3} : Finset ℕ), ∑ q ∈ ({1, 2, 3} : Finset ℕ), bil (c3.cov p q) (dim p) (dim q) (y p) (y q) = y p 0 ^ 2 := by
      intro p hp
      rw [Finset.sum_eq_single p]
      · show bil (c3.cov p p) 1 1 _ _ = _
        rw [Hdl.TeamEx.bil1, c3_diag]
        have : (s 1).e 0 0 = 1 := rfl
        rw [this]; ring
      · intro q _ hq
        show bil (c3.cov p q) 1 1 _ _ = _
        rw [Hdl.TeamEx.bil1, c3_off (Ne.symm hq)]; ring
      · intro h; exact absurd hp h
    rw [Finset.sum_congr rfl e2, Finset.sum_insert (by simp), Finset.sum_insert (by simp), Finset.sum_singleton]
    exact le_of_eq (by ring)
  · intro p hp q hq hg
    have hne : p ≠ q := fun e => hg (by rw [e])
    refine ⟨c3_off hne, ?_⟩
    rw [start5_err, start5_err]
    exact draw5_uncorr _ _ (num5_ne (mem p hp) (mem q hq) hne)
  · intro st hst p hp
    rw [start5_err]
    simp only [demo5, List.mem_cons, List.not_mem_nil, or_false] at hst
    rcases hst with rfl | rfl
    · exact draw5_uncorr _ _ (by rcases mem p hp with rfl | rfl | rfl <;> decide)
    · exact draw5_uncorr _ _ (by rcases mem p hp with rfl | rfl | rfl <;> decide)
  · simp only [demo5, List.map_cons, List.map_nil, NStp.noise]
    refine List.pairwise_cons.mpr ⟨?_, List.pairwise_singleton _ _⟩
    intro a ha
    rw [List.mem_singleton] at ha
    subst ha
    exact draw5_uncorr _ _ (by decide)

/-- The premises of C116 are met by three instances with independent standard Gaussian errors, of which the difference of the first and the third is measured,
and then the second alone: the calls are accepted whatever chance is, and afterwards no linear combination of the three errors has a larger mean
square than the reported covariances say. -/
example : ∃ (h' : (Fin 5 → ℝ) → Hdl) (C' : ℕ → ℕ → Mat) (m' : (Fin 5 → ℝ) → ℕ → Mat),
    (∀ ω, Runs FP.exact near pred dim h3 ((teamScript dim demo5 start5 ω).map (·, true)) (h' ω)) ∧
    (∀ ω, ∀ p ∈ ({1, 2, 3} : Finset ℕ), ∀ q ∈ ({1, 2, 3} : Finset ℕ), IsCov dim (h' ω) p q 0 (C' p q)) ∧
    (∀ ω, ∀ p ∈ ({1, 2, 3} : Finset ℕ), IsMean (h' ω) p 0 (m' ω p)) ∧ Covers gauss5 dim {1, 2, 3} C' fun p ω i => start5 p ω i - (m' ω p).e i 0 := by
  obtain ⟨h', hr⟩ := c116_accepts nearOk Hdl.Example.near_cov start5_ok valid5.1 valid5.2 ⟨fun _ _ => rfl, rfl, trivial⟩
  obtain ⟨C', m', h1, h2, h3⟩ := c116_groups_partial nearOk Hdl.Example.near_cov start5_ok valid5.1 (fun ω => (hr ω).1) (Finset.Subset.refl _) (fun ω => (hr ω).2)
  exact ⟨h', C', m', fun ω => (hr ω).1, h1, h2, h3⟩

/-- With joint observations that are not of whole groups this is false: after the two observations of C106 the covariances read cover no errors at all, whatever
the errors are. -/
theorem c116_pairs_fails : ∃ l h', Runs FP.exact near pred dim h3 l h' ∧ (∀ x ∈ l, x.2 = true) ∧ (∀ p, p = 1 ∨ p = 2 ∨ p = 3 → Newest h' p 0) ∧
    ∀ C : ℕ → ℕ → Mat, (∀ p ∈ ({1, 2, 3} : Finset ℕ), ∀ q ∈ ({1, 2, 3} : Finset ℕ), IsCov dim h' p q 0 (C p q)) →
      ∀ (Ω : Type) [MeasurableSpace Ω] (P : Measure Ω) (e : ℕ → RVec Ω), ¬ Covers P dim {1, 2, 3} C e := by
  obtain ⟨l, h', h1, h2, -, h4, h5⟩ := Hdl.TeamEx.c106_team_fails
  exact ⟨l, h', h1, h2, h4, fun C hC Ω _ P e hc => h5 C hC fun y => (integral_nonneg fun ω => sq_nonneg _).trans (hc.2 y)⟩

end Honest
end Ikf
