import Verif.Spec.Linear
import Verif.Props.Rename

/-!
# Estimates depend linearly on the measured values, covariances not at all (C131)
-/

namespace Ikf
open Mat

namespace Linear
open Hdl (Rel Newest Wf Fits run NearOk Ungated)
open Rename (Used)

section mixing
variable {l : ℝ} {A B : Mat} {n m k : ℕ}

theorem mix_shape (hA : A.Shape n m) : (mix l A B).Shape n m := ((hA.smul l)).add

theorem mix_e (hA : A.Shape n m) (hB : B.Shape n m) (i j : ℕ) : (mix l A B).e i j = l * A.e i j + (1 - l) * B.e i j := by
  unfold mix
  rw [add_e _ _ (by rw [smul_rows, smul_rows, hA.1, hB.1]) (by rw [smul_cols, smul_cols, hA.2, hB.2]), smul_e, smul_e]

theorem mix_mul (hA : A.Shape n m) (hB : B.Shape n m) (F : Mat) : F * mix l A B = mix l (F * A) (F * B) := by
  have hFA : (F * A).Shape F.rows m := ⟨rfl, hA.2⟩
  have hFB : (F * B).Shape F.rows m := ⟨rfl, hB.2⟩
  refine Mat.ext' rfl ?_ fun i j _ _ => ?_
  · rw [(mix_shape hFA).2]
    exact (mix_shape (l := l) (B := B) hA).2
  · rw [mix_e hFA hFB, mul_e, mul_e, mul_e, Finset.mul_sum, Finset.mul_sum, ← Finset.sum_add_distrib]
    refine Finset.sum_congr rfl fun k _ => ?_
    rw [mix_e hA hB]; ring

theorem mix_add {C D : Mat} (hA : A.Shape n m) (hB : B.Shape n m) (hC : C.Shape n m) (hD : D.Shape n m) : mix l A B + mix l C D = mix l (A + C) (B + D) := by
  have h1 := mix_shape (l := l) (B := B) hA
  have h2 := mix_shape (l := l) (B := D) hC
  refine Mat.ext' rfl rfl fun i j _ _ => ?_
  rw [add_e _ _ (by rw [h1.1, h2.1]) (by rw [h1.2, h2.2]), mix_e hA hB, mix_e hC hD, mix_e (hA.add) (hB.add),
    add_e _ _ (by rw [hA.1, hC.1]) (by rw [hA.2, hC.2]), add_e _ _ (by rw [hB.1, hD.1]) (by rw [hB.2, hD.2])]
  ring

theorem mix_sub {C D : Mat} (hA : A.Shape n m) (hB : B.Shape n m) (hC : C.Shape n m) (hD : D.Shape n m) : mix l A B - mix l C D = mix l (A - C) (B - D) := by
  have h1 := mix_shape (l := l) (B := B) hA
  have h2 := mix_shape (l := l) (B := D) hC
  refine Mat.ext' rfl rfl fun i j _ _ => ?_
  rw [sub_e _ _ (by rw [h1.1, h2.1]) (by rw [h1.2, h2.2]), mix_e hA hB, mix_e hC hD, mix_e (hA.sub) (hB.sub),
    sub_e _ _ (by rw [hA.1, hC.1]) (by rw [hA.2, hC.2]), sub_e _ _ (by rw [hB.1, hD.1]) (by rw [hB.2, hD.2])]
  ring

theorem mix_block (hA : A.Shape n m) (hB : B.Shape n m) (a b r c : ℕ) : (mix l A B).block a b r c = mix l (A.block a b r c) (B.block a b r c) := by
  have h1 : (A.block a b r c).Shape r c := ⟨rfl, rfl⟩
  have h2 : (B.block a b r c).Shape r c := ⟨rfl, rfl⟩
  refine Mat.ext' rfl rfl fun i j _ _ => ?_
  rw [mix_e h1 h2, block_e, block_e, block_e]
  split
  · rw [mix_e hA hB]
  · ring

end mixing

/-! ## The three centralised filters -/

section steps
variable {l : ℝ} {D : ℕ → Prop} {dim : ℕ → ℕ} {near : Mat → Mat} {a b c a' b' c' : Central}

/-- The same covariances, mixed means, for the instances in `D`. -/
structure Mix (l : ℝ) (dim : ℕ → ℕ) (D : ℕ → Prop) (a b c : Central) : Prop where
  tm : ∀ p, D p → b.tm p = a.tm p ∧ c.tm p = a.tm p
  fix : ∀ p, D p → b.fix p = a.fix p ∧ c.fix p = a.fix p
  mu : ∀ p, D p → c.mu p = mix l (a.mu p) (b.mu p)
  cov : ∀ p q, D p → D q → b.cov p q = a.cov p q ∧ c.cov p q = a.cov p q
  sa : ∀ p, D p → (a.mu p).Shape (dim p) 1
  sb : ∀ p, D p → (b.mu p).Shape (dim p) 1

/-- The means and covariances of the step, without the shapes. -/
structure Mix0 (l : ℝ) (D : ℕ → Prop) (a b c : Central) : Prop where
  tm : ∀ p, D p → b.tm p = a.tm p ∧ c.tm p = a.tm p
  fix : ∀ p, D p → b.fix p = a.fix p ∧ c.fix p = a.fix p
  mu : ∀ p, D p → c.mu p = mix l (a.mu p) (b.mu p)
  cov : ∀ p q, D p → D q → b.cov p q = a.cov p q ∧ c.cov p q = a.cov p q

theorem Mix.transform (hm : Mix l dim D a b c) (id : ℕ) (F m1 m2 P : Mat) (t : Int) (fx : Bool) :
    Mix0 l D (a.transform id F m1 P t fx) (b.transform id F m2 P t fx) (c.transform id F (mix l m1 m2) P t fx) := by
  refine ⟨fun p hp => ?_, fun p hp => ?_, fun p hp => ?_, fun p q hp hq => ?_⟩
  · simp only [Central.transform, (hm.tm p hp).1, (hm.tm p hp).2, and_self]
  · simp only [Central.transform, (hm.fix p hp).1, (hm.fix p hp).2, and_self]
  · simp only [Central.transform]
    split
    · rfl
    · exact hm.mu p hp
  · simp only [Central.transform, (hm.cov p q hp hq).1, (hm.cov p q hp hq).2, and_self]

theorem Mix.joint (hm : Mix l dim D a b c) {bs : List (ℕ × ℕ)} (hn : (bs.map (·.1)).Nodup) (hb : ∀ p ∈ bs, p.2 = dim p.1) {P dx1 dx2 : Mat} {n : ℕ}
    (h1 : dx1.Shape n 1) (h2 : dx2.Shape n 1) : Mix0 l D (a.joint bs P dx1) (b.joint bs P dx2) (c.joint bs P (mix l dx1 dx2)) := by
  classical
  refine ⟨hm.tm, hm.fix, fun p hp => ?_, fun p q hp hq => ?_⟩
  · show (if p ∈ bs.map (·.1) then c.mu p + (mix l dx1 dx2).block (off bs p) 0 ((bs.lookup p).getD 0) 1 else c.mu p) =
      mix l (if p ∈ bs.map (·.1) then a.mu p + dx1.block (off bs p) 0 ((bs.lookup p).getD 0) 1 else a.mu p)
        (if p ∈ bs.map (·.1) then b.mu p + dx2.block (off bs p) 0 ((bs.lookup p).getD 0) 1 else b.mu p)
    by_cases h : p ∈ bs.map (·.1)
    · obtain ⟨x, hx, rfl⟩ := List.mem_map.mp h
      rw [if_pos h, if_pos h, if_pos h, lookup_of_mem hn hx, Option.getD_some, hm.mu _ hp, mix_block h1 h2, hb x hx]
      exact mix_add (hm.sa _ hp) (hm.sb _ hp) ⟨rfl, rfl⟩ ⟨rfl, rfl⟩
    · rw [if_neg h, if_neg h, if_neg h, hm.mu p hp]
  · simp only [Central.joint, (hm.cov p q hp hq).1, (hm.cov p q hp hq).2, (hm.cov p p hp hp).1, (hm.cov p p hp hp).2, (hm.cov q q hq hq).1, (hm.cov q q hq hq).2, and_self]

theorem Mix.parts (hm : Mix l dim D a b c) {dH : SMap Mat} (hD : ∀ p ∈ dH.keys, D p) :
    participants dim b dH = participants dim a dH ∧ participants dim c dH = participants dim a dH := by
  unfold participants
  constructor
  · congr 1
    exact List.filter_congr fun p hp => by rw [(hm.fix p (hD p hp)).1]
  · congr 1
    exact List.filter_congr fun p hp => by rw [(hm.fix p (hD p hp)).2]

theorem side_unique {dH : SMap Mat} (hd : dH.Sorted) (hne : dH ≠ []) {H H' : Mat} (h : SideBySide dH H) (h' : SideBySide dH H') : H' = H := by
  obtain ⟨e, he⟩ := List.exists_mem_of_ne_nil dH hne
  refine Mat.ext' (by rw [← (h.2 e he).1, ← (h'.2 e he).1]) (by rw [h.1, h'.1]) fun i j hi hj => ?_
  rw [h'.1] at hj
  have hn : ((dH.map fun e => (e.1, e.2.cols)).map (·.1)).Nodup := by
    rw [List.map_map]
    exact Hdl.Sorted.nodup hd
  obtain ⟨p, hp, k, hk, rfl⟩ := off_cover hn hj
  obtain ⟨x, hx, rfl⟩ := List.mem_map.mp hp
  rw [(h.2 x hx).2 i k hk, (h'.2 x hx).2 i k hk]

theorem cov_unique {bs : List (ℕ × ℕ)} (hn : (bs.map (·.1)).Nodup) {c1 c2 : ℕ → ℕ → Mat} (hc : ∀ p ∈ bs, ∀ q ∈ bs, c2 p.1 q.1 = c1 p.1 q.1) {S S' : Mat}
    (h : StackedCov bs c1 S) (h' : StackedCov bs c2 S') : S' = S := by
  refine Mat.ext' (by rw [h.1.1, h'.1.1]) (by rw [h.1.2, h'.1.2]) fun i j hi hj => ?_
  rw [h'.1.1] at hi
  rw [h'.1.2] at hj
  obtain ⟨p, hp, k, hk, rfl⟩ := off_cover hn hi
  obtain ⟨q, hq, k', hk', rfl⟩ := off_cover hn hj
  rw [h.2 p hp q hq k hk k' hk', h'.2 p hp q hq k hk k' hk', hc p hp q hq]

theorem mean_mix {bs : List (ℕ × ℕ)} (hn : (bs.map (·.1)).Nodup) {m1 m2 m3 : ℕ → Mat} (hm : ∀ p ∈ bs, m3 p.1 = mix l (m1 p.1) (m2 p.1))
    (hs : ∀ p ∈ bs, (m1 p.1).Shape p.2 1 ∧ (m2 p.1).Shape p.2 1) {x1 x2 x3 : Mat}
    (h1 : StackedMean bs m1 x1) (h2 : StackedMean bs m2 x2) (h3 : StackedMean bs m3 x3) : x3 = mix l x1 x2 := by
  have s := mix_shape (l := l) (B := x2) h1.1
  refine Mat.ext' (by rw [h3.1.1, s.1]) (by rw [h3.1.2, s.2]) fun i j hi hj => ?_
  rw [h3.1.1] at hi
  rw [h3.1.2] at hj
  obtain ⟨p, hp, k, hk, rfl⟩ := off_cover hn hi
  have : j = 0 := by omega
  subst this
  rw [h3.2 p hp k hk, mix_e h1.1 h2.1, h1.2 p hp k hk, h2.2 p hp k hk, hm p hp, mix_e (hs p hp).1 (hs p hp).2]

/-- The correction is linear in the residual; nothing else depends on it. -/
theorem correction_mix {H R r1 r2 S : Mat} {n m : ℕ} (h1 : ObsShape H R r1 S n m) (h2 : r2.Shape m 1) {cfg : Cfg} {x1 x2 x3 : CorrRes}
    (e1 : correctionStep H R r1 S cfg = .ok x1) (e2 : correctionStep H R r2 S cfg = .ok x2) (e3 : correctionStep H R (mix l r1 r2) S cfg = .ok x3) :
    x2.Sapos = x1.Sapos ∧ x3.Sapos = x1.Sapos ∧ x3.dx = mix l x1.dx x2.dx ∧ x1.dx.Shape n 1 ∧ x2.dx.Shape n 1 := by
  have h2' : ObsShape H R r2 S n m := ⟨h1.H, h1.R, h2, h1.S⟩
  have h3' : ObsShape H R (mix l r1 r2) S n m := ⟨h1.H, h1.R, mix_shape h1.r, h1.S⟩
  rw [correctionStep_eq h1] at e1
  rw [correctionStep_eq h2'] at e2
  rw [correctionStep_eq h3'] at e3
  obtain ⟨_, -, e1⟩ := Hdl.bind_eq_ok e1
  obtain ⟨_, -, e2⟩ := Hdl.bind_eq_ok e2
  obtain ⟨_, -, e3⟩ := Hdl.bind_eq_ok e3
  cases Res.ok.inj e1
  cases Res.ok.inj e2
  cases Res.ok.inj e3
  have hK := gainM_shape h1 cfg.eps
  exact ⟨rfl, rfl, mix_mul h1.r h2 _, hK.mul h1.r, hK.mul h2⟩

open Rename (Sized Whole)

theorem spec_mix (hm : Mix l dim D a b c) {ev1 ev2 ev3 : Ev} (hx : Mixed l ev1 ev2 ev3) (hS : ∀ p, D p → (a.cov p p).Shape (dim p) (dim p))
    (hz1 : Sized dim a D ev1) (hz2 : Sized dim b D ev2)
    (hf1 : ∀ id H R z t cfg, (ev1 = .privKF id H R z t cfg ∨ ev1 = .privEKF id H R z t cfg) → H.cols = dim id ∧ R.Shape H.rows H.rows ∧ z.Shape H.rows 1)
    (hf2 : ∀ id H R z t cfg, (ev2 = .privKF id H R z t cfg ∨ ev2 = .privEKF id H R z t cfg) → z.Shape H.rows 1)
    (hs1 : SpecStep dim near a ev1 a') (hs2 : SpecStep dim near b ev2 b') (hs3 : SpecStep dim near c ev3 c') : Mix0 l D a' b' c' := by
  cases hx with
  | propKF id Phi Q ta tb =>
    have hz : D id := hz1
    cases hs1; cases hs2; cases hs3
    rw [hm.mu id hz, (hm.cov id id hz hz).1, (hm.cov id id hz hz).2, (hm.fix id hz).1, (hm.fix id hz).2, mix_mul (hm.sa id hz) (hm.sb id hz)]
    exact hm.transform id _ _ _ _ _ _
  | propEKF id ma mb Phi Q ta tb =>
    have hz : D id := hz1
    cases hs1; cases hs2; cases hs3
    rw [(hm.cov id id hz hz).1, (hm.cov id id hz hz).2, (hm.fix id hz).1, (hm.fix id hz).2]
    exact hm.transform id _ _ _ _ _ _
  | propBel id ba bb bc Phi ta tb h1 h2 h3 =>
    cases hs1; cases hs2; cases hs3
    rw [h1.1, h1.2, h2.1, h2.2, h3]
    exact hm.transform id _ _ _ _ _ _
  | privKF id H R za zb t cfg =>
    have hz : D id := hz1
    obtain ⟨hH, hR, hza⟩ := hf1 _ _ _ _ _ _ (Or.inl rfl)
    have hzb := hf2 _ _ _ _ _ _ (Or.inl rfl)
    cases hs1 with
    | privKF _ _ _ _ _ _ x1 e1 r1 =>
    cases hs2 with
    | privKF _ _ _ _ _ _ x2 e2 r2 =>
    cases hs3 with
    | privKF _ _ _ _ _ _ x3 e3 r3 =>
      have hHs : H.Shape H.rows (dim id) := ⟨rfl, hH⟩
      have s1 := hHs.mul (hm.sa id hz)
      have s2 := hHs.mul (hm.sb id hz)
      rw [(hm.cov id id hz hz).1] at e2
      rw [(hm.cov id id hz hz).2, hm.mu id hz, mix_mul (hm.sa id hz) (hm.sb id hz), mix_sub hza hzb s1 s2] at e3
      obtain ⟨g1, g2, g3, g4, g5⟩ := correction_mix ⟨hHs, hR, hza.sub, hS id hz⟩ hzb.sub e1 e2 e3
      rw [g1, g2, g3, (hm.cov id id hz hz).1, (hm.cov id id hz hz).2, hm.mu id hz, (hm.fix id hz).1, (hm.fix id hz).2, mix_add (hm.sa id hz) (hm.sb id hz) g4 g5]
      exact hm.transform id _ _ _ _ _ _
  | privEKF id H R za zb t cfg =>
    have hz : D id := hz1
    obtain ⟨hH, hR, hza⟩ := hf1 _ _ _ _ _ _ (Or.inr rfl)
    have hzb := hf2 _ _ _ _ _ _ (Or.inr rfl)
    cases hs1 with
    | privEKF _ _ _ _ _ _ x1 e1 r1 =>
    cases hs2 with
    | privEKF _ _ _ _ _ _ x2 e2 r2 =>
    cases hs3 with
    | privEKF _ _ _ _ _ _ x3 e3 r3 =>
      have hHs : H.Shape H.rows (dim id) := ⟨rfl, hH⟩
      rw [(hm.cov id id hz hz).1] at e2
      rw [(hm.cov id id hz hz).2] at e3
      obtain ⟨g1, g2, g3, g4, g5⟩ := correction_mix ⟨hHs, hR, hza, hS id hz⟩ hzb e1 e2 e3
      rw [g1, g2, g3, (hm.cov id id hz hz).1, (hm.cov id id hz hz).2, hm.mu id hz, (hm.fix id hz).1, (hm.fix id hz).2, mix_add (hm.sa id hz) (hm.sb id hz) g4 g5]
      exact hm.transform id _ _ _ _ _ _
  | setCov x y S t =>
    cases hs1; cases hs2; cases hs3
    refine ⟨hm.tm, hm.fix, hm.mu, fun p q hp hq => ?_⟩
    simp only [Central.setCov, (hm.cov p q hp hq).1, (hm.cov p q hp hq).2, and_self]
  | jointR dH R ra rb t cfg =>
    obtain ⟨m, hw, hR, hra⟩ := hz1
    obtain ⟨m', hw', hR', hrb⟩ := hz2
    have hmm : m' = m := by rw [← hR.1, ← hR'.1]
    subst hmm
    obtain ⟨p1, p2⟩ := hm.parts hw.known
    cases hs1 with
    | jointR _ _ _ _ _ H1 S1 x1 hH1 hS1 e1 r1 =>
    cases hs2 with
    | jointR _ _ _ _ _ H2 S2 x2 hH2 hS2 e2 r2 =>
    cases hs3 with
    | jointR _ _ _ _ _ H3 S3 x3 hH3 hS3 e3 r3 =>
      have hn := Rename.keys_nodup (dim := dim) (c := a) hw.sorted
      have hin : ∀ p ∈ participants dim a dH, D p.1 ∧ p.2 = dim p.1 := by
        intro p hp
        unfold participants at hp
        obtain ⟨q, hq, rfl⟩ := List.mem_map.mp hp
        exact ⟨hw.known q (List.mem_filter.mp hq).1, rfl⟩
      rw [p1] at hS2 ⊢
      rw [p2] at hS3 ⊢
      cases side_unique hw.sorted hw.ne hH1 hH2
      cases side_unique hw.sorted hw.ne hH1 hH3
      cases cov_unique hn (fun p hp q hq => (hm.cov _ _ (hin p hp).1 (hin q hq).1).1) hS1 hS2
      cases cov_unique hn (fun p hp q hq => (hm.cov _ _ (hin p hp).1 (hin q hq).1).2) hS1 hS3
      have hHs : H1.Shape m' (tot (participants dim a dH)) := ⟨Rename.side_rows hw.ne (fun x hx => (hw.shape x hx).1) hH1, by rw [hw.cols]; exact hH1.1⟩
      obtain ⟨g1, g2, g3, g4, g5⟩ := correction_mix ⟨hHs, hR, hra, hS1.1.stabM _⟩ hrb e1 e2 e3
      rw [g1, g2, g3]
      exact hm.joint hn (fun p hp => (hin p hp).2) g4 g5
  | jointZ dH za zb R t cfg =>
    obtain ⟨m, hw, hR, hra⟩ := hz1
    obtain ⟨m', hw', hR', hrb⟩ := hz2
    have hmm : m' = m := by rw [← hR.1, ← hR'.1]
    subst hmm
    obtain ⟨p1, p2⟩ := hm.parts hw.known
    cases hs1 with
    | jointZ _ _ _ _ _ H1 S1 y1 x1 hH1 hS1 hy1 e1 r1 =>
    cases hs2 with
    | jointZ _ _ _ _ _ H2 S2 y2 x2 hH2 hS2 hy2 e2 r2 =>
    cases hs3 with
    | jointZ _ _ _ _ _ H3 S3 y3 x3 hH3 hS3 hy3 e3 r3 =>
      have hn := Rename.keys_nodup (dim := dim) (c := a) hw.sorted
      have hin : ∀ p ∈ participants dim a dH, D p.1 ∧ p.2 = dim p.1 := by
        intro p hp
        unfold participants at hp
        obtain ⟨q, hq, rfl⟩ := List.mem_map.mp hp
        exact ⟨hw.known q (List.mem_filter.mp hq).1, rfl⟩
      rw [p1] at hS2 hy2 ⊢
      rw [p2] at hS3 hy3 ⊢
      cases side_unique hw.sorted hw.ne hH1 hH2
      cases side_unique hw.sorted hw.ne hH1 hH3
      cases cov_unique hn (fun p hp q hq => (hm.cov _ _ (hin p hp).1 (hin q hq).1).1) hS1 hS2
      cases cov_unique hn (fun p hp q hq => (hm.cov _ _ (hin p hp).1 (hin q hq).1).2) hS1 hS3
      have hHs : H1.Shape m' (tot (participants dim a dH)) := ⟨Rename.side_rows hw.ne (fun x hx => (hw.shape x hx).1) hH1, by rw [hw.cols]; exact hH1.1⟩
      cases mean_mix (l := l) hn (fun p hp => hm.mu _ (hin p hp).1) (fun p hp => by rw [(hin p hp).2]; exact ⟨hm.sa _ (hin p hp).1, hm.sb _ (hin p hp).1⟩) hy1 hy2 hy3
      rw [mix_mul hy1.1 hy2.1, mix_sub hra hrb (hHs.mul hy1.1) (hHs.mul hy2.1)] at e3
      obtain ⟨g1, g2, g3, g4, g5⟩ := correction_mix ⟨hHs, hR, hra.sub, hS1.1.stabM _⟩ hrb.sub e1 e2 e3
      rw [g1, g2, g3]
      exact hm.joint hn (fun p hp => (hin p hp).2) g4 g5

end steps

/-! ## The three handlers -/

section handlers
variable {l : ℝ} {fp : FP} {near : Mat → Mat} {pred : ℕ → Inst → Int → Inst × Bool} {dim : ℕ → ℕ} {h1 h2 h3 k1 k2 k3 : Hdl} {a b c : Central}

/-- The invariant. -/
structure Trio (l : ℝ) (dim : ℕ → ℕ) (h1 h2 h3 : Hdl) (a b c : Central) : Prop where
  rel1 : Rel dim h1 a
  rel2 : Rel dim h2 b
  rel3 : Rel dim h3 c
  dom : ∀ p, (h2.find p).isSome = (h1.find p).isSome ∧ (h3.find p).isSome = (h1.find p).isSome
  mix : Mix l dim (fun p => (h1.find p).isSome) a b c

theorem sized {h : Hdl} {c : Central} (hr : Rel dim h c) {ev : Ev} (hw : Wf dim h ev) (hf : Fits dim h ev) : Rename.Sized dim c (fun p => (h.find p).isSome) ev :=
  Rename.Both.sized (σ := fun p => p) (dim' := dim) (h' := h) (c' := c)
    ⟨hr, hr, fun _ h => h, ⟨fun _ _ => rfl, fun _ _ => rfl, fun _ _ => rfl, fun _ _ _ _ => rfl⟩⟩ hw hf

theorem priv_fits {h : Hdl} {ev : Ev} (hf : Fits dim h ev) (id : ℕ) (H R z : Mat) (t : Int) (cfg : Cfg)
    (he : ev = .privKF id H R z t cfg ∨ ev = .privEKF id H R z t cfg) : H.cols = dim id ∧ R.Shape H.rows H.rows ∧ z.Shape H.rows 1 := by
  rcases he with rfl | rfl
  · exact ⟨hf.1, hf.2.1, hf.2.2.1⟩
  · exact ⟨hf.1, hf.2.1, hf.2.2.1⟩

theorem Trio.newest (ht : Trio l dim h1 h2 h3 a b c) {p : ℕ} {t : Int} (hp : Newest h1 p t) : Newest h2 p t ∧ Newest h3 p t := by
  obtain ⟨g1, g2⟩ := hp.rel ht.rel1
  exact ⟨Newest.of_rel ht.rel2 (by rw [(ht.dom p).1]; exact g1) (by rw [(ht.mix.tm p g1).1, g2]),
    Newest.of_rel ht.rel3 (by rw [(ht.dom p).2]; exact g1) (by rw [(ht.mix.tm p g1).2, g2])⟩

/-- One accepted call. -/
theorem Trio.step (hnear : NearOk near) (ht : Trio l dim h1 h2 h3 a b c) {ev1 ev2 ev3 : Ev} (hx : Mixed l ev1 ev2 ev3) {r : Bool}
    (w1 : Wf dim h1 ev1) (f1 : Fits dim h1 ev1) (s1 : run fp near pred h1 ev1 = .ok (k1, r))
    (w2 : Wf dim h2 ev2) (f2 : Fits dim h2 ev2) (s2 : run fp near pred h2 ev2 = .ok (k2, r))
    (w3 : Wf dim h3 ev3) (s3 : run fp near pred h3 ev3 = .ok (k3, r)) : ∃ a' b' c', Trio l dim k1 k2 k3 a' b' c' := by
  cases r with
  | false =>
    rw [Hdl.rejected ht.rel1 ev1 w1 s1, Hdl.rejected ht.rel2 ev2 w2 s2, Hdl.rejected ht.rel3 ev3 w3 s3]
    exact ⟨a, b, c, ht⟩
  | true =>
    obtain ⟨a', g1, r1⟩ := Hdl.accepted hnear ht.rel1 ev1 w1 s1
    obtain ⟨b', g2, r2⟩ := Hdl.accepted hnear ht.rel2 ev2 w2 s2
    obtain ⟨c', g3, r3⟩ := Hdl.accepted hnear ht.rel3 ev3 w3 s3
    have d1 := Hdl.step_dom ht.rel1 ev1 w1 s1
    have d2 := Hdl.step_dom ht.rel2 ev2 w2 s2
    have d3 := Hdl.step_dom ht.rel3 ev3 w3 s3
    have z2 := sized ht.rel2 w2 f2
    simp only [(ht.dom _).1] at z2
    have hm := spec_mix ht.mix hx (fun p hp => ht.rel1.covS p p hp hp) (sized ht.rel1 w1 f1) z2 (fun id H R z t cfg he => priv_fits f1 id H R z t cfg he)
      (fun id H R z t cfg he => (priv_fits f2 id H R z t cfg he).2.2) g1 g2 g3
    refine ⟨a', b', c', r1, r2, r3, fun p => by rw [d1, d2, d3]; exact ht.dom p, ?_⟩
    have e : (fun p => ((k1.find p).isSome : Prop)) = fun p => ((h1.find p).isSome : Prop) := by funext p; rw [d1]
    rw [e]
    refine ⟨hm.tm, hm.fix, hm.mu, hm.cov, fun p hp => r1.muS p (by rw [d1]; exact hp), fun p hp => r2.muS p (by rw [d2, (ht.dom p).1]; exact hp)⟩

theorem Trio.read (ht : Trio l dim h1 h2 h3 a b c) : MixedEstimates l dim h1 h2 h3 := by
  refine ⟨fun p t hp => ?_, fun p q t hp hq => ?_⟩
  · obtain ⟨g1, g2⟩ := hp.rel ht.rel1
    obtain ⟨n2, n3⟩ := ht.newest hp
    obtain ⟨b1, e1, m1, v1, -, x1⟩ := ht.rel1.bel p g1
    obtain ⟨b2, e2, m2, v2, -, x2⟩ := ht.rel2.bel p (n2.rel ht.rel2).1
    obtain ⟨b3, e3, m3, v3, -, x3⟩ := ht.rel3.bel p (n3.rel ht.rel3).1
    rw [g2] at e1
    rw [(n2.rel ht.rel2).2] at e2
    rw [(n3.rel ht.rel3).2] at e3
    refine ⟨n2, n3, b1, b2, b3, e1, e2, e3, by rw [m1, m2, m3, ht.mix.mu p g1], ⟨?_, ?_⟩, ?_, ?_⟩
    · rw [v1, v2, (ht.mix.cov p p g1 g1).1]
    · rw [v1, v3, (ht.mix.cov p p g1 g1).2]
    · rw [x1, x2, (ht.mix.fix p g1).1]
    · rw [x1, x3, (ht.mix.fix p g1).2]
  · obtain ⟨g1, -⟩ := hp.rel ht.rel1
    obtain ⟨g2, -⟩ := hq.rel ht.rel1
    obtain ⟨n2, n3⟩ := ht.newest hp
    obtain ⟨o2, o3⟩ := ht.newest hq
    refine ⟨a.cov p q, ht.rel1.isCov hp hq, ?_, ?_⟩
    · rw [← (ht.mix.cov p q g1 g2).1]; exact ht.rel2.isCov n2 o2
    · rw [← (ht.mix.cov p q g1 g2).2]; exact ht.rel3.isCov n3 o3

/-- The third call is in order and fits, if the others do. -/
theorem Trio.wf (ht : Trio l dim h1 h2 h3 a b c) {ev1 ev2 ev3 : Ev} (hx : Mixed l ev1 ev2 ev3)
    (w1 : Wf dim h1 ev1) (f1 : Fits dim h1 ev1) : Wf dim h3 ev3 ∧ Fits dim h3 ev3 := by
  have fx : ∀ p t, Newest h1 p t → Hdl.fixedAt h3 t p = Hdl.fixedAt h1 t p := by
    intro p t hp
    rw [Rename.fixedAt_eq ht.rel1 hp, Rename.fixedAt_eq ht.rel3 (ht.newest hp).2, (ht.mix.fix p (hp.rel ht.rel1).1).2]
  cases hx with
  | propKF id Phi Q ta tb => exact ⟨⟨(ht.newest w1.1).2, w1.2⟩, f1⟩
  | propEKF id ma mb Phi Q ta tb => exact ⟨⟨(ht.newest w1.1).2, w1.2⟩, f1.1, f1.2.1, mix_shape f1.2.2⟩
  | propBel id ba bb bc Phi ta tb e1 e2 e3 =>
    obtain ⟨g1, g2, g3, g4, g5⟩ := w1
    have sh := mix_shape (l := l) (B := bb.mean) g5
    exact ⟨⟨(ht.newest g1).2, g2, by rw [e2.1]; exact g3, by rw [e2.1]; exact g4, by rw [e3]; exact sh.1, by rw [e3]; exact sh.2⟩, f1⟩
  | privKF id H R za zb t cfg => exact ⟨(ht.newest w1).2, f1.1, f1.2.1, mix_shape f1.2.2.1, f1.2.2.2⟩
  | privEKF id H R za zb t cfg => exact ⟨(ht.newest w1).2, f1.1, f1.2.1, mix_shape f1.2.2.1, f1.2.2.2⟩
  | setCov x y S t =>
    obtain ⟨g1, g2, g3, g4⟩ := w1
    exact ⟨⟨g1, (ht.newest g2).2, (ht.newest g3).2, g4⟩, trivial⟩
  | jointR dH R ra rb t cfg =>
    obtain ⟨g1, ⟨m, g2, g3, g4⟩, g5⟩ := f1
    exact ⟨⟨w1.1, fun p hp => (ht.newest (w1.2 p hp)).2⟩, g1, ⟨m, fun e he => ⟨(g2 e he).1, by
      rw [fx _ _ (w1.2 e.1 (List.mem_map.mpr ⟨e, he, rfl⟩))]; exact (g2 e he).2⟩, g3, mix_shape g4⟩, g5⟩
  | jointZ dH za zb R t cfg =>
    obtain ⟨g1, ⟨m, g2, g3, g4⟩, g5⟩ := f1
    exact ⟨⟨w1.1, fun p hp => (ht.newest (w1.2 p hp)).2⟩, g1, ⟨m, fun e he => ⟨(g2 e he).1, by
      rw [fx _ _ (w1.2 e.1 (List.mem_map.mpr ⟨e, he, rfl⟩))]; exact (g2 e he).2⟩, g3, mix_shape g4⟩, g5⟩

theorem trio_init (i1 : Hdl.Init dim h1 a) (i2 : Hdl.Init dim h2 b) (i3 : Hdl.Init dim h3 c)
    (dom : ∀ p, (h2.find p).isSome = (h1.find p).isSome ∧ (h3.find p).isSome = (h1.find p).isSome) (hm : MixedEstimates l dim h1 h2 h3) : Trio l dim h1 h2 h3 a b c := by
  have key : ∀ p, (h1.find p).isSome → (b.tm p = a.tm p ∧ c.tm p = a.tm p) ∧ (b.fix p = a.fix p ∧ c.fix p = a.fix p) ∧ c.mu p = Linear.mix l (a.mu p) (b.mu p) ∧
      (b.cov p p = a.cov p p ∧ c.cov p p = a.cov p p) := by
    intro p hp
    have hN := Newest.of_rel i1.rel hp rfl
    obtain ⟨n2, n3, b1, b2, b3, e1, e2, e3, m, v, x⟩ := hm.belief p _ hN
    obtain ⟨o2, t2⟩ := n2.rel i2.rel
    obtain ⟨o3, t3⟩ := n3.rel i3.rel
    obtain ⟨d1, y1, y1m, y1v, -, y1x⟩ := i1.rel.bel p hp
    obtain ⟨d2, y2, y2m, y2v, -, y2x⟩ := i2.rel.bel p o2
    obtain ⟨d3, y3, y3m, y3v, -, y3x⟩ := i3.rel.bel p o3
    rw [t2] at y2
    rw [t3] at y3
    cases Option.some.inj (e1.symm.trans y1)
    cases Option.some.inj (e2.symm.trans y2)
    cases Option.some.inj (e3.symm.trans y3)
    rw [← y1m, ← y1v, ← y1x, ← y2m, ← y2v, ← y2x, ← y3m, ← y3v, ← y3x]
    exact ⟨⟨t2, t3⟩, x, m, v⟩
  refine ⟨i1.rel, i2.rel, i3.rel, dom, fun p hp => (key p hp).1, fun p hp => (key p hp).2.1, fun p hp => (key p hp).2.2.1, fun p q hp hq => ?_,
    fun p hp => i1.rel.muS p hp, fun p hp => i2.rel.muS p (by rw [(dom p).1]; exact hp)⟩
  by_cases hpq : p = q
  · subst hpq; exact (key p hp).2.2.2
  · rw [i1.uncorrelated p q hpq, i2.uncorrelated p q hpq, i3.uncorrelated p q hpq]; exact ⟨rfl, rfl⟩

/-- C131. Three handlers with freshly initialised instances of the same IDs, times and covariances, where the means of the third are
the weighted means `l m1 + (1 - l) m2` of those of the others, are used alike, with measured values that are weighted means, too. If
all three give the same answers, the estimates of the third are the weighted means of those of the others, and covariances and
cross-covariances are the same in all three. -/
theorem c131_linear (hnear : NearOk near) (l : ℝ) (dim : ℕ → ℕ) (i1 : ∃ a, Hdl.Init dim h1 a) (i2 : ∃ b, Hdl.Init dim h2 b) (i3 : ∃ c, Hdl.Init dim h3 c)
    (dom : ∀ p, (h2.find p).isSome = (h1.find p).isSome ∧ (h3.find p).isSome = (h1.find p).isSome) (hm : MixedEstimates l dim h1 h2 h3)
    (evs1 evs2 evs3 : List Ev) (hx : MixedAll l evs1 evs2 evs3) (as : List Bool)
    (u1 : Used fp near pred dim h1 evs1 as k1) (u2 : Used fp near pred dim h2 evs2 as k2) (u3 : Used fp near pred dim h3 evs3 as k3) :
    MixedEstimates l dim k1 k2 k3 := by
  obtain ⟨a, i1⟩ := i1
  obtain ⟨b, i2⟩ := i2
  obtain ⟨c, i3⟩ := i3
  have ht := trio_init i1 i2 i3 dom hm
  clear i1 i2 i3 dom hm
  induction u1 generalizing h2 h3 a b c evs2 evs3 with
  | nil h =>
    cases hx
    cases u2; cases u3
    exact ht.read
  | step w1 f1 s1 r1 ih =>
    cases hx with
    | cons e rest =>
      cases u2 with
      | step w2 f2 s2 r2 =>
        cases u3 with
        | step w3 f3 s3 r3 =>
          obtain ⟨a', b', c', ht'⟩ := ht.step hnear e w1 f1 s1 w2 f2 s2 w3 s3
          exact ih _ _ rest r2 r3 a' b' c' ht'

/-- C131. With the outlier test off, the third handler can always be used, and it gives the same answers: all calls are accepted. -/
theorem c131_accepted (hnear : NearOk near) (l : ℝ) (dim : ℕ → ℕ) (i1 : ∃ a, Hdl.Init dim h1 a) (i2 : ∃ b, Hdl.Init dim h2 b) (i3 : ∃ c, Hdl.Init dim h3 c)
    (dom : ∀ p, (h2.find p).isSome = (h1.find p).isSome ∧ (h3.find p).isSome = (h1.find p).isSome) (hm : MixedEstimates l dim h1 h2 h3)
    (evs1 evs2 evs3 : List Ev) (hx : MixedAll l evs1 evs2 evs3) (hg : ∀ ev ∈ evs1, Ungated ev) (as bs : List Bool)
    (u1 : Used fp near pred dim h1 evs1 as k1) (u2 : Used fp near pred dim h2 evs2 bs k2) :
    bs = as ∧ (∀ x ∈ as, x = true) ∧ ∃ k3, Used fp near pred dim h3 evs3 as k3 ∧ MixedEstimates l dim k1 k2 k3 := by
  obtain ⟨a, i1⟩ := i1
  obtain ⟨b, i2⟩ := i2
  obtain ⟨c, i3⟩ := i3
  have ht := trio_init i1 i2 i3 dom hm
  clear i1 i2 i3 dom hm
  induction u1 generalizing h2 h3 a b c evs2 evs3 bs with
  | nil h =>
    cases hx
    cases u2
    exact ⟨rfl, by simp, h3, Used.nil h3, ht.read⟩
  | @step _ _ _ ev1 _ _ _ w1 f1 s1 r1 ih =>
    cases hx with
    | @cons _ ev2 ev3 _ _ _ e rest =>
      cases u2 with
      | step w2 f2 s2 r2 =>
        obtain ⟨w3, f3⟩ := ht.wf e w1 f1
        have g1 := hg ev1 List.mem_cons_self
        have g2 : Ungated ev2 := by cases e <;> first | trivial | exact g1
        have g3 : Ungated ev3 := by cases e <;> first | trivial | exact g1
        obtain ⟨_, x1, y1, z1⟩ := Hdl.progress_rel (fp := fp) (pred := pred) hnear ht.rel1 ev1 w1 f1
        obtain ⟨_, x2, y2, z2⟩ := Hdl.progress_rel (fp := fp) (pred := pred) hnear ht.rel2 ev2 w2 f2
        obtain ⟨k, x3, s3, z3⟩ := Hdl.progress_rel (fp := fp) (pred := pred) hnear ht.rel3 ev3 w3 f3
        rw [z1 g1] at y1
        rw [z2 g2] at y2
        rw [z3 g3] at s3
        have q1 := (Prod.mk.inj (Res.ok.inj (s1.symm.trans y1))).2
        have q2 := (Prod.mk.inj (Res.ok.inj (s2.symm.trans y2))).2
        subst q1 q2
        obtain ⟨a', b', c', ht'⟩ := ht.step hnear e w1 f1 s1 w2 f2 s2 w3 s3
        obtain ⟨j1, j2, k3, u3, j3⟩ := ih _ _ rest (fun ev hev => hg ev (List.mem_cons_of_mem _ hev)) _ r2 a' b' c' ht'
        exact ⟨by rw [j1], by simpa using j2, k3, Used.step w3 f3 s3 u3, j3⟩

end handlers

/-! ## Example: two instances, a joint and a private observation -/

namespace Example
open Hdl.Example (s s_shape s_tr near nearOk pred cfg gate)
open Rename.Example (dim cen init_of dA)

theorem mix_s (l x y : ℝ) : mix l (s x) (s y) = s (l * x + (1 - l) * y) := by
  have h := mix_shape (l := l) (B := s y) (s_shape x)
  refine Mat.ext' (by rw [h.1]; rfl) (by rw [h.2]; rfl) fun i j hi hj => ?_
  rw [h.1] at hi
  rw [h.2] at hj
  obtain rfl : i = 0 := by omega
  obtain rfl : j = 0 := by omega
  rw [mix_e (s_shape x) (s_shape y)]
  rfl

noncomputable def bel (m v : ℝ) : Belief := { mean := s m, Sigma := s v, stamp := 0 }
noncomputable def hdl (m1 m2 : ℝ) : Hdl := [(1, Inst.doInit ⟨[], [], 10⟩ (bel m1 2) 0), (2, Inst.doInit ⟨[], [], 10⟩ (bel m2 7) 0)]

theorem init (m1 m2 : ℝ) : Hdl.Init dim (hdl m1 m2) (cen (bel m1 2) (bel m2 7)) := init_of ⟨rfl, s_shape _, rfl, s_tr _⟩ ⟨rfl, s_shape _, rfl, s_tr _⟩

theorem newest {m1 m2 : ℝ} {p : ℕ} (hp : p = 1 ∨ p = 2) : Newest (hdl m1 m2) p 0 := by
  rcases hp with rfl | rfl
  · exact ⟨_, (0, bel m1 2), by simp [hdl, SMap.find]; rfl, rfl, rfl⟩
  · exact ⟨_, (0, bel m2 7), by simp [hdl, SMap.find]; rfl, rfl, rfl⟩

theorem known {m1 m2 : ℝ} {p : ℕ} (h : ((hdl m1 m2).find p).isSome) : p = 1 ∨ p = 2 := by
  simp only [hdl, SMap.find] at h
  split at h
  · left; omega
  · split at h
    · right; omega
    · simp at h

noncomputable def calls (r z : ℝ) : List Ev := [.jointR dA (s 1) (s r) 0 cfg, .privKF 2 (s 3) (s 1) (s z) 0 cfg]

theorem used (m1 m2 r z : ℝ) : ∃ k as, Used FP.exact near pred dim (hdl m1 m2) (calls r z) as k := by
  have hk : ∀ p ∈ dA.keys, p = 1 ∨ p = 2 := by intro p hp; simpa [dA, SMap.keys] using hp
  have hw : Wf dim (hdl m1 m2) (.jointR dA (s 1) (s r) 0 cfg) := ⟨by simp [dA, SMap.Sorted], fun p hp => newest (hk p hp)⟩
  have hf : Fits dim (hdl m1 m2) (.jointR dA (s 1) (s r) 0 cfg) := by
    refine ⟨by simp [dA], ⟨1, fun e he => ?_, s_shape 1, s_shape r⟩, gate⟩
    have he' : e = (1, s 1) ∨ e = (2, s (-2)) := by simpa [dA] using he
    rcases he' with rfl | rfl
    · exact ⟨s_shape 1, rfl⟩
    · exact ⟨s_shape (-2), rfl⟩
  have hi := (init m1 m2).rel
  obtain ⟨h1, a, e1, ha⟩ := Hdl.progress_rel (fp := FP.exact) (pred := pred) nearOk hi _ hw hf
  obtain rfl := ha rfl
  obtain ⟨c1, s1, r1⟩ := Hdl.accepted nearOk hi _ hw e1
  have hd := Hdl.step_dom hi _ hw e1
  have htm : c1.tm 2 = 0 := by
    cases s1
    rfl
  have hw2 : Wf dim h1 (.privKF 2 (s 3) (s 1) (s z) 0 cfg) := Newest.of_rel r1 (by rw [hd]; simp [hdl, SMap.find]) htm
  have hf2 : Fits dim h1 (.privKF 2 (s 3) (s 1) (s z) 0 cfg) := ⟨rfl, s_shape 1, s_shape z, gate⟩
  obtain ⟨h2, a2, e2, ha2⟩ := Hdl.progress_rel (fp := FP.exact) (pred := pred) nearOk r1 _ hw2 hf2
  exact ⟨h2, _, Used.step hw hf e1 (Used.step hw2 hf2 e2 (Used.nil h2))⟩

theorem start (l m1 m2 n1 n2 : ℝ) : MixedEstimates l dim (hdl m1 m2) (hdl n1 n2) (hdl (l * m1 + (1 - l) * n1) (l * m2 + (1 - l) * n2)) := by
  refine ⟨fun p t hp => ?_, fun p q t hp hq => ?_⟩
  · obtain ⟨g1, g2⟩ := hp.rel (init m1 m2).rel
    obtain rfl : (0 : ℤ) = t := g2
    have hk := known g1
    refine ⟨newest hk, newest hk, ?_⟩
    rcases hk with rfl | rfl
    · exact ⟨bel m1 2, bel n1 2, bel _ 2, rfl, rfl, rfl, (mix_s l m1 n1).symm, ⟨rfl, rfl⟩, rfl, rfl⟩
    · exact ⟨bel m2 7, bel n2 7, bel _ 7, rfl, rfl, rfl, (mix_s l m2 n2).symm, ⟨rfl, rfl⟩, rfl, rfl⟩
  · obtain ⟨g1, g2⟩ := hp.rel (init m1 m2).rel
    obtain ⟨g1', -⟩ := hq.rel (init m1 m2).rel
    obtain rfl : (0 : ℤ) = t := g2
    have hk := known g1
    have hk' := known g1'
    exact ⟨_, (init m1 m2).rel.isCov hp hq, (init n1 n2).rel.isCov (newest hk) (newest hk'), (init _ _).rel.isCov (newest hk) (newest hk')⟩

theorem dom (m1 m2 n1 n2 : ℝ) (p : ℕ) : ((hdl m1 m2).find p).isSome = ((hdl n1 n2).find p).isSome := by
  simp only [hdl, SMap.find]
  split
  · rfl
  · split <;> rfl

/-- Two runs with different initial means and measured values, and the one whose values are at one third between them. -/
example : ∃ k1 k2 k3, Used FP.exact near pred dim (hdl 3 5) (calls 1 2) [true, true] k1 ∧ Used FP.exact near pred dim (hdl 9 (-1)) (calls 4 8) [true, true] k2 ∧
    Used FP.exact near pred dim (hdl 7 1) (calls 3 6) [true, true] k3 ∧ MixedEstimates (1 / 3) dim k1 k2 k3 := by
  obtain ⟨k1, as, u1⟩ := used 3 5 1 2
  obtain ⟨k2, bs, u2⟩ := used 9 (-1) 4 8
  have st := start (1 / 3) 3 5 9 (-1)
  norm_num at st
  have hx : MixedAll (1 / 3) (calls 1 2) (calls 4 8) (calls 3 6) := by
    have e1 := Mixed.jointR (l := 1 / 3) dA (s 1) (s 1) (s 4) 0 cfg
    have e2 := Mixed.privKF (l := 1 / 3) 2 (s 3) (s 1) (s 2) (s 8) 0 cfg
    rw [mix_s] at e1 e2
    norm_num at e1 e2
    have := MixedAll.cons e1 (MixedAll.cons e2 MixedAll.nil)
    norm_num [calls] at this ⊢
    exact this
  obtain ⟨e, ht, k3, u3, hm⟩ := c131_accepted nearOk (1 / 3) dim ⟨_, init 3 5⟩ ⟨_, init 9 (-1)⟩ ⟨_, init 7 1⟩ (fun p => ⟨dom _ _ _ _ p, dom _ _ _ _ p⟩)
    (by norm_num; exact st) _ _ _ hx (by intro ev hev; simp [calls] at hev; rcases hev with rfl | rfl <;> rfl) _ _ u1 u2
  subst e
  have : bs = [true, true] := by
    cases u1 with
    | step _ _ _ r =>
      cases r with
      | step _ _ _ r =>
        cases r
        have h1 := ht _ List.mem_cons_self
        have h2 := ht _ (List.mem_cons_of_mem _ List.mem_cons_self)
        rw [h1, h2]
  subst this
  exact ⟨k1, k2, k3, u1, u2, u3, hm⟩

end Example
end Linear
end Ikf
