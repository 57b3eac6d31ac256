import Verif.Props.SimpleCmdClock

/-!
# The first step of `ikf_simple_cmd` never throws (C107)
-/

namespace Ikf
open Mat
namespace SimpleCmd

section
variable {g1 g2 g3 : ℕ → ℕ → ℝ} {fp : FP} {o : Opts} {d : Draws} {n : ℕ} {evs : List StdEv} {T : ℕ → Int} {done : ℕ → ℕ → Prop} {s : St} {c c' : Central}

/-- No correlation. -/
def Zero (M : Mat) : Prop := ∀ a b, M.e a b = 0

theorem Zero.mulLeft {M : Mat} (h : Zero M) (F : Mat) : Zero (F * M) := by
  intro a b
  rw [mul_e]
  exact Finset.sum_eq_zero fun k _ => by rw [h]; ring

theorem Zero.mulRight {M : Mat} (h : Zero M) (F : Mat) : Zero (M * F) := by
  intro a b
  rw [mul_e]
  exact Finset.sum_eq_zero fun k _ => by rw [h]; ring

theorem zero_transform {id : ℕ} {F m P : Mat} {t : Int} {fx : Bool} {p q : ℕ} (hpq : p ≠ q) (h : Zero (c.cov p q)) :
    Zero ((c.transform id F m P t fx).cov p q) := by
  simp only [Central.transform]
  rw [if_neg (by rintro ⟨rfl, rfl⟩; exact hpq rfl)]
  split
  · exact h.mulLeft F
  · split
    · exact h.mulRight F.tr
    · exact h

theorem zero_joint {bs : List (ℕ × ℕ)} {P dx : Mat} {p q : ℕ} (hn : ¬ (p ∈ bs.map (·.1) ∧ q ∈ bs.map (·.1))) (h : Zero (c.cov p q)) :
    Zero ((c.joint bs P dx).cov p q) := by
  simp only [Central.joint]
  rw [if_neg hn]
  split
  · exact h.mulLeft _
  · split
    · exact h.mulRight _
    · exact h

/-- The covariance of the stack of two filters is positive semidefinite. -/
def PairPsd (c : Central) (p q : ℕ) : Prop := ∀ S, StackedCov [(p, 2), (q, 2)] c.cov S → (S.toM 4 4).PosSemidef

/-- Entries of the stack. -/
theorem stacked_e {p q : ℕ} (hpq : p ≠ q) {S : Mat} (hS : StackedCov [(p, 2), (q, 2)] c.cov S) {i j : ℕ} (hi : i < 2) (hj : j < 2) :
    S.e i j = (c.cov p p).e i j ∧ S.e i (2 + j) = (c.cov p q).e i j ∧ S.e (2 + i) j = (c.cov q p).e i j ∧ S.e (2 + i) (2 + j) = (c.cov q q).e i j := by
  have o1 : off [(p, 2), (q, 2)] p = 0 := by simp [off]
  have o2 : off [(p, 2), (q, 2)] q = 2 := by simp [off, hpq]
  have a := hS.2 (p, 2) (by simp) (p, 2) (by simp) i hi j hj
  have b := hS.2 (p, 2) (by simp) (q, 2) (by simp) i hi j hj
  have e := hS.2 (q, 2) (by simp) (p, 2) (by simp) i hi j hj
  have f := hS.2 (q, 2) (by simp) (q, 2) (by simp) i hi j hj
  simp only [o1, o2, Nat.zero_add] at a b e f
  exact ⟨a, b, e, f⟩

theorem pair_zero {p q : ℕ} (hpq : p ≠ q) (h1 : IsCovMat (c.cov p p)) (h2 : IsCovMat (c.cov q q)) (s1 : (c.cov p p).rows = 2) (s2 : (c.cov q q).rows = 2)
    (z1 : Zero (c.cov p q)) (z2 : Zero (c.cov q p)) : PairPsd c p q := by
  intro S hS
  have sS : S.Shape 4 4 := hS.1
  have ent := fun {i j} hi hj => stacked_e (i := i) (j := j) hpq hS hi hj
  refine (IsCovMat.psd (n := 4) ⟨by rw [sS.1, sS.2], ?_, ?_⟩ sS.1).2
  · intro i j
    by_cases hi : i < 4
    · by_cases hj : j < 4
      · rcases Nat.lt_or_ge i 2 with a | a <;> rcases Nat.lt_or_ge j 2 with b | b
        · rw [(ent a b).1, (ent b a).1, h1.2.1]
        · obtain ⟨j, rfl⟩ : ∃ k, j = 2 + k := ⟨j - 2, by omega⟩
          rw [(ent a (by omega : j < 2)).2.1, (ent (by omega : j < 2) a).2.2.1, z1, z2]
        · obtain ⟨i, rfl⟩ : ∃ k, i = 2 + k := ⟨i - 2, by omega⟩
          rw [(ent (by omega : i < 2) b).2.2.1, (ent b (by omega : i < 2)).2.1, z1, z2]
        · obtain ⟨j, rfl⟩ : ∃ k, j = 2 + k := ⟨j - 2, by omega⟩
          obtain ⟨i, rfl⟩ : ∃ k, i = 2 + k := ⟨i - 2, by omega⟩
          rw [(ent (by omega : i < 2) (by omega : j < 2)).2.2.2, (ent (by omega : j < 2) (by omega : i < 2)).2.2.2, h2.2.1]
      · rw [S.out i j (by rw [sS.2]; omega), S.out j i (by rw [sS.1]; omega)]
    · rw [S.out i j (by rw [sS.1]; omega), S.out j i (by rw [sS.2]; omega)]
  · intro x
    rw [sS.1]
    have a := h1.2.2 x
    have b := h2.2.2 (fun i => x (2 + i))
    rw [s1] at a
    rw [s2] at b
    have e00 := ent (i := 0) (j := 0) (by norm_num) (by norm_num)
    have e01 := ent (i := 0) (j := 1) (by norm_num) (by norm_num)
    have e10 := ent (i := 1) (j := 0) (by norm_num) (by norm_num)
    have e11 := ent (i := 1) (j := 1) (by norm_num) (by norm_num)
    norm_num [z1 _ _, z2 _ _] at e00 e01 e10 e11
    obtain ⟨a1, a2, a3, a4⟩ := e00
    obtain ⟨b1, b2, b3, b4⟩ := e01
    obtain ⟨c1, c2, c3, c4⟩ := e10
    obtain ⟨d1, d2, d3, d4⟩ := e11
    simp only [Finset.sum_range_succ, Finset.sum_range_zero, zero_add] at a b ⊢
    norm_num at b
    rw [a1, a2, a3, a4, b1, b2, b3, b4, c1, c2, c3, c4, d1, d2, d3, d4]
    linarith

/-- After a joint correction with a positive semidefinite result, in the other order of the participants. -/
theorem pair_joint {p q : ℕ} (hpq : p ≠ q) {P dx : Mat} (hP : (P.toM 4 4).PosSemidef) : PairPsd (c.joint [(p, 2), (q, 2)] P dx) q p := by
  intro S hS
  have o1 : off [(p, 2), (q, 2)] p = 0 := by simp [off]
  have o2 : off [(p, 2), (q, 2)] q = 2 := by simp [off, hpq]
  have l1 : ([(p, 2), (q, 2)] : List (ℕ × ℕ)).lookup p = some 2 := by simp [List.lookup]
  have l2 : ([(p, 2), (q, 2)] : List (ℕ × ℕ)).lookup q = some 2 := by
    simp [List.lookup, beq_eq_false_iff_ne.mpr (Ne.symm hpq)]
  have m1 : p ∈ ([(p, 2), (q, 2)] : List (ℕ × ℕ)).map (·.1) := by simp
  have m2 : q ∈ ([(p, 2), (q, 2)] : List (ℕ × ℕ)).map (·.1) := by simp
  have ent := fun {i j} hi hj => stacked_e (i := i) (j := j) (Ne.symm hpq) hS hi hj
  have cv : ∀ a b, a ∈ ([(p, 2), (q, 2)] : List (ℕ × ℕ)).map (·.1) → b ∈ ([(p, 2), (q, 2)] : List (ℕ × ℕ)).map (·.1) →
      (c.joint [(p, 2), (q, 2)] P dx).cov a b = P.block (off [(p, 2), (q, 2)] a) (off [(p, 2), (q, 2)] b) (([(p, 2), (q, 2)].lookup a).getD 0) (([(p, 2), (q, 2)].lookup b).getD 0) := by
    intro a b ha hb
    simp only [Central.joint]
    rw [if_pos ⟨ha, hb⟩]
  have key : S.toM 4 4 = (P.toM 4 4).submatrix (fun i : Fin 4 => i + 2) (fun i : Fin 4 => i + 2) := by
    have e00 := ent (i := 0) (j := 0) (by norm_num) (by norm_num)
    have e01 := ent (i := 0) (j := 1) (by norm_num) (by norm_num)
    have e10 := ent (i := 1) (j := 0) (by norm_num) (by norm_num)
    have e11 := ent (i := 1) (j := 1) (by norm_num) (by norm_num)
    rw [cv _ _ m1 m1, cv _ _ m1 m2, cv _ _ m2 m1, cv _ _ m2 m2, o1, o2, l1, l2] at e00 e01 e10 e11
    simp only [Option.getD_some, block_e, Nat.reduceAdd, Nat.reduceLT, and_self, if_true, Nat.add_zero, Nat.zero_add] at e00 e01 e10 e11
    obtain ⟨a1, a2, a3, a4⟩ := e00
    obtain ⟨b1, b2, b3, b4⟩ := e01
    obtain ⟨c1, c2, c3, c4⟩ := e10
    obtain ⟨d1, d2, d3, d4⟩ := e11
    ext i j
    rw [Matrix.submatrix_apply, toM_apply, toM_apply]
    fin_cases i <;> fin_cases j <;> first | exact a1 | exact a2 | exact a3 | exact a4 | exact b1 | exact b2 | exact b3 | exact b4 | exact c1 | exact c2 | exact c3 | exact c4 | exact d1 | exact d2 | exact d3 | exact d4
  rw [key]
  exact hP.submatrix _

theorem move {h h' : StdHdl} (hr : StdView.Rel dim2 (StdHdl.view h) c) (hs : StdHdl.Srt h) {ev : StdEv} (hw : StdHdl.Wf dim2 ev) {a : Bool}
    (e : StdHdl.run g1 g2 g3 h ev = .ok (h', a)) : ∃ c', StdView.Rel dim2 (StdHdl.view h') c' ∧ StdHdl.Srt h' ∧ (c' = c ∨ StdStep dim2 c ev c') := by
  cases a with
  | false => obtain rfl := StdHdl.c54_unchanged hs.reg ev e; exact ⟨c, hr, hs, Or.inl rfl⟩
  | true =>
    obtain ⟨⟨c', h1, h2⟩, h3⟩ := StdHdl.accepted hr hs ev hw e
    exact ⟨c', h2, h3, Or.inr h1⟩

/-- Correlated after the observations of the first `j` instances. -/
def Adj (j p q : ℕ) : Prop := (p < j ∧ q = p + 1) ∨ (q < j ∧ p = q + 1)

/-- What is known of the centralised filter in the first step, before the observations of instance `j`. -/
def W (o : Opts) (j : ℕ) (c : Central) : Prop :=
  (∀ p q, p ≠ q → ¬ Adj j p q → Zero (c.cov p q)) ∧ (j = 1 → o.n = 2 → PairPsd c 1 0)

/-- ... and of the handler. -/
def WH (o : Opts) (j : ℕ) (h : StdHdl) : Prop := ∃ c, StdView.Rel dim2 (StdHdl.view h) c ∧ StdHdl.Srt h ∧ W o j c

theorem WH.own {h h' : StdHdl} (hw : WH o 0 h) {ev : StdEv} (hwf : StdHdl.Wf dim2 ev) (ho : StdHdl.Own ev) {a : Bool} (e : StdHdl.run g1 g2 g3 h ev = .ok (h', a)) :
    WH o 0 h' := by
  obtain ⟨c, hr, hs, w1, -⟩ := hw
  obtain ⟨c', r', s', q⟩ := move hr hs hwf e
  refine ⟨c', r', s', ?_, by simp⟩
  rcases q with rfl | q
  · exact w1
  · intro p q' hpq ha
    have := w1 p q' hpq ha
    cases q with
    | prop => exact zero_transform hpq this
    | propU => exact zero_transform hpq this
    | priv => exact zero_transform hpq this
    | joint => exact ho.elim

theorem Inv.own_cov (hi : Inv g1 g2 g3 fp o d n evs T done s) (hr : StdView.Rel dim2 (StdHdl.view s.h) c) {i : ℕ} (h : i < o.n) :
    IsCovMat (c.cov i i) ∧ (c.cov i i).rows = 2 ∧ c.tm i = T i := by
  obtain ⟨f, b, hf, hb, hst⟩ := hi.find h
  obtain ⟨b', hb', -, m2, m3, -, m5, -⟩ := StdHdl.Rel.stored hr hf
  obtain rfl : b' = b := by rw [hb] at hb'; exact (Option.some.inj hb').symm
  obtain ⟨⟨l, -, h2, h3, -⟩, -, -⟩ := hi
  have := runs_covs h2 covs0 h3 (i, f) (SMap.mem_of_find hf) b' hb
  rw [← m2]
  exact ⟨this, m5.1, by rw [← m3, hst]⟩

theorem first_prop (j : ℕ) (hj : j < o.n) (hi : Inv g1 g2 g3 fp o d n evs (fun i => clock fp (o.dt fp) (if i < j then 0 + 1 else 0)) done s) (hw : WH o 0 s.h) :
    Tri False (propIdx fp o d (0 + 1) s j)
      (fun s' => Inv g1 g2 g3 fp o d n (evs ++ [evProp fp o d 0 j]) (fun i => clock fp (o.dt fp) (if i < j + 1 then 0 + 1 else 0)) done s' ∧ WH o 0 s'.h) := by
  have h1 := step_prop 0 j hj hi False
  cases e : propIdx fp o d (0 + 1) s j with
  | ub => rw [e] at h1; exact h1.elim
  | throws => rw [e] at h1; exact h1.elim
  | ok s' =>
    rw [e] at h1
    refine ⟨h1, ?_⟩
    unfold propIdx at e
    obtain ⟨f, e1, e⟩ := Hdl.bind_eq_ok e
    obtain ⟨b, e2, e⟩ := Hdl.bind_eq_ok e
    obtain ⟨r, e3, e⟩ := Hdl.bind_eq_ok e
    obtain rfl := Res.ok.inj e
    exact hw.own (g1 := g1) (g2 := g2) (g3 := g3) (ev := .propU j (matF (o.dt fp : ℝ)) matQ (next fp (o.dt fp) b.stamp) (matG (o.dt fp : ℝ)) (one1 (d.acc j (0 + 1))) (one1 (o.stdA * o.stdA)))
      ⟨matQ_symm, rfl⟩ trivial (a := r.2) e3

theorem first_priv (j : ℕ) (hj : j < o.n) (hi : Inv g1 g2 g3 fp o d n evs T done s) (hw : WH o j s.h) :
    Tri False (privIdx o d (0 + 1) s j) (fun s' => Inv g1 g2 g3 fp o d n
      (evs ++ if j = 0 then [.priv j (rowP 1) (one1 (o.stdP * o.stdP)) (one1 (d.pos j (0 + 1)))] else []) T done s' ∧ WH o j s'.h) := by
  have h1 := step_priv 0 j hj hi False
  cases e : privIdx o d (0 + 1) s j with
  | ub => rw [e] at h1; exact h1.elim
  | throws => rw [e] at h1; exact h1.elim
  | ok s' =>
    rw [e] at h1
    refine ⟨h1, ?_⟩
    unfold privIdx at e
    split at e
    · rename_i h0
      subst h0
      obtain ⟨r, e3, e⟩ := Hdl.bind_eq_ok e
      obtain rfl := Res.ok.inj e
      exact hw.own (g1 := g1) (g2 := g2) (g3 := g3) (ev := .priv 0 (rowP 1) (one1 (o.stdP * o.stdP)) (one1 (d.pos 0 (0 + 1)))) trivial trivial (a := r.2) e3
    · obtain rfl := Res.ok.inj e
      exact hw

theorem one1_psd (x : ℝ) : ((one1 (x * x)).toM 1 1).PosSemidef := (IsCovMat.psd (n := 1) (one1_cov (mul_self_nonneg x)) rfl).2

theorem first_joint (j : ℕ) (hj : j < o.n) (hi : Inv g1 g2 g3 fp o d n evs (fun _ => clock fp (o.dt fp) 1) done s) (hw : WH o j s.h) :
    Tri False (jointIdx g1 g2 g3 o d (0 + 1) s j) (fun s' => Inv g1 g2 g3 fp o d n
      (evs ++ if o.joint = true ∧ 1 < o.n then
        [.joint j j ((j + 1) % o.n) (rowP (-1)) (rowP 1) (one1 (o.stdRel * o.stdRel)) (one1 (d.rel j (0 + 1)))] else []) (fun _ => clock fp (o.dt fp) 1) done s' ∧
      (j + 1 < o.n → WH o (j + 1) s'.h)) := by
  have h1 := step_joint 0 j hj hi
  obtain ⟨c, hr, hs, w1, w2⟩ := hw
  unfold jointIdx at h1 ⊢
  by_cases h0 : o.joint = true ∧ 1 < o.n
  swap
  · rw [if_neg h0] at h1 ⊢
    refine ⟨h1, fun hlt => ⟨c, hr, hs, fun p q hpq ha => w1 p q hpq (by unfold Adj at ha ⊢; omega), fun hj1 h2 => ?_⟩⟩
    have := hi.own_cov hr (i := 0) (by omega)
    have q0 := hi.own_cov hr (i := 1) (by omega)
    exact pair_zero (by decide) q0.1 this.1 q0.2.1 this.2.1 (w1 1 0 (by decide) (by unfold Adj; omega)) (w1 0 1 (by decide) (by unfold Adj; omega))
  rw [if_pos h0] at h1 ⊢
  have hk : (j + 1) % o.n < o.n := Nat.mod_lt _ (n_pos o)
  have hne : j ≠ (j + 1) % o.n := by
    by_cases h : j + 1 = o.n
    · rw [h, Nat.mod_self]; omega
    · rw [Nat.mod_eq_of_lt (by omega)]; omega
  have pp : PairPsd c j ((j + 1) % o.n) := by
    obtain ⟨a1, a2, -⟩ := hi.own_cov hr hj
    obtain ⟨b1, b2, -⟩ := hi.own_cov hr hk
    by_cases hlast : j + 1 = o.n
    · rw [hlast, Nat.mod_self] at b1 b2 ⊢
      by_cases h2 : o.n = 2
      · obtain rfl : j = 1 := by omega
        exact w2 rfl h2
      · exact pair_zero (by omega) a1 b1 a2 b2 (w1 _ _ (by omega) (by unfold Adj; omega)) (w1 _ _ (by omega) (by unfold Adj; omega))
    · rw [Nat.mod_eq_of_lt (by omega)] at b1 b2 ⊢
      exact pair_zero (by omega) a1 b1 a2 b2 (w1 _ _ (by omega) (by unfold Adj; omega)) (w1 _ _ (by omega) (by unfold Adj; omega))
  obtain ⟨f, b, hf, -⟩ := hi.find hj
  obtain ⟨f', b', hf', -⟩ := hi.find hk
  obtain ⟨h', ans, e, -⟩ := StdHdl.joint_progress (g1 := g1) (g2 := g2) (g3 := g3) (HI := rowP (-1)) (HJ := rowP 1) (R := one1 (o.stdRel * o.stdRel)) (z := one1 (d.rel j (0 + 1)))
    hr hs hne Nat.one_pos ⟨rfl, rfl⟩ ⟨rfl, rfl⟩ (one1_shape _) (one1_shape _) (one1_psd _) (by rw [hf]; rfl) (by rw [hf']; rfl)
    (by rw [hi.stamps _ hj, hi.stamps _ hk]) pp
  rw [e, Res.bind_ok] at h1 ⊢
  refine ⟨h1, fun hlt => ?_⟩
  have hmod : (j + 1) % o.n = j + 1 := Nat.mod_eq_of_lt hlt
  obtain ⟨c', r', s', q⟩ := move (g1 := g1) (g2 := g2) (g3 := g3) hr hs
    (ev := .joint j j ((j + 1) % o.n) (rowP (-1)) (rowP 1) (one1 (o.stdRel * o.stdRel)) (one1 (d.rel j (0 + 1)))) ⟨hne, 1, Nat.one_pos, ⟨rfl, rfl⟩, ⟨rfl, rfl⟩⟩ e
  refine ⟨c', r', s', ?_⟩
  rcases q with rfl | q
  · refine ⟨fun p q hpq ha => w1 p q hpq (by unfold Adj at ha ⊢; omega), fun hj1 h2 => ?_⟩
    have := hi.own_cov hr (i := 0) (by omega)
    have q0 := hi.own_cov hr (i := 1) (by omega)
    exact pair_zero (by decide) q0.1 this.1 q0.2.1 this.2.1 (w1 1 0 (by decide) (by unfold Adj; omega)) (w1 0 1 (by decide) (by unfold Adj; omega))
  · generalize hK : (j + 1) % o.n = K at *
    cases q with
    | joint I J HI HJ R z H S m res ht hH hS hm hc hrj =>
      constructor
      · intro p q hpq ha
        refine zero_joint ?_ (w1 p q hpq (by unfold Adj at ha ⊢; omega))
        simp only [List.map_cons, List.map_nil, List.mem_cons, List.not_mem_nil, or_false]
        unfold Adj at ha
        omega
      · intro hj1 h2
        obtain rfl : j = 0 := by omega
        obtain rfl : K = 1 := by omega
        refine pair_joint (by decide) ?_
        have pS := pp S hS
        have sS : S.Shape 4 4 := hS.1
        have pS1 : ((stabM S (1 / 10^12)).toM 4 4).PosSemidef := by
          rw [toM_stabM_symm sS (1 / 10 ^ 12) (Alg.psd_symm pS)]
          exact pS.add (Alg.smul_one_psd (by norm_num))
        obtain ⟨hO, hres⟩ := Inst.correctionStep_accept (sS.stabM _) {} res hc hrj
        have hm1 : H.rows = 1 := (hH.2 (0, rowP (-1)) (by simp)).1.symm
        have hO1 : ObsShape H (one1 (o.stdRel * o.stdRel)) (one1 (d.rel 0 (0 + 1)) - H * m) (stabM S (1 / 10^12)) 4 1 :=
          ⟨⟨hm1, hO.H.2⟩, one1_shape _, (one1_shape _).sub, sS.stabM _⟩
        have pRe : ((one1 (o.stdRel * o.stdRel)).toM 1 1 + ({} : Cfg).eps • 1).PosDef := by
          have h1 : ((1 / 10^16 : ℝ) • (1 : Matrix (Fin 1) (Fin 1) ℝ)).PosDef := Matrix.PosDef.smul Matrix.PosDef.one (by norm_num)
          exact Matrix.PosDef.posSemidef_add (one1_psd _) h1
        obtain ⟨-, -, -, -, -, -, -, -, q3, -⟩ := c18_kalman_update _ _ _ _ {} hO1 pS1 (one1_psd _) (by norm_num) pRe _ hc
        exact q3

theorem first_upd (j : ℕ) (hj : j < o.n)
    (hi : Inv g1 g2 g3 fp o d n (script fp o d 0 ++ evStep fp o d 0 j) (fun _ => clock fp (o.dt fp) (0 + 1)) (Done o 0 j) s) (hw : WH o j s.h) :
    Tri False (updIdx g1 g2 g3 fp o d n (0 + 1) s j)
      (fun s' => Inv g1 g2 g3 fp o d n (script fp o d 0 ++ evStep fp o d 0 (j + 1)) (fun _ => clock fp (o.dt fp) (0 + 1)) (Done o 0 (j + 1)) s' ∧ (j + 1 < o.n → WH o (j + 1) s'.h)) := by
  have h1 := step_upd (g1 := g1) (g2 := g2) (g3 := g3) 0 j hj hi
  have key : Tri False (updIdx g1 g2 g3 fp o d n (0 + 1) s j) (fun s' => j + 1 < o.n → WH o (j + 1) s'.h) := by
    unfold updIdx
    refine Tri.bind (first_priv j hj hi hw) fun s1 i1 => ?_
    refine Tri.bind (first_joint j hj i1.1 i1.2) fun s2 i2 => ?_
    obtain ⟨f, b, hf, hb, -⟩ := i2.1.find hj
    unfold recordIdx
    rw [StdHdl.get_ok hf, Res.bind_ok, StdInst.deref_ok hb, Res.bind_ok]
    exact i2.2
  cases e : updIdx g1 g2 g3 fp o d n (0 + 1) s j with
  | ub => rw [e] at key; exact key.elim
  | throws => rw [e] at key; exact key.elim
  | ok s' => rw [e] at h1 key; exact ⟨h1, key⟩

/-- C107: the first step never throws, for any number of instances and whatever the generators yield: with at most two samples
the program returns. -/
theorem c107_first_step_partial (hD : 0 ≤ o.duration) (hs : Spec.samples fp o ≤ 2) : ∃ st, main g1 g2 g3 fp o d = .ok st := by
  obtain ⟨n, hn, -⟩ := samples_ok (fp := fp) hD
  have h2 : n ≤ 2 := by have := samples_eq hn; omega
  have hpos := samples_pos hn
  have fin : ∀ (x : Res St) (Q : St → Prop), Tri False x Q → ∃ st, x = .ok st := by
    intro x Q h
    cases x with
    | ok a => exact ⟨a, rfl⟩
    | throws => exact h.elim
    | ub => exact h.elim
  refine fin _ (fun _ => True) ?_
  unfold main
  rw [hn, Res.bind_ok]
  have i0 : Inv g1 g2 g3 fp o d n (script fp o d 0) (fun _ => clock fp (o.dt fp) 0) (Done o 0 0)
      ⟨hdl0 o d, fun i k => if i < o.n ∧ k = 0 then some (fp.fromSec (o.tArr fp n 0), (bel0 d i).mean) else none⟩ := by
    refine ⟨⟨[], by simp [script], .nil _, by simp, by intro k i hd; unfold Done at hd; omega⟩, ?_, ?_⟩
    · intro i hin
      unfold StdHdl.stamp
      rw [hdl0_find, if_pos hin]
      rfl
    · intro i hin
      exact if_pos ⟨hin, rfl⟩
  have w0 : WH o 0 (hdl0 o d) := by
    refine ⟨central0 d, init0.rel, init0.srt, fun p q hpq _ a b => ?_, by simp⟩
    simp only [central0, if_neg hpq, Mat.zero, Mat.of]
    split <;> rfl
  interval_cases n
  · trivial
  · show Tri False (forL _ [1] _) _
    rw [forL]
    refine Tri.bind (Q := fun _ => True) ?_ fun s' _ => trivial
    unfold stepIdx
    simp only [List.range_eq_range']
    refine Tri.bind (forL_tri (fun j s => Inv g1 g2 g3 fp o d 2 (script fp o d 0 ++ (List.range j).map (evProp fp o d 0))
      (fun i => clock fp (o.dt fp) (if i < j then 0 + 1 else 0)) (Done o 0 0) s ∧ WH o 0 s.h) o.n 0 ?_ _ ⟨by simpa using i0, w0⟩) ?_
    · intro j _ hj s h
      have := first_prop j (by omega) h.1 h.2
      rw [List.append_assoc, ← List.map_singleton (f := evProp fp o d 0), ← List.map_append, ← List.range_succ] at this
      exact this
    · intro s1 h1
      have h1' : Inv g1 g2 g3 fp o d 2 (script fp o d 0 ++ evStep fp o d 0 0) (fun _ => clock fp (o.dt fp) (0 + 1)) (Done o 0 0) s1 := by
        obtain ⟨⟨q1, q2, q3⟩, -⟩ := h1
        refine ⟨?_, ?_, q3⟩
        · simpa [evStep] using q1
        · intro i hin
          have := q2 i hin
          rwa [if_pos (by omega)] at this
      have := forL_tri (T := False) (fun j s => Inv g1 g2 g3 fp o d 2 (script fp o d 0 ++ evStep fp o d 0 j) (fun _ => clock fp (o.dt fp) (0 + 1)) (Done o 0 j) s ∧ (j < o.n → WH o j s.h)) o.n 0
        (fun j _ hj s h => first_upd j (by omega) h.1 (h.2 (by omega))) s1 ⟨h1', fun _ => h1.2⟩
      cases e : forL (updIdx g1 g2 g3 fp o d 2 (0 + 1)) (List.range' 0 o.n) s1 with
      | ub => rw [e] at this; exact this.elim
      | throws => rw [e] at this; exact this.elim
      | ok s' => trivial

end

/-- The premises are met: four instances with joint observations, one step of one second. -/
example (g1 g2 g3 : ℕ → ℕ → ℝ) (d : Draws) : ∃ st, main g1 g2 g3 FP.exact ⟨4, 1, true, 1, 1, 1, 1⟩ d = .ok st :=
  c107_first_step_partial (by decide) (by rw [← samples_eq (samples_exact (f := 1) (D := 1) ⟨4, 1, true, 1, 1, 1, 1⟩ rfl rfl (by norm_num))]; norm_num)

end SimpleCmd
end Ikf
