import Verif.Lemmas.StdJoint

/-!
# The filters without buffers: propagation (C54, C63)
-/

namespace Ikf
open Mat

theorem SMap.set_self {V : Type*} {m : SMap V} {k : ℕ} {v : V} (hs : m.Sorted) (hi : m.find k = some v) : m.set k v = m := by
  have hm := SMap.mem_of_find hi
  clear hi
  induction m with
  | nil => simp at hm
  | cons e r ih =>
    rw [SMap.Sorted, List.pairwise_cons] at hs
    rcases List.mem_cons.mp hm with rfl | hm
    · rw [SMap.set, if_neg (by simp), if_pos rfl]
    · have := hs.1 _ hm
      simp only at this
      rw [SMap.set, if_neg (by omega), if_neg (by omega), ih hs.2 hm]

namespace StdInst

section
variable {i : StdInst} {b : Belief} {n : ℕ}

/-- The filter holds an `n`-dimensional belief `b` and its factors have `n` rows. -/
structure Holds (i : StdInst) (b : Belief) (n : ℕ) : Prop where
  bel : i.bel = some b
  mean : b.mean.Shape n 1
  cov : b.Sigma.Shape n n
  fac : ∀ e ∈ i.ccf, e.2.rows = n

/-- C54: `propagate(Phi, Q, t)` succeeds exactly if the dimensions match and `t` is strictly later than the estimate; then
mean, covariance and timestamp are propagated (and, for the isolated filter, the factors). Otherwise the answer is false
and the filter is unchanged. -/
theorem c54_propagate (hi : Holds i b n) (Phi Q : Mat) (t : Int) :
    (Phi.Shape n n ∧ Q.Shape n n ∧ b.stamp < t →
      i.baseProp Phi Q t = .ok (⟨some { b with mean := Phi * b.mean, Sigma := Phi * b.Sigma * Phi.tr + Q, stamp := t }, i.ccf⟩, true) ∧
      i.prop Phi Q t =
        .ok (⟨some { b with mean := Phi * b.mean, Sigma := Phi * b.Sigma * Phi.tr + Q, stamp := t }, i.ccf.mapV (Phi * ·)⟩, true)) ∧
    (¬ (Phi.Shape n n ∧ Q.Shape n n ∧ b.stamp < t) → i.baseProp Phi Q t = .ok (i, false) ∧ i.prop Phi Q t = .ok (i, false)) :=
  ⟨fun ⟨h1, h2, h3⟩ => ⟨baseProp_yes hi.bel hi.mean hi.cov h1 h2 h3, prop_yes hi.bel hi.mean hi.cov hi.fac h1 h2 h3⟩,
   fun h => ⟨baseProp_no hi.bel hi.cov h, prop_no hi.bel hi.cov h⟩⟩

/-- The same for `propagate(Phi, Q, t, G, u, var_u)` with one input (see C63 for other numbers). -/
theorem c54_propagate_input (hi : Holds i b n) (Phi Q : Mat) (t : Int) {G u var : Mat} (hG : G.Shape n 1) (hu : u.Shape 1 1) (hv : var.Shape 1 1) :
    (Phi.Shape n n ∧ Q.Shape n n ∧ b.stamp < t →
      i.basePropU Phi Q t G u var = .ok (⟨some { b with mean := Phi * b.mean + G * u, Sigma := Phi * b.Sigma * Phi.tr + (G * var * G.tr + Q), stamp := t }, i.ccf⟩, true) ∧
      i.propU Phi Q t G u var = .ok (⟨some { b with mean := Phi * b.mean + G * u, Sigma := Phi * b.Sigma * Phi.tr + (G * var * G.tr + Q), stamp := t }, i.ccf.mapV (Phi * ·)⟩, true)) ∧
    (¬ (Phi.Shape n n ∧ Q.Shape n n ∧ b.stamp < t) →
      i.basePropU Phi Q t G u var = .ok (i, false) ∧ i.propU Phi Q t G u var = .ok (i, false)) := by
  constructor
  · rintro ⟨hP, hQ, ht⟩
    have e : i.basePropU Phi Q t G u var = .ok (⟨some { b with mean := Phi * b.mean + G * u, Sigma := Phi * b.Sigma * Phi.tr + (G * var * G.tr + Q), stamp := t }, i.ccf⟩, true) := by
      unfold basePropU
      rw [deref_ok hi.bel, Res.bind_ok, if_pos ⟨(checkDimQ_shape hi.cov).mpr ⟨hP, hQ⟩, ht⟩, hP.mulC hi.mean, Res.bind_ok, hG.mulC hu, Res.bind_ok,
        (hP.mul hi.mean).addC (hG.mul hu), Res.bind_ok, hG.mulC hv, Res.bind_ok, (hG.mul hv).mulC hG.tr, Res.bind_ok,
        ((hG.mul hv).mul hG.tr).addC hQ, Res.bind_ok, covProp_eq hi.cov hP ((hG.mul hv).mul hG.tr).add, Res.bind_ok]
    refine ⟨e, ?_⟩
    unfold propU
    rw [e, Res.bind_ok]
    unfold thenFactors
    rw [if_pos rfl, StdHdl.mulFactors_ok (by intro e he; rw [hi.fac e he, hP.2]), Res.bind_ok]
  · intro h
    have e : i.basePropU Phi Q t G u var = .ok (i, false) := by
      unfold basePropU
      rw [deref_ok hi.bel, Res.bind_ok, if_neg]
      rintro ⟨h1, h2⟩
      have := (checkDimQ_shape hi.cov).mp h1
      exact h ⟨this.1, this.2, h2⟩
    refine ⟨e, ?_⟩
    unfold propU
    rw [e]; rfl

/-- C63: with one input, `propagate(Phi, Q, t, G, u, var_u)` adds the input noise `G diag(var_u) Gᵀ`. -/
theorem c63_one_input_partial (hi : Holds i b n) {Phi Q : Mat} {t : Int} {G u : Mat} {v : ℝ} (hP : Phi.Shape n n) (hQ : Q.Shape n n)
    (ht : b.stamp < t) (hG : G.Shape n 1) (hu : u.Shape 1 1) :
    ∃ j b', i.basePropU Phi Q t G u (Mat.of 1 1 (fun _ _ => v)) = .ok (j, true) ∧ j.bel = some b' ∧ b'.stamp = t ∧
      b'.mean.toM n 1 = Phi.toM n n * b.mean.toM n 1 + G.toM n 1 * u.toM 1 1 ∧
      b'.Sigma.toM n n = Phi.toM n n * b.Sigma.toM n n * (Phi.toM n n).transpose +
        (G.toM n 1 * Matrix.diagonal (fun _ => v) * (G.toM n 1).transpose + Q.toM n n) := by
  have hv : (Mat.of 1 1 (fun _ _ => v)).Shape 1 1 := ⟨rfl, rfl⟩
  obtain ⟨e, -⟩ := (c54_propagate_input hi Phi Q t hG hu hv).1 ⟨hP, hQ, ht⟩
  refine ⟨_, _, e, rfl, rfl, ?_, ?_⟩
  · show (Phi * b.mean + G * u).toM n 1 = _
    rw [Shape.toM_add (hP.mul hi.mean) (hG.mul hu), hP.toM_mul, hG.toM_mul]
  · show (Phi * b.Sigma * Phi.tr + (G * _ * G.tr + Q)).toM n n = _
    rw [Shape.toM_add ((hP.mul hi.cov).mul hP.tr) ((hG.mul hv).mul hG.tr).add, (hP.mul hi.cov).toM_mul, hP.toM_mul, toM_tr,
      Shape.toM_add ((hG.mul hv).mul hG.tr) hQ, (hG.mul hv).toM_mul, hG.toM_mul, toM_tr]
    congr 4
    ext a c
    have h1 : a = 0 := Subsingleton.elim _ _
    have h2 : c = 0 := Subsingleton.elim _ _
    subst h1; subst h2
    simp [Mat.toM, Mat.of]

/-- C63 is false of the code for every other number of inputs: with `k ≠ 1` inputs and variances the call computes a
product of matrices that do not fit (it multiplies by the vector `var_u` instead of the diagonal matrix). -/
theorem c63_inputs_fails (hi : Holds i b n) {Phi Q : Mat} {t : Int} {G u var : Mat} {k : ℕ} (hk : k ≠ 1) (hP : Phi.Shape n n) (hQ : Q.Shape n n)
    (ht : b.stamp < t) (hG : G.Shape n k) (hu : u.Shape k 1) (hv : var.Shape k 1) :
    i.basePropU Phi Q t G u var = .ub ∧ i.propU Phi Q t G u var = .ub := by
  have e : i.basePropU Phi Q t G u var = .ub := by
    unfold basePropU
    rw [deref_ok hi.bel, Res.bind_ok, if_pos ⟨(checkDimQ_shape hi.cov).mpr ⟨hP, hQ⟩, ht⟩, hP.mulC hi.mean, Res.bind_ok, hG.mulC hu, Res.bind_ok,
      (hP.mul hi.mean).addC (hG.mul hu), Res.bind_ok, hG.mulC hv, Res.bind_ok]
    have : (G * var) *! G.tr = .ub := by
      unfold mulC
      rw [if_neg]
      rw [(hG.mul hv).2, tr_rows, hG.2]
      exact fun h => hk h.symm
    rw [this]; rfl
  refine ⟨e, ?_⟩
  unfold propU
  rw [e]; rfl

end

theorem baseProp_stamp {i j : StdInst} {Phi Q : Mat} {t : Int} {a : Bool} (h : i.baseProp Phi Q t = .ok (j, a)) :
    (a = false ∧ j = i) ∨ (a = true ∧ j.ccf = i.ccf ∧ ∃ b b', i.bel = some b ∧ j.bel = some b' ∧ b.stamp < t ∧ b'.stamp = t) := by
  unfold baseProp at h
  obtain ⟨b, h1, k1⟩ := Hdl.bind_eq_ok h
  have hb : i.bel = some b := by
    unfold deref at h1
    cases hi : i.bel with
    | none => rw [hi] at h1; simp at h1
    | some x => rw [hi] at h1; rw [Res.ok.inj h1]
  split at k1
  · rename_i hc
    obtain ⟨S, h2, k2⟩ := Hdl.bind_eq_ok k1
    obtain ⟨m, h3, k3⟩ := Hdl.bind_eq_ok k2
    obtain ⟨rfl, rfl⟩ := Prod.mk.inj (Res.ok.inj k3)
    exact Or.inr ⟨rfl, rfl, b, _, hb, rfl, hc.2, rfl⟩
  · obtain ⟨rfl, rfl⟩ := Prod.mk.inj (Res.ok.inj k1)
    exact Or.inl ⟨rfl, rfl⟩

theorem basePropU_stamp {i j : StdInst} {Phi Q : Mat} {t : Int} {a : Bool} {G u var : Mat} (h : i.basePropU Phi Q t G u var = .ok (j, a)) :
    (a = false ∧ j = i) ∨ (a = true ∧ j.ccf = i.ccf ∧ ∃ b b', i.bel = some b ∧ j.bel = some b' ∧ b.stamp < t ∧ b'.stamp = t) := by
  unfold basePropU at h
  obtain ⟨b, h1, k1⟩ := Hdl.bind_eq_ok h
  have hb : i.bel = some b := by
    unfold deref at h1
    cases hi : i.bel with
    | none => rw [hi] at h1; simp at h1
    | some x => rw [hi] at h1; rw [Res.ok.inj h1]
  split at k1
  · rename_i hc
    obtain ⟨_, _, k2⟩ := Hdl.bind_eq_ok k1
    obtain ⟨_, _, k3⟩ := Hdl.bind_eq_ok k2
    obtain ⟨_, _, k4⟩ := Hdl.bind_eq_ok k3
    obtain ⟨_, _, k5⟩ := Hdl.bind_eq_ok k4
    obtain ⟨_, _, k6⟩ := Hdl.bind_eq_ok k5
    obtain ⟨_, _, k7⟩ := Hdl.bind_eq_ok k6
    obtain ⟨_, _, k8⟩ := Hdl.bind_eq_ok k7
    obtain ⟨rfl, rfl⟩ := Prod.mk.inj (Res.ok.inj k8)
    exact Or.inr ⟨rfl, rfl, b, _, hb, rfl, hc.2, rfl⟩
  · obtain ⟨rfl, rfl⟩ := Prod.mk.inj (Res.ok.inj k1)
    exact Or.inl ⟨rfl, rfl⟩

/-- Any outcome of a propagation of the isolated filter. -/
theorem prop_stamp {i j : StdInst} {Phi Q : Mat} {t : Int} {a : Bool} (h : i.prop Phi Q t = .ok (j, a)) :
    (a = false ∧ j = i) ∨ (a = true ∧ ∃ b b', i.bel = some b ∧ j.bel = some b' ∧ b.stamp < t ∧ b'.stamp = t) := by
  unfold prop at h
  obtain ⟨⟨k, a'⟩, h1, h2⟩ := Hdl.bind_eq_ok h
  obtain ⟨e, g1, g2⟩ := thenFactors_inv h2
  simp only at e g1 g2
  subst e
  rcases baseProp_stamp h1 with ⟨ha, hk⟩ | ⟨ha, -, b, b', e1, e2, e3, e4⟩
  · exact Or.inl ⟨ha, by rw [g1 ha, hk]⟩
  · exact Or.inr ⟨ha, b, b', e1, by rw [(StdHdl.mulFactors_find (g2 ha)).1, e2], e3, e4⟩

theorem propU_stamp {i j : StdInst} {Phi Q : Mat} {t : Int} {a : Bool} {G u var : Mat} (h : i.propU Phi Q t G u var = .ok (j, a)) :
    (a = false ∧ j = i) ∨ (a = true ∧ ∃ b b', i.bel = some b ∧ j.bel = some b' ∧ b.stamp < t ∧ b'.stamp = t) := by
  unfold propU at h
  obtain ⟨⟨k, a'⟩, h1, h2⟩ := Hdl.bind_eq_ok h
  obtain ⟨e, g1, g2⟩ := thenFactors_inv h2
  simp only at e g1 g2
  subst e
  rcases basePropU_stamp h1 with ⟨ha, hk⟩ | ⟨ha, -, b, b', e1, e2, e3, e4⟩
  · exact Or.inl ⟨ha, by rw [g1 ha, hk]⟩
  · exact Or.inr ⟨ha, b, b', e1, by rw [(StdHdl.mulFactors_find (g2 ha)).1, e2], e3, e4⟩

/-- A private update keeps the timestamp; a rejected one changes nothing. -/
theorem priv_stamp {i j : StdInst} {H R z : Mat} {a : Bool} (h : i.priv H R z = .ok (j, a)) :
    (a = false → j = i) ∧ j.bel.map (·.stamp) = i.bel.map (·.stamp) := by
  have hb : ∃ b, i.bel = some b := by
    cases hi : i.bel with
    | none => unfold priv deref at h; rw [hi] at h; simp at h
    | some b => exact ⟨b, rfl⟩
  obtain ⟨b, hb⟩ := hb
  obtain ⟨res, -, -, g1, g2⟩ := priv_inv hb h
  refine ⟨g1, ?_⟩
  cases a with
  | false => rw [g1 rfl]
  | true => rw [(StdHdl.mulFactors_find (g2 rfl)).1, hb]; rfl

end StdInst

namespace StdHdl

/-- Execution of one call: the new state and the answer. `g1`, `g2`, `g3` are the contents of uninitialised memory. -/
noncomputable def run (g1 g2 g3 : ℕ → ℕ → ℝ) (h : StdHdl) : StdEv → Res (StdHdl × Bool)
  | .prop id Phi Q t => onInst h id (fun i => i.prop Phi Q t)
  | .propU id Phi Q t G u var => onInst h id (fun i => i.propU Phi Q t G u var)
  | .priv id H R z => onInst h id (fun i => i.priv H R z)
  | .joint me I J HI HJ R z => joint g1 g2 g3 h me I J HI HJ R z

/-- A sequence of calls with their answers; none of them throws or runs into undefined behaviour. -/
inductive Runs (g1 g2 g3 : ℕ → ℕ → ℝ) : StdHdl → List (StdEv × Bool) → StdHdl → Prop
  | nil (h) : Runs g1 g2 g3 h [] h
  | step {h h1 h2 ev ans l} (hs : run g1 g2 g3 h ev = .ok (h1, ans)) (r : Runs g1 g2 g3 h1 l h2) : Runs g1 g2 g3 h ((ev, ans) :: l) h2

/-- Timestamp of the estimate of filter `p`. -/
def stamp (h : StdHdl) (p : ℕ) : Option Int := (h.find p).bind (fun i => i.bel.map (·.stamp))

/-- The target time of a propagation of `p`. -/
def target (p : ℕ) : StdEv → Option Int
  | .prop id _ _ t => if id = p then some t else none
  | .propU id _ _ t _ _ _ => if id = p then some t else none
  | _ => none

/-- The target times of the successful propagations of `p`, in the order of the calls. -/
def times (p : ℕ) : List (StdEv × Bool) → List Int
  | [] => []
  | (ev, true) :: l => match target p ev with
    | some t => t :: times p l
    | none => times p l
  | (_, false) :: l => times p l

variable {g1 g2 g3 : ℕ → ℕ → ℝ} {h h' : StdHdl}

theorem get_inv {p : ℕ} {i : StdInst} (hg : get h p = .ok i) : h.find p = some i := by
  unfold get at hg
  cases hf : h.find p with
  | none => rw [hf] at hg; simp at hg
  | some j => rw [hf] at hg; rw [Res.ok.inj hg]

theorem onInst_inv {p : ℕ} {f : StdInst → Res (StdInst × Bool)} {a : Bool} (hs : onInst h p f = .ok (h', a)) :
    ∃ i j, h.find p = some i ∧ f i = .ok (j, a) ∧ h' = h.set p j := by
  unfold onInst at hs
  obtain ⟨i, h1, k1⟩ := Hdl.bind_eq_ok hs
  obtain ⟨⟨j, a'⟩, h2, k2⟩ := Hdl.bind_eq_ok k1
  obtain ⟨rfl, rfl⟩ := Prod.mk.inj (Res.ok.inj k2)
  exact ⟨i, j, get_inv h1, h2, rfl⟩

theorem stamp_set {p : ℕ} {i j : StdInst} (hi : h.find p = some i) (hj : j.bel.map (·.stamp) = i.bel.map (·.stamp)) (q : ℕ) :
    stamp (h.set p j) q = stamp h q := by
  unfold stamp
  rw [SMap.find_set]
  split
  · rename_i e; subst e; rw [hi]; simpa using hj
  · rfl

theorem setSigma_stamp {I J : ℕ} {S : Mat} (hs : setSigma h I J S = .ok h') (q : ℕ) : stamp h' q = stamp h q := by
  unfold setSigma at hs
  split at hs
  · obtain ⟨i, h1, k1⟩ := Hdl.bind_eq_ok hs
    obtain ⟨j, h2, k2⟩ := Hdl.bind_eq_ok k1
    rw [← Res.ok.inj k2, stamp_set (get_inv h2) (by rfl), stamp_set (get_inv h1) (by rfl)]
  · obtain ⟨i, h1, k1⟩ := Hdl.bind_eq_ok hs
    obtain ⟨j, h2, k2⟩ := Hdl.bind_eq_ok k1
    rw [← Res.ok.inj k2, stamp_set (get_inv h2) (by rfl), stamp_set (get_inv h1) (by rfl)]

theorem correctBel_stamp {I : ℕ} {dx S : Mat} (hs : correctBel h I dx S = .ok h') (q : ℕ) : stamp h' q = stamp h q := by
  unfold correctBel at hs
  obtain ⟨i, h1, k1⟩ := Hdl.bind_eq_ok hs
  obtain ⟨b, h2, k2⟩ := Hdl.bind_eq_ok k1
  obtain ⟨b', h3, k3⟩ := Hdl.bind_eq_ok k2
  have hb : i.bel = some b := by
    unfold StdInst.deref at h2
    cases hi : i.bel with
    | none => rw [hi] at h2; simp at h2
    | some x => rw [hi] at h2; rw [Res.ok.inj h2]
  rw [← Res.ok.inj k3, stamp_set (get_inv h1)]
  rw [StdInst.correct_inv h3, hb]; rfl

theorem applyCorrection_bel {i j : StdInst} {S P : Mat} (hs : i.applyCorrection S P = .ok j) : j.bel = i.bel :=
  (mulFactors_find (StdInst.applyCorrection_inv hs)).1

theorem commit_stamp {I J : ℕ} {SI SJ : Mat} {res : CorrRes} (hs : commit h I J SI SJ res = .ok h') (q : ℕ) : stamp h' q = stamp h q := by
  unfold commit at hs
  obtain ⟨_, -, k1⟩ := Hdl.bind_eq_ok hs
  obtain ⟨sp, -, k2⟩ := Hdl.bind_eq_ok k1
  obtain ⟨i, h3, k3⟩ := Hdl.bind_eq_ok k2
  obtain ⟨i1, h4, k4⟩ := Hdl.bind_eq_ok k3
  obtain ⟨j, h5, k5⟩ := Hdl.bind_eq_ok k4
  obtain ⟨j1, h6, k6⟩ := Hdl.bind_eq_ok k5
  obtain ⟨h3', h7, k7⟩ := Hdl.bind_eq_ok k6
  obtain ⟨dI, -, k8⟩ := Hdl.bind_eq_ok k7
  obtain ⟨h4', h9, k9⟩ := Hdl.bind_eq_ok k8
  obtain ⟨dJ, -, k10⟩ := Hdl.bind_eq_ok k9
  rw [correctBel_stamp k10, correctBel_stamp h9, setSigma_stamp h7, stamp_set (get_inv h5) (by rw [applyCorrection_bel h6]),
    stamp_set (get_inv h3) (by rw [applyCorrection_bel h4])]

theorem expect_inv {c : Prop} [Decidable c] {u : Unit} (hs : expect c = .ok u) : c := by
  unfold expect at hs
  split at hs
  · assumption
  · simp at hs

theorem joint_stamp {me I J : ℕ} {HI HJ R z : Mat} {a : Bool} (hs : joint g1 g2 g3 h me I J HI HJ R z = .ok (h', a)) :
    (a = false → h' = h) ∧ ∀ q, stamp h' q = stamp h q := by
  unfold joint at hs
  obtain ⟨_, -, k1⟩ := Hdl.bind_eq_ok hs
  obtain ⟨_, -, k2⟩ := Hdl.bind_eq_ok k1
  obtain ⟨_, -, k3⟩ := Hdl.bind_eq_ok k2
  obtain ⟨_, -, k4⟩ := Hdl.bind_eq_ok k3
  obtain ⟨_, -, k5⟩ := Hdl.bind_eq_ok k4
  obtain ⟨_, -, k6⟩ := Hdl.bind_eq_ok k5
  obtain ⟨_, -, k7⟩ := Hdl.bind_eq_ok k6
  obtain ⟨_, -, k8⟩ := Hdl.bind_eq_ok k7
  obtain ⟨_, -, k9⟩ := Hdl.bind_eq_ok k8
  obtain ⟨_, -, k10⟩ := Hdl.bind_eq_ok k9
  obtain ⟨_, -, k11⟩ := Hdl.bind_eq_ok k10
  obtain ⟨_, -, k12⟩ := Hdl.bind_eq_ok k11
  obtain ⟨_, -, k13⟩ := Hdl.bind_eq_ok k12
  obtain ⟨res, -, k14⟩ := Hdl.bind_eq_ok k13
  clear k1 k2 k3 k4 k5 k6 k7 k8 k9 k10 k11 k12 k13 hs
  split at k14
  · obtain ⟨x, h1, k⟩ := Hdl.bind_eq_ok k14
    obtain ⟨rfl, rfl⟩ := Prod.mk.inj (Res.ok.inj k)
    exact ⟨by simp, commit_stamp h1⟩
  · obtain ⟨rfl, rfl⟩ := Prod.mk.inj (Res.ok.inj k14)
    exact ⟨fun _ => rfl, fun _ => rfl⟩

/-- C54: a call that answers false changes nothing, whatever the matrices are. -/
theorem c54_unchanged (hs : h.Sorted) (ev : StdEv) (hr : run g1 g2 g3 h ev = .ok (h', false)) : h' = h := by
  cases ev with
  | prop id Phi Q t =>
    obtain ⟨i, j, hi, hf, rfl⟩ := onInst_inv hr
    rcases StdInst.prop_stamp hf with ⟨-, rfl⟩ | ⟨ha, -⟩
    · exact SMap.set_self hs hi
    · simp at ha
  | propU id Phi Q t G u var =>
    obtain ⟨i, j, hi, hf, rfl⟩ := onInst_inv hr
    rcases StdInst.propU_stamp hf with ⟨-, rfl⟩ | ⟨ha, -⟩
    · exact SMap.set_self hs hi
    · simp at ha
  | priv id H R z =>
    obtain ⟨i, j, hi, hf, rfl⟩ := onInst_inv hr
    rw [(StdInst.priv_stamp hf).1 rfl]
    exact SMap.set_self hs hi
  | joint me I J HI HJ R z => exact (joint_stamp hr).1 rfl

/-- What one call does to the timestamps. -/
theorem step_stamp (ev : StdEv) {a : Bool} (hr : run g1 g2 g3 h ev = .ok (h', a)) (p : ℕ) :
    (target p ev = none ∨ a = false) ∧ stamp h' p = stamp h p ∨
      a = true ∧ ∃ t s, target p ev = some t ∧ stamp h p = some s ∧ s < t ∧ stamp h' p = some t := by
  have one : ∀ (id : ℕ) (i j : StdInst) (t : Int), h.find id = some i →
      ((a = false ∧ j = i) ∨ (a = true ∧ ∃ b b', i.bel = some b ∧ j.bel = some b' ∧ b.stamp < t ∧ b'.stamp = t)) →
      ((if id = p then some t else none) = none ∨ a = false) ∧ stamp (h.set id j) p = stamp h p ∨
        a = true ∧ ∃ t' s, (if id = p then some t else none) = some t' ∧ stamp h p = some s ∧ s < t' ∧ stamp (h.set id j) p = some t' := by
    intro id i j t hi hc
    rcases hc with ⟨ha, rfl⟩ | ⟨ha, b, b', e1, e2, e3, e4⟩
    · exact Or.inl ⟨Or.inr ha, stamp_set hi rfl p⟩
    · by_cases hp : id = p
      · subst hp
        refine Or.inr ⟨ha, t, b.stamp, by simp, by unfold stamp; rw [hi]; simp [e1], e3, ?_⟩
        unfold stamp
        rw [SMap.find_set_self]; simp [e2, e4]
      · exact Or.inl ⟨Or.inl (by simp [hp]), by unfold stamp; rw [SMap.find_set_ne _ hp]⟩
  cases ev with
  | prop id Phi Q t =>
    obtain ⟨i, j, hi, hf, rfl⟩ := onInst_inv hr
    exact one id i j t hi (StdInst.prop_stamp hf)
  | propU id Phi Q t G u var =>
    obtain ⟨i, j, hi, hf, rfl⟩ := onInst_inv hr
    exact one id i j t hi (StdInst.propU_stamp hf)
  | priv id H R z =>
    obtain ⟨i, j, hi, hf, rfl⟩ := onInst_inv hr
    exact Or.inl ⟨Or.inl rfl, stamp_set hi (StdInst.priv_stamp hf).2 p⟩
  | joint me I J HI HJ R z => exact Or.inl ⟨Or.inl rfl, (joint_stamp hr).2 p⟩

/-- C54: in every sequence of calls on any number of filters, the target times of the successful propagations of a
filter are strictly increasing and later than its initial estimate, and its estimate is always at the last of them. -/
theorem c54_increasing {l : List (StdEv × Bool)} (hr : Runs g1 g2 g3 h l h') (p : ℕ) :
    (times p l).Pairwise (· < ·) ∧ (∀ s, stamp h p = some s → ∀ t ∈ times p l, s < t) ∧
      stamp h' p = ((times p l).getLast?).or (stamp h p) := by
  induction hr with
  | nil h => exact ⟨List.Pairwise.nil, by simp [times], by simp [times]⟩
  | @step h h1 h2 ev ans l hs r ih =>
    obtain ⟨i1, i2, i3⟩ := ih
    rcases step_stamp ev hs p with ⟨hc, hst⟩ | ⟨rfl, t, s, ht, hs0, hlt, hst⟩
    · have : times p ((ev, ans) :: l) = times p l := by
        cases ans with
        | false => rfl
        | true =>
          rcases hc with hc | hc
          · simp only [times, hc]
          · simp at hc
      rw [this, ← hst]
      exact ⟨i1, i2, i3⟩
    · have : times p ((ev, true) :: l) = t :: times p l := by simp only [times, ht]
      rw [this]
      refine ⟨List.pairwise_cons.mpr ⟨i2 t hst, i1⟩, ?_, ?_⟩
      · intro s' hs' x hx
        rw [hs0] at hs'
        obtain rfl := Option.some.inj hs'
        rcases List.mem_cons.mp hx with rfl | hx
        · exact hlt
        · exact hlt.trans (i2 t hst x hx)
      · rw [i3, hst]
        cases hq : times p l with
        | nil => simp
        | cons a r =>
          rw [List.getLast?_cons_cons]
          cases hl : (a :: r).getLast? with
          | none => simp at hl
          | some x => rfl

end StdHdl
end Ikf
