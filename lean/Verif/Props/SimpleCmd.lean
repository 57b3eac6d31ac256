import Verif.Props.StdProgress
import Verif.Props.CovarianceNet
import Verif.Spec.SimpleCmd
import Verif.Lemmas.SimpleCmdScript
import Verif.Lemmas.FpErr

/-!
# The example program `ikf_simple_cmd` (C107)
-/

namespace Ikf
open Mat
namespace SimpleCmd

/-- `x` is not undefined, throws only if `T`, and its value satisfies `Q`. -/
def Tri {α : Type} (T : Prop) (x : Res α) (Q : α → Prop) : Prop :=
  match x with
  | .ok a => Q a
  | .throws => T
  | .ub => False

theorem Tri.bind {α β : Type} {T : Prop} {x : Res α} {f : α → Res β} {Q : α → Prop} {R : β → Prop} (hx : Tri T x Q) (hf : ∀ a, Q a → Tri T (f a) R) :
    Tri T (x >>= f) R := by
  cases x with
  | ok a => exact hf a hx
  | throws => exact hx
  | ub => exact hx.elim

theorem forL_tri {σ : Type} {T : Prop} {body : σ → ℕ → Res σ} (P : ℕ → σ → Prop) (n a : ℕ) (hb : ∀ j, a ≤ j → j < a + n → ∀ s, P j s → Tri T (body s j) (P (j + 1)))
    (s : σ) (h : P a s) : Tri T (forL body (List.range' a n) s) (P (a + n)) := by
  induction n generalizing a s with
  | zero => exact h
  | succ n ih =>
    rw [List.range'_succ]
    refine Tri.bind (hb a le_rfl (by omega) s h) fun s' h' => ?_
    have := ih (a + 1) (fun j h1 h2 => hb j (by omega) (by omega)) s' h'
    rwa [show a + (n + 1) = a + 1 + n by omega]

section
variable {g1 g2 g3 : ℕ → ℕ → ℝ} {fp : FP} {o : Opts} {d : Draws}

theorem hdl0_find (i : ℕ) : (hdl0 o d).find i = if i < o.n then some ⟨some (bel0 d i), []⟩ else none := by
  have gen : ∀ n a, SMap.find ((List.range' a n).map (fun i => (i, (⟨some (bel0 d i), []⟩ : StdInst)))) i = if a ≤ i ∧ i < a + n then some ⟨some (bel0 d i), []⟩ else none := by
    intro n
    induction n with
    | zero => intro a; rw [if_neg (by omega)]; rfl
    | succ n ih =>
      intro a
      rw [List.range'_succ, List.map_cons, SMap.find_cons, ih]
      by_cases h : a = i
      · subst h; rw [if_pos rfl, if_pos (by omega)]
      · rw [if_neg h]
        by_cases h2 : a + 1 ≤ i ∧ i < a + 1 + n
        · rw [if_pos h2, if_pos (by omega)]
        · rw [if_neg h2, if_neg (by omega)]
  have := gen o.n 0
  rw [← List.range_eq_range'] at this
  simpa [hdl0] using this

theorem init0 : StdHdl.Init dim2 (hdl0 o d) (central0 d) where
  sorted := by
    rw [SMap.sorted_iff_keys]
    have : SMap.keys (hdl0 o d) = List.range o.n := by unfold SMap.keys hdl0; rw [List.map_map]; exact List.map_id _
    rw [this]
    exact List.pairwise_lt_range
  inst := by
    intro p i hp
    rw [hdl0_find] at hp
    split at hp
    · obtain rfl := Option.some.inj hp
      refine ⟨bel0 d p, rfl, Nat.two_pos, ⟨rfl, rfl⟩, ⟨rfl, rfl⟩, ?_, rfl, by simp [central0], rfl⟩
      refine Mat.ext' rfl rfl ?_
      intro x y hx hy
      rw [tr_e]
      simp only [bel0, Mat.of]
      simp only [eq_comm (a := y) (b := x), and_comm (a := y < 2) (b := x < 2)]
    · simp at hp
  uncorrelated := by
    intro p q hpq
    simp [central0, hpq, dim2]

/-- What the simulation theorem (C55) and the theorem on covariances (C104) ask of a call. -/
def Nice (ev : StdEv) : Prop := StdHdl.Wf dim2 ev ∧ (StdCall.ev ev).Ok

/-- What has been called so far (`l`, with the answers), the times of the estimates, and what has been recorded: for a
recorded pair, the calls up to then lead to the recorded mean. -/
structure Inv (g1 g2 g3 : ℕ → ℕ → ℝ) (fp : FP) (o : Opts) (d : Draws) (n : ℕ) (evs : List StdEv) (T : ℕ → Int) (done : ℕ → ℕ → Prop) (s : St) : Prop where
  calls : ∃ l : List (StdEv × Bool), l.map (·.1) = evs ∧ StdHdl.Runs g1 g2 g3 (hdl0 o d) l s.h ∧ (∀ x ∈ l, Nice x.1) ∧
    ∀ k i, done k i → ∃ l1 c, l1 <+: l ∧ l1.map (·.1) = script fp o d k ++ evStep fp o d k (i + 1) ∧ StdSpecRun dim2 (central0 d) l1 c ∧
      c.tm i = clock fp (o.dt fp) (k + 1) ∧ s.est i (k + 1) = some (fp.fromSec (o.tArr fp n (k + 1)), c.mu i)
  stamps : ∀ i < o.n, StdHdl.stamp s.h i = some (T i)
  start : ∀ i < o.n, s.est i 0 = some (fp.fromSec (o.tArr fp n 0), (bel0 d i).mean)

variable {n : ℕ} {evs : List StdEv} {T : ℕ → Int} {done : ℕ → ℕ → Prop} {s : St}

theorem runs_snoc {h h1 h2 : StdHdl} {l : List (StdEv × Bool)} {ev : StdEv} {a : Bool} (r : StdHdl.Runs g1 g2 g3 h l h1) (e : StdHdl.run g1 g2 g3 h1 ev = .ok (h2, a)) :
    StdHdl.Runs g1 g2 g3 h (l ++ [(ev, a)]) h2 := by
  induction r with
  | nil h => exact .step e (.nil _)
  | step hs r ih => exact .step hs (ih e)

/-- One more call. -/
theorem Inv.push (hi : Inv g1 g2 g3 fp o d n evs T done s) {ev : StdEv} {h' : StdHdl} {a : Bool} (hw : Nice ev) (e : StdHdl.run g1 g2 g3 s.h ev = .ok (h', a))
    {T' : ℕ → Int} (ht : ∀ i < o.n, StdHdl.stamp h' i = some (T' i)) : Inv g1 g2 g3 fp o d n (evs ++ [ev]) T' done { s with h := h' } := by
  obtain ⟨⟨l, h1, h2, h3, h4⟩, -, h5⟩ := hi
  refine ⟨⟨l ++ [(ev, a)], by rw [List.map_append, h1]; rfl, runs_snoc h2 e, ?_, ?_⟩, ht, h5⟩
  · intro x hx
    rcases List.mem_append.mp hx with hx | hx
    · exact h3 x hx
    · rw [List.mem_singleton.mp hx]; exact hw
  · intro k i hd
    obtain ⟨l1, c, q1, q2⟩ := h4 k i hd
    exact ⟨l1, c, q1.trans (List.prefix_append _ _), q2⟩

theorem Inv.rel (hi : Inv g1 g2 g3 fp o d n evs T done s) : ∃ l c, l.map (·.1) = evs ∧ StdSpecRun dim2 (central0 d) l c ∧ StdView.Rel dim2 (StdHdl.view s.h) c ∧ StdHdl.Srt s.h := by
  obtain ⟨⟨l, h1, h2, h3, -⟩, -, -⟩ := hi
  obtain ⟨c, q1, q2, q3⟩ := StdHdl.sim init0.rel init0.srt (fun x hx => (h3 x hx).1) h2
  exact ⟨l, c, h1, q1, q2, q3⟩

theorem Inv.find (hi : Inv g1 g2 g3 fp o d n evs T done s) {i : ℕ} (h : i < o.n) : ∃ f b, s.h.find i = some f ∧ f.bel = some b ∧ b.stamp = T i := by
  have := hi.stamps i h
  unfold StdHdl.stamp at this
  cases hf : s.h.find i with
  | none => rw [hf] at this; simp at this
  | some f =>
    rw [hf] at this
    cases hb : f.bel with
    | none => simp [hb] at this
    | some b => exact ⟨f, b, rfl, hb, by simpa [hb] using this⟩

theorem n_pos (o : Opts) : 0 < o.n := by unfold Opts.n; omega

theorem one1_shape (x : ℝ) : (one1 x).Shape 1 1 := ⟨rfl, rfl⟩
theorem matQ_symm : matQ.tr = matQ := by
  refine Mat.ext' rfl rfl ?_
  intro x y hx hy
  rw [tr_e]
  simp only [matQ, Mat.of]
  simp only [eq_comm (a := y) (b := x), and_comm (a := y < 2) (b := x < 2)]

theorem diag_cov {n : ℕ} {x : ℝ} (hx : 0 ≤ x) : IsCovMat (Mat.of n n (fun i j => if i = j then x else 0)) := by
  refine isCov_of (n := n) ⟨rfl, rfl⟩ ?_
  have : (Mat.of n n (fun i j => if i = j then x else 0)).toM n n = x • (1 : Matrix (Fin n) (Fin n) ℝ) := by
    ext i j
    rw [toM_apply]
    simp only [Mat.of, if_pos (And.intro i.2 j.2), Matrix.smul_apply, Matrix.one_apply, smul_eq_mul, mul_ite, mul_zero, Fin.ext_iff]
    rw [_root_.mul_one]
  rw [this]
  exact Alg.smul_one_psd hx

theorem matQ_cov : IsCovMat matQ := diag_cov (by norm_num)

theorem one1_cov {x : ℝ} (hx : 0 ≤ x) : IsCovMat (one1 x) := by
  have : one1 x = Mat.of 1 1 (fun i j => if i = j then x else 0) := by
    refine Mat.ext' rfl rfl ?_
    intro i j hi hj
    have h1 : i = 0 := by change i < 1 at hi; omega
    have h2 : j = 0 := by change j < 1 at hj; omega
    subst h1; subst h2; rfl
  rw [this]
  exact diag_cov hx

theorem one1_nonneg (x : ℝ) (hx : 0 ≤ x) (i : ℕ) : 0 ≤ (one1 x).e i 0 := by
  simp only [one1, Mat.of]
  split
  · exact hx
  · exact le_rfl

theorem step_prop (k j : ℕ) (hj : j < o.n) (hi : Inv g1 g2 g3 fp o d n evs (fun i => clock fp (o.dt fp) (if i < j then k + 1 else k)) done s) (X : Prop) :
    Tri X (propIdx fp o d (k + 1) s j)
      (Inv g1 g2 g3 fp o d n (evs ++ [evProp fp o d k j]) (fun i => clock fp (o.dt fp) (if i < j + 1 then k + 1 else k)) done) := by
  obtain ⟨f, b, hf, hb, hst⟩ := hi.find hj
  rw [if_neg (by omega)] at hst
  obtain ⟨l, c, -, -, hr, hs⟩ := hi.rel
  unfold propIdx
  rw [StdHdl.get_ok hf, Res.bind_ok, StdInst.deref_ok hb, Res.bind_ok, hst]
  obtain ⟨b', hb', -, -, -, m4, m5, -⟩ := StdHdl.Rel.stored hr hf
  obtain rfl : b' = b := by rw [hb] at hb'; exact (Option.some.inj hb').symm
  have hd : StdInst.Holds f b' 2 := ⟨hb, m4, m5, StdHdl.Rel.rows hr hs hf⟩
  obtain ⟨h', a, e⟩ := StdHdl.own_returns (g1 := g1) (g2 := g2) (g3 := g3) hr hs (evProp fp o d k j) (by change (s.h.find j).isSome; rw [hf]; rfl)
    ⟨⟨rfl, rfl⟩, one1_shape _, one1_shape _⟩ trivial
  have e' := e
  unfold evProp at e
  simp only [StdHdl.run] at e
  rw [e, Res.bind_ok]
  refine hi.push (ev := evProp fp o d k j) (T' := fun i => clock fp (o.dt fp) (if i < j + 1 then k + 1 else k)) ⟨⟨matQ_symm, rfl⟩, matQ_cov, rfl, fun i => one1_nonneg _ (mul_self_nonneg _) i⟩ e' ?_
  intro i hin
  have h0 := hi.stamps i hin
  by_cases hij : i = j
  · subst hij
    rw [if_neg (by omega)] at h0
    rw [if_pos (by omega)]
    have hc := StdInst.c54_propagate_input hd (matF (o.dt fp : ℝ)) matQ (next fp (o.dt fp) (clock fp (o.dt fp) k)) (G := matG (o.dt fp : ℝ))
      (u := one1 (d.acc i (k + 1))) (var := one1 (o.stdA * o.stdA)) ⟨rfl, rfl⟩ (one1_shape _) (one1_shape _)
    simp only [StdHdl.onInst, StdHdl.get_ok hf, Res.bind_ok] at e
    show StdHdl.stamp h' i = some (max _ _)
    by_cases ht : b'.stamp < next fp (o.dt fp) (clock fp (o.dt fp) k)
    · rw [(hc.1 ⟨⟨rfl, rfl⟩, ⟨rfl, rfl⟩, ht⟩).2, Res.bind_ok] at e
      obtain rfl := (Prod.mk.inj (Res.ok.inj e)).1
      unfold StdHdl.stamp
      rw [SMap.find_set_self]
      rw [hst] at ht
      simp [max_eq_right (le_of_lt ht)]
    · rw [(hc.2 (by rintro ⟨-, -, q⟩; exact ht q)).2, Res.bind_ok] at e
      obtain rfl := (Prod.mk.inj (Res.ok.inj e)).1
      unfold StdHdl.stamp
      rw [SMap.find_set_self]
      rw [hst] at ht
      simp [hb, hst, max_eq_left (not_lt.mp ht)]
  · have hlt : (i < j + 1) = (i < j) := by simp only [eq_iff_iff]; omega
    simp only [hlt]
    rcases StdHdl.step_stamp _ e' i with ⟨-, q⟩ | ⟨-, t, s', q, -⟩
    · rw [q]; exact h0
    · simp [StdHdl.target, evProp, Ne.symm hij] at q

theorem push_own (hi : Inv g1 g2 g3 fp o d n evs T done s) {ev : StdEv} {h' : StdHdl} {a : Bool} (hw : Nice ev) (hn : ∀ i, StdHdl.target i ev = none)
    (e : StdHdl.run g1 g2 g3 s.h ev = .ok (h', a)) : Inv g1 g2 g3 fp o d n (evs ++ [ev]) T done { s with h := h' } := by
  refine hi.push hw e fun i hin => ?_
  rcases StdHdl.step_stamp _ e i with ⟨-, q⟩ | ⟨-, t, s', q, -⟩
  · rw [q]; exact hi.stamps i hin
  · rw [hn i] at q; simp at q

theorem step_priv (k j : ℕ) (hj : j < o.n) (hi : Inv g1 g2 g3 fp o d n evs T done s) (X : Prop) :
    Tri X (privIdx o d (k + 1) s j) (Inv g1 g2 g3 fp o d n
      (evs ++ if j = 0 then [.priv j (rowP 1) (one1 (o.stdP * o.stdP)) (one1 (d.pos j (k + 1)))] else []) T done) := by
  unfold privIdx
  by_cases h0 : j = 0
  · rw [if_pos h0, if_pos h0]
    obtain ⟨l, c, -, -, hr, hs⟩ := hi.rel
    obtain ⟨f, b, hf, hb, hst⟩ := hi.find hj
    obtain ⟨h', a, e⟩ := StdHdl.own_returns (g1 := g1) (g2 := g2) (g3 := g3) hr hs (.priv j (rowP 1) (one1 (o.stdP * o.stdP)) (one1 (d.pos j (k + 1))))
      (by change (s.h.find j).isSome; rw [hf]; rfl) ⟨rfl, one1_shape _, one1_shape _⟩ trivial
    have e' := e
    simp only [StdHdl.run] at e
    rw [e, Res.bind_ok]
    exact push_own hi ⟨trivial, one1_cov (mul_self_nonneg _)⟩ (fun _ => rfl) e'
  · rw [if_neg h0, if_neg h0, List.append_nil]
    exact hi

theorem step_joint (k j : ℕ) (hj : j < o.n) (hi : Inv g1 g2 g3 fp o d n evs T done s) :
    Tri (o.joint = true ∧ 1 < o.n) (jointIdx g1 g2 g3 o d (k + 1) s j) (Inv g1 g2 g3 fp o d n
      (evs ++ if o.joint = true ∧ 1 < o.n then
        [.joint j j ((j + 1) % o.n) (rowP (-1)) (rowP 1) (one1 (o.stdRel * o.stdRel)) (one1 (d.rel j (k + 1)))] else []) T done) := by
  unfold jointIdx
  by_cases h0 : o.joint = true ∧ 1 < o.n
  · rw [if_pos h0, if_pos h0]
    obtain ⟨l, c, -, -, hr, hs⟩ := hi.rel
    have hne : j ≠ (j + 1) % o.n := by
      by_cases h : j + 1 = o.n
      · rw [h, Nat.mod_self]; omega
      · rw [Nat.mod_eq_of_lt (by omega)]; omega
    have hd := StdHdl.joint_defined (g1 := g1) (g2 := g2) (g3 := g3) (me := j) (I := j) (J := (j + 1) % o.n) (HI := rowP (-1)) (HJ := rowP 1)
      (R := one1 (o.stdRel * o.stdRel)) (z := one1 (d.rel j (k + 1))) hr hs ⟨hne, 1, Nat.one_pos, ⟨rfl, rfl⟩, ⟨rfl, rfl⟩, one1_shape _, one1_shape _⟩
    cases e : StdHdl.joint g1 g2 g3 s.h j j ((j + 1) % o.n) (rowP (-1)) (rowP 1) (one1 (o.stdRel * o.stdRel)) (one1 (d.rel j (k + 1))) with
    | ub => exact (hd e).elim
    | throws => exact h0
    | ok r =>
      exact push_own hi (ev := .joint j j ((j + 1) % o.n) (rowP (-1)) (rowP 1) (one1 (o.stdRel * o.stdRel)) (one1 (d.rel j (k + 1))))
        ⟨⟨hne, 1, Nat.one_pos, ⟨rfl, rfl⟩, ⟨rfl, rfl⟩⟩, trivial⟩ (fun _ => rfl) (a := r.2) e
  · rw [if_neg h0, if_neg h0, List.append_nil]
    exact hi

theorem step_record (k j : ℕ) (hj : j < o.n) (he : evs = script fp o d k ++ evStep fp o d k (j + 1)) (hT : T j = clock fp (o.dt fp) (k + 1))
    (hd : ∀ k' i', done k' i' → ¬ (i' = j ∧ k' = k)) (hi : Inv g1 g2 g3 fp o d n evs T done s) (X : Prop) :
    Tri X (recordIdx fp o n (k + 1) s j) (Inv g1 g2 g3 fp o d n evs T (fun k' i' => done k' i' ∨ (k' = k ∧ i' = j))) := by
  obtain ⟨f, b, hf, hb, hst⟩ := hi.find hj
  obtain ⟨⟨l, h1, h2, h3, h4⟩, h5, h6⟩ := hi
  unfold recordIdx
  rw [StdHdl.get_ok hf, Res.bind_ok, StdInst.deref_ok hb, Res.bind_ok]
  refine ⟨⟨l, h1, h2, h3, ?_⟩, h5, ?_⟩
  · rintro k' i' (hk | ⟨rfl, rfl⟩)
    · obtain ⟨l1, c, q1, q2, q3, q4, q5⟩ := h4 k' i' hk
      refine ⟨l1, c, q1, q2, q3, q4, ?_⟩
      rw [← q5]
      exact if_neg (by have := hd k' i' hk; omega)
    · obtain ⟨c, q1, q2, -⟩ := StdHdl.sim init0.rel init0.srt (fun x hx => (h3 x hx).1) h2
      obtain ⟨b', hb', m1, -, m3, -⟩ := StdHdl.Rel.stored q2 hf
      obtain rfl : b' = b := by rw [hb] at hb'; exact (Option.some.inj hb').symm
      refine ⟨l, c, List.prefix_refl l, by rw [h1, he], q1, by rw [← m3, hst, hT], ?_⟩
      rw [← m1]
      exact if_pos ⟨rfl, rfl⟩
  · intro i hin
    rw [← h6 i hin]
    exact if_neg (by omega)

/-- Recorded before instance `j` in step `k + 1`. -/
def Done (o : Opts) (k j : ℕ) (k' i' : ℕ) : Prop := i' < o.n ∧ (k' < k ∨ (k' = k ∧ i' < j))

theorem step_upd (k j : ℕ) (hj : j < o.n)
    (hi : Inv g1 g2 g3 fp o d n (script fp o d k ++ evStep fp o d k j) (fun _ => clock fp (o.dt fp) (k + 1)) (Done o k j) s) :
    Tri (o.joint = true ∧ 1 < o.n) (updIdx g1 g2 g3 fp o d n (k + 1) s j)
      (Inv g1 g2 g3 fp o d n (script fp o d k ++ evStep fp o d k (j + 1)) (fun _ => clock fp (o.dt fp) (k + 1)) (Done o k (j + 1))) := by
  unfold updIdx
  refine Tri.bind (step_priv k j hj hi _) fun s1 i1 => ?_
  refine Tri.bind (step_joint k j hj i1) fun s2 i2 => ?_
  have e : script fp o d k ++ evStep fp o d k j ++ (if j = 0 then [.priv j (rowP 1) (one1 (o.stdP * o.stdP)) (one1 (d.pos j (k + 1)))] else []) ++
      (if o.joint = true ∧ 1 < o.n then
        [.joint j j ((j + 1) % o.n) (rowP (-1)) (rowP 1) (one1 (o.stdRel * o.stdRel)) (one1 (d.rel j (k + 1)))] else []) =
      script fp o d k ++ evStep fp o d k (j + 1) := by
    unfold evStep
    rw [List.range_succ, List.flatMap_append]
    simp only [List.flatMap_cons, List.flatMap_nil, List.append_nil, evObs, List.append_assoc]
  rw [e] at i2
  have := step_record k j hj rfl rfl (by unfold Done; intro k' i'; omega) i2 (o.joint = true ∧ 1 < o.n)
  have ed : (fun k' i' => Done o k j k' i' ∨ (k' = k ∧ i' = j)) = Done o k (j + 1) := by
    funext k' i'
    simp only [Done, eq_iff_iff]
    omega
  rwa [ed] at this

theorem step_all (k : ℕ) (hi : Inv g1 g2 g3 fp o d n (script fp o d k) (fun _ => clock fp (o.dt fp) k) (Done o k 0) s) :
    Tri (o.joint = true ∧ 1 < o.n) (stepIdx g1 g2 g3 fp o d n s (k + 1))
      (Inv g1 g2 g3 fp o d n (script fp o d (k + 1)) (fun _ => clock fp (o.dt fp) (k + 1)) (Done o (k + 1) 0)) := by
  unfold stepIdx
  simp only [List.range_eq_range']
  refine Tri.bind (forL_tri (fun j s => Inv g1 g2 g3 fp o d n (script fp o d k ++ (List.range j).map (evProp fp o d k))
    (fun i => clock fp (o.dt fp) (if i < j then k + 1 else k)) (Done o k 0) s) o.n 0 ?_ s ?_) ?_
  · intro j _ hj s h
    have := step_prop k j (by omega) h (o.joint = true ∧ 1 < o.n)
    rw [List.append_assoc, ← List.map_singleton (f := evProp fp o d k), ← List.map_append, ← List.range_succ] at this
    exact this
  · simpa using hi
  · intro s1 h1
    have h1' : Inv g1 g2 g3 fp o d n (script fp o d k ++ evStep fp o d k 0) (fun _ => clock fp (o.dt fp) (k + 1)) (Done o k 0) s1 := by
      obtain ⟨q1, q2, q3⟩ := h1
      refine ⟨?_, ?_, q3⟩
      · simpa [evStep] using q1
      · intro i hin
        have := q2 i hin
        rwa [if_pos (by omega)] at this
    have := forL_tri (fun j s => Inv g1 g2 g3 fp o d n (script fp o d k ++ evStep fp o d k j) (fun _ => clock fp (o.dt fp) (k + 1)) (Done o k j) s) o.n 0
      (fun j _ hj s h => step_upd k j (by omega) h) s1 h1'
    have e1 : script fp o d k ++ evStep fp o d k (0 + o.n) = script fp o d (k + 1) := by
      unfold script
      rw [List.range_succ, List.flatMap_append, Nat.zero_add]
      simp
    have e2 : Done o k (0 + o.n) = Done o (k + 1) 0 := by
      funext k' i'
      simp only [Done, eq_iff_iff]
      omega
    rw [e1, e2] at this
    exact this

/-- The whole program. -/
theorem main_tri (hn : o.samples fp = .ok n) (hpos : 0 < n) :
    Tri (o.joint = true ∧ 1 < o.n) (main g1 g2 g3 fp o d)
      (Inv g1 g2 g3 fp o d n (script fp o d (n - 1)) (fun _ => clock fp (o.dt fp) (n - 1)) (Done o (n - 1) 0)) := by
  unfold main
  rw [hn, Res.bind_ok]
  have := forL_tri (fun j s => Inv g1 g2 g3 fp o d n (script fp o d (j - 1)) (fun _ => clock fp (o.dt fp) (j - 1)) (Done o (j - 1) 0) s) (n - 1) 1
    (body := stepIdx g1 g2 g3 fp o d n) (T := o.joint = true ∧ 1 < o.n) (by
      intro j h1 _ s h
      obtain ⟨k, rfl⟩ : ∃ k, j = k + 1 := ⟨j - 1, by omega⟩
      exact step_all k h) ⟨hdl0 o d, fun i k => if i < o.n ∧ k = 0 then some (fp.fromSec (o.tArr fp n 0), (bel0 d i).mean) else none⟩ ?_
  · have e : 1 + (n - 1) - 1 = n - 1 := by omega
    rw [e] at this
    exact this
  · refine ⟨⟨[], by simp [script], .nil _, by simp, by intro k i hd; unfold Done at hd; omega⟩, ?_, ?_⟩
    · intro i hin
      unfold StdHdl.stamp
      rw [hdl0_find, if_pos hin]
      rfl
    · intro i hin
      exact if_pos ⟨hin, rfl⟩

theorem runs_covs {h h' : StdHdl} {l : List (StdEv × Bool)} (r : StdHdl.Runs g1 g2 g3 h l h') (hc : h.Covs) (hl : ∀ x ∈ l, Nice x.1) : h'.Covs := by
  induction r with
  | nil h => exact hc
  | @step h h1 h2 ev ans l hs r ih =>
    refine ih ?_ fun x hx => hl x (List.mem_cons_of_mem _ hx)
    refine hc.exec (g1 := g1) (g2 := g2) (g3 := g3) (c := .ev ev) (hl _ List.mem_cons_self).2 ?_
    simp only [StdHdl.exec, hs, Res.bind_ok]

theorem covs0 : (hdl0 o d).Covs := by
  intro x hx b hb
  obtain ⟨i, -, rfl⟩ := List.mem_map.mp hx
  obtain rfl := Option.some.inj hb
  exact diag_cov (by norm_num)

theorem samples_ok (h : 0 ≤ o.duration) : ∃ n, o.samples fp = .ok n ∧ 0 < n := by
  have z0 : fp.rnd 0 = 0 := by have := fp.exactInt 0 (by norm_num) (by norm_num); simpa using this
  have z1 : fp.rnd 1 = 1 := by have := fp.exactInt 1 (by norm_num) (by norm_num); simpa using this
  have hdt : 0 ≤ o.dt fp := by
    unfold Opts.dt
    rw [← z0]
    refine fp.mono _ _ ?_
    have : (0 : ℚ) ≤ (max 1 o.freq : ℤ) := by exact_mod_cast (by omega)
    positivity
  have h1 : 0 ≤ fp.rnd ((o.duration : ℚ) / o.dt fp) := by
    rw [← z0]
    refine fp.mono _ _ (div_nonneg (by exact_mod_cast h) hdt)
  have h2 : 1 ≤ fp.rnd (fp.rnd ((o.duration : ℚ) / o.dt fp) + 1) := by
    nth_rewrite 1 [← z1]
    exact fp.mono _ _ (by linarith)
  refine ⟨⌊fp.rnd (fp.rnd ((o.duration : ℚ) / o.dt fp) + 1)⌋.toNat, ?_, ?_⟩
  · unfold Opts.samples
    simp only [if_neg (not_lt.mpr h2)]
  · have : (1 : ℤ) ≤ ⌊fp.rnd (fp.rnd ((o.duration : ℚ) / o.dt fp) + 1)⌋ := Int.le_floor.mpr (by exact_mod_cast h2)
    omega

theorem samples_pos (h : o.samples fp = .ok n) : 0 < n := by
  unfold Opts.samples at h
  simp only at h
  split at h
  · simp at h
  · rename_i hx
    have : (1 : ℤ) ≤ ⌊fp.rnd (fp.rnd ((o.duration : ℚ) / o.dt fp) + 1)⌋ := Int.le_floor.mpr (by exact_mod_cast not_lt.mp hx)
    have := Res.ok.inj h
    omega

/-- C107: for every number of instances, duration (not negative), frequency and noise, whatever the generators yield: nothing
the program does is undefined; without joint observations it returns. With a negative duration it is undefined. -/
theorem c107_outcome_partial (g1 g2 g3 : ℕ → ℕ → ℝ) (fp : FP) (o : Opts) (d : Draws) :
    (0 ≤ o.duration → main g1 g2 g3 fp o d ≠ .ub ∧ (o.joint = false ∨ o.num ≤ 1 → ∃ s, main g1 g2 g3 fp o d = .ok s)) ∧
    (o.duration < 0 → o.freq ≤ 2147483647 → main g1 g2 g3 fp o d = .ub) := by
  constructor
  · intro h
    obtain ⟨n, hn, hp⟩ := samples_ok (fp := fp) h
    have := main_tri (g1 := g1) (g2 := g2) (g3 := g3) (d := d) hn hp
    cases hm : main g1 g2 g3 fp o d with
    | ub => rw [hm] at this; exact this.elim
    | ok s => exact ⟨by simp, fun _ => ⟨s, rfl⟩⟩
    | throws =>
      rw [hm] at this
      have q : o.joint = true ∧ 1 < o.n := this
      refine ⟨by simp, fun hh => ?_⟩
      exfalso
      rcases hh with hh | hh
      · rw [hh] at q; simp at q
      · have := q.2; unfold Opts.n at this; omega
  · intro h hf
    have z0 : fp.rnd 0 = 0 := by have := fp.exactInt 0 (by norm_num) (by norm_num); simpa using this
    have z1 : fp.rnd 1 = 1 := by have := fp.exactInt 1 (by norm_num) (by norm_num); simpa using this
    have zm : fp.rnd (-1) = -1 := by have := fp.exactInt (-1) (by norm_num) (by norm_num); simpa using this
    have hq1 : (1 : ℚ) ≤ (max 1 o.freq : ℤ) := by exact_mod_cast (by omega)
    have hq2 : ((max 1 o.freq : ℤ) : ℚ) ≤ 2147483647 := by exact_mod_cast (by omega)
    have hinv : (1 : ℚ) / 2147483647 ≤ 1 / (max 1 o.freq : ℤ) := one_div_le_one_div_of_le (by linarith) hq2
    have hinv1 : (1 : ℚ) / (max 1 o.freq : ℤ) ≤ 1 := by rw [div_le_one (by linarith)]; exact hq1
    have hdt1 : o.dt fp ≤ 1 := by
      have := fp.mono _ _ hinv1
      rw [z1] at this
      exact this
    have hdt0 : 0 < o.dt fp := by
      have := fp.relErr (1 / (max 1 o.freq : ℤ)) (by rw [abs_of_nonneg (by linarith [show (0:ℚ) < 1 / 2147483647 by norm_num])]; linarith [show (1:ℚ)/1000000000000000000000000000000 < 1 / 2147483647 by norm_num])
      rw [abs_of_nonneg (a := (1 : ℚ) / (max 1 o.freq : ℤ)) (by linarith [show (0:ℚ) < 1 / 2147483647 by norm_num]), abs_le] at this
      unfold Opts.dt
      have h0 : (0 : ℚ) < 1 / (max 1 o.freq : ℤ) := by linarith [show (0:ℚ) < 1 / 2147483647 by norm_num]
      linarith [this.1]
    have hD : (o.duration : ℚ) ≤ -1 := by exact_mod_cast (by omega)
    have h1 : (o.duration : ℚ) / o.dt fp ≤ -1 := by
      rw [div_le_iff₀ hdt0]; linarith
    have h2 : fp.rnd ((o.duration : ℚ) / o.dt fp) ≤ -1 := by
      rw [← zm]; exact fp.mono _ _ h1
    have h3 : fp.rnd (fp.rnd ((o.duration : ℚ) / o.dt fp) + 1) ≤ 0 := by
      rw [← z0]; exact fp.mono _ _ (by linarith)
    have : o.samples fp = .ub := by
      unfold Opts.samples
      simp only
      rw [if_pos (by linarith)]
    unfold main
    rw [this]; rfl

/-- If the program returns, with n samples: all beliefs and all cross-covariances that can be read are those of the
centralised filter after the calls of `script` (with the answers the filters gave; rejected ones change nothing), all
estimates have the same time, all covariances are covariance matrices, and the mean recorded for instance `i` at index `k + 1`
is that of the centralised filter after the first `k` steps, all propagations of step `k + 1` and the observations of the
instances 0, …, i of that step (not of the later ones). -/
theorem records_model {st : St} (hm : main g1 g2 g3 fp o d = .ok st) :
    ∃ n l c, o.samples fp = .ok n ∧ l.map (·.1) = script fp o d (n - 1) ∧ StdSpecRun dim2 (central0 d) l c ∧ StdHdl.Reads dim2 st.h c ∧ st.h.Covs ∧
      (∀ i < o.n, StdHdl.stamp st.h i = some (clock fp (o.dt fp) (n - 1))) ∧
      (∀ i < o.n, st.est i 0 = some (fp.fromSec (o.tArr fp n 0), (central0 d).mu i)) ∧
      ∀ k i, k + 1 < n → i < o.n → ∃ l1 c1, l1 <+: l ∧ l1.map (·.1) = script fp o d k ++ evStep fp o d k (i + 1) ∧
        StdSpecRun dim2 (central0 d) l1 c1 ∧ c1.tm i = clock fp (o.dt fp) (k + 1) ∧
        st.est i (k + 1) = some (fp.fromSec (o.tArr fp n (k + 1)), c1.mu i) := by
  cases hn : o.samples fp with
  | throws => unfold main at hm; rw [hn] at hm; simp [Bind.bind, Res.bind] at hm
  | ub => unfold main at hm; rw [hn] at hm; simp [Bind.bind, Res.bind] at hm
  | ok n =>
    have := main_tri (g1 := g1) (g2 := g2) (g3 := g3) (d := d) hn (samples_pos hn)
    rw [hm] at this
    obtain ⟨⟨l, h1, h2, h3, h4⟩, h5, h6⟩ := this
    obtain ⟨c, q1, q2, -⟩ := StdHdl.sim init0.rel init0.srt (fun x hx => (h3 x hx).1) h2
    exact ⟨n, l, c, rfl, h1, q1, StdHdl.reads q2, runs_covs h2 covs0 h3, h5, h6, fun k i hk hi => h4 k i ⟨hi, by omega⟩⟩

/-! ### The specification and the terms of the model -/

theorem bodies_eq (o : Opts) : Spec.bodies o = o.n := by
  unfold Spec.bodies Opts.n
  split <;> omega

theorem period_eq (fp : FP) (o : Opts) : Spec.period fp o = o.dt fp := by
  unfold Spec.period Opts.dt
  by_cases h : o.freq ≤ 1
  · rw [if_pos h, max_eq_left h]; simp
  · rw [if_neg h, max_eq_right (by omega)]

theorem after_eq (fp : FP) (o : Opts) (t : Int) : Spec.after fp o t = next fp (o.dt fp) t := by
  unfold Spec.after next
  rw [period_eq]

theorem time_eq (fp : FP) (o : Opts) (k : ℕ) : Spec.time fp o k = clock fp (o.dt fp) k := by
  induction k with
  | zero => rfl
  | succ k ih => rw [Spec.time, clock, ih, after_eq]

theorem sampleTime_eq (fp : FP) (o : Opts) (n k : ℕ) : Spec.sampleTime fp o n k = fp.fromSec (o.tArr fp n k) := rfl

theorem samples_eq (h : o.samples fp = .ok n) : (n : ℤ) = Spec.samples fp o := by
  have h0 := samples_pos h
  unfold Opts.samples at h
  unfold Spec.samples
  rw [period_eq]
  simp only at h
  split at h
  · simp at h
  · have := Res.ok.inj h
    omega

theorem m22_F (x : ℝ) : Spec.m22 1 x 0 1 = matF x := by
  refine Mat.ext' rfl rfl fun i j hi hj => ?_
  change i < 2 at hi; change j < 2 at hj
  interval_cases i <;> interval_cases j <;> simp [Spec.m22, matF, Mat.of]

theorem m22_diag (x : ℝ) : Spec.m22 x 0 0 x = Mat.of 2 2 (fun i j => if i = j then x else 0) := by
  refine Mat.ext' rfl rfl fun i j hi hj => ?_
  change i < 2 at hi; change j < 2 at hj
  interval_cases i <;> interval_cases j <;> simp [Spec.m22, Mat.of]

theorem m21_G (x : ℝ) : Spec.m21 (x^2 / 2) x = matG x := by
  unfold Spec.m21 matG
  rw [pow_two]

theorem prop_eq (k i : ℕ) : Spec.propagation fp o d k i = evProp fp o d k i := by
  unfold Spec.propagation evProp
  simp only [period_eq, after_eq, time_eq, m22_F, m21_G, m22_diag, pow_two]
  rfl

theorem obs_eq (k i : ℕ) (hi : i < o.n) : Spec.observations o d k i = evObs o d k i := by
  unfold Spec.observations evObs
  have hn : (if i + 1 < o.n then i + 1 else 0) = (i + 1) % o.n := by
    split
    · rename_i h; rw [Nat.mod_eq_of_lt h]
    · rename_i h; rw [show i + 1 = o.n by omega, Nat.mod_self]
  simp only [bodies_eq, hn, pow_two]
  by_cases h0 : i = 0
  · subst h0; rfl
  · rw [if_neg h0, if_neg h0]; rfl

theorem step_eq (k : ℕ) {j : ℕ} (hj : j ≤ o.n) : Spec.step fp o d k j = evStep fp o d k j := by
  unfold Spec.step evStep
  rw [bodies_eq, List.map_congr_left (fun i _ => prop_eq k i)]
  congr 1
  refine List.flatMap_congr fun i hi => obs_eq k i ?_
  rw [List.mem_range] at hi
  omega

theorem script_eq (k : ℕ) : Spec.script fp o d k = script fp o d k := by
  unfold Spec.script script
  exact List.flatMap_congr fun j _ => by rw [bodies_eq, step_eq j le_rfl]

theorem start_eq : Spec.start d = central0 d := by
  have h0 : Spec.m22 0 0 0 0 = Mat.zero 2 2 := by
    refine Mat.ext' rfl rfl fun i j hi hj => ?_
    simp [Spec.m22, Mat.zero, Mat.of]
  unfold Spec.start central0
  simp only [m22_diag, h0]
  rfl

/-- C107: if the program returns, with n samples: all beliefs and all cross-covariances that can be read are those of the
centralised filter after the calls of the script (with the answers the filters gave; rejected ones change nothing), all
estimates have the same time, all covariances are covariance matrices, and the mean recorded for body `i` at index `k + 1`
is that of the centralised filter after the first `k` steps, all propagations of step `k + 1` and the observations of the
bodies 0, …, i of that step (not of the later ones). -/
theorem c107_records {st : St} (hm : main g1 g2 g3 fp o d = .ok st) :
    ∃ (n : ℕ) (l : List (StdEv × Bool)) (c : Central), (n : ℤ) = Spec.samples fp o ∧ l.map (·.1) = Spec.script fp o d (n - 1) ∧
      StdSpecRun Spec.two (Spec.start d) l c ∧ StdHdl.Reads Spec.two st.h c ∧ st.h.Covs ∧
      (∀ i < Spec.bodies o, StdHdl.stamp st.h i = some (Spec.time fp o (n - 1))) ∧
      (∀ i < Spec.bodies o, st.est i 0 = some (Spec.sampleTime fp o n 0, (Spec.start d).mu i)) ∧
      ∀ k i, k + 1 < n → i < Spec.bodies o → ∃ l1 c1, l1 <+: l ∧ l1.map (·.1) = Spec.script fp o d k ++ Spec.step fp o d k (i + 1) ∧
        StdSpecRun Spec.two (Spec.start d) l1 c1 ∧ c1.tm i = Spec.time fp o (k + 1) ∧
        st.est i (k + 1) = some (Spec.sampleTime fp o n (k + 1), c1.mu i) := by
  obtain ⟨n, l, c, h1, h2, h3, h4, h5, h6, h7, h8⟩ := records_model hm
  refine ⟨n, l, c, samples_eq h1, by rw [h2, script_eq], by rw [start_eq]; exact h3, h4, h5, ?_, ?_, ?_⟩
  · simpa only [bodies_eq, time_eq] using h6
  · simpa only [bodies_eq, start_eq, sampleTime_eq] using h7
  · intro k i hk hi
    rw [bodies_eq] at hi
    obtain ⟨l1, c1, q1, q2, q3, q4, q5⟩ := h8 k i hk hi
    refine ⟨l1, c1, q1, by rw [q2, script_eq, step_eq k (by omega)], by rw [start_eq]; exact q3, by rw [time_eq]; exact q4, by rw [q5, sampleTime_eq]⟩

/-- C107: the options `--seed` and `--first_private_only` have no effect. -/
theorem c107_ignored_options_fails (g1 g2 g3 : ℕ → ℕ → ℝ) (fp : FP) (noise : ℤ → Opts → ℝ → Draws) (c : Cmd) (seed : ℤ) (b : Bool) :
    program g1 g2 g3 fp noise { c with seed := seed, firstPrivateOnly := b } = program g1 g2 g3 fp noise c := rfl

end
end SimpleCmd
end Ikf
