import Verif.Props.EndToEndExamples

/-! # Property C86: the whole stored trajectory is that of the centralised filter -/

namespace Ikf
open Mat

namespace Hdl

theorem Rel.agreesAt {dim : ℕ → ℕ} {h : Hdl} {c : Central} {s : Int} (ho : Ordered h) (hr : Rel dim (cut h (s + 1)) c) : AgreesAt dim h c s := by
  obtain ⟨a1, a2⟩ := hr.agrees
  have hs : ∀ p, (h.find p).isSome → c.tm p < s + 1 := by
    intro p hp
    obtain ⟨b, hb, -⟩ := hr.bel p (by rw [cut_sameDom h (s + 1) p]; exact hp)
    rw [bl_cut ho] at hb
    by_contra hc
    rw [if_neg hc] at hb
    simp at hb
  refine ⟨?_, ?_⟩
  · intro p i hf
    obtain ⟨b, hb, h2, h3⟩ := a1 p (i.removeFrom (s + 1)) (by rw [find_cut, hf]; rfl)
    refine ⟨b, ?_, h2, h3⟩
    have e : (i.removeFrom (s + 1)).bel = i.bel.filter fun e => decide (e.1 ≤ s) := by
      show (i.bel.removeAfter (s + 1)).removeAt (s + 1) = _
      rw [Buf.removeAfter_eq i.bel (ho.inst p i hf).bel.sorted]
      unfold Buf.removeAt
      rw [List.filter_filter]
      apply List.filter_congr
      intro e _
      rw [Bool.eq_iff_iff]; simp; omega
    rw [← e]; exact hb
  · intro p q hpq hp hq ht
    have e : Hdl.getSigma (cut h (s + 1)) p q (c.tm p) = Hdl.getSigma h p q (c.tm p) := by
      obtain ⟨i, hi⟩ := Option.isSome_iff_exists.mp hp
      obtain ⟨j, hj⟩ := Option.isSome_iff_exists.mp hq
      have hi' : (cut h (s + 1)).find p = some (i.removeFrom (s + 1)) := by rw [find_cut, hi]; rfl
      have hj' : (cut h (s + 1)).find q = some (j.removeFrom (s + 1)) := by rw [find_cut, hj]; rfl
      unfold Hdl.getSigma
      rw [get_ok hi, get_ok hi', Res.bind_ok, Res.bind_ok, get_ok hj, get_ok hj', Res.bind_ok, Res.bind_ok]
      simp only [Inst.getCCF_eq]
      rw [Inst.fac_removeFrom (ho.inst p i hi), Inst.fac_removeFrom (ho.inst q j hj), if_pos (hs p hp), if_pos (hs p hp)]
    rw [← e]
    exact a2 p q hpq (by rw [cut_sameDom h (s + 1) p]; exact hp) (by rw [cut_sameDom h (s + 1) q]; exact hq) ht

section
variable {P : Type _} {fp : FP} {dim : ℕ → ℕ} {near : Mat → Mat} {U : EkfUser P} {ok : Meas P → Prop} {h0 : Hdl} {c0 : Central} {keep : ℕ → Int} {t0 hi span : Int}

theorem split_filter {L : List (Meas P)} (hp : L.Pairwise Meas.before) (s : Int) :
    L = L.filter (fun m => decide (m.t ≤ s)) ++ L.filter (fun m => decide (s < m.t)) := by
  induction L with
  | nil => rfl
  | cons m L ih =>
    rw [List.pairwise_cons] at hp
    by_cases hm : m.t ≤ s
    · rw [List.filter_cons_of_pos (by simpa using hm), List.filter_cons_of_neg (by simp; omega), List.cons_append, ← ih hp.2]
    · have : ∀ x ∈ L, ¬ x.t ≤ s := by
        intro x hx
        have := hp.1 x hx
        unfold Meas.before at this
        omega
      rw [List.filter_cons_of_neg (by simpa using hm), List.filter_cons_of_pos (by simp; omega),
        List.filter_eq_nil_iff.mpr (by simpa using this), List.filter_eq_self.mpr (by intro x hx; have := this x hx; simp; omega)]
      rfl

theorem run_history (hnear : NearOk near) (hU : Proper dim U ok) (hg : GateOk U.cfg) (ht : Team fp dim h0 c0 keep t0 hi) (horizon : ℚ) {H : HState (Res Hdl) P} (hH : H.Fresh (.ok h0) horizon)
    (hz0 : 1 / 100000 ≤ |horizon|) (hz1 : |horizon| ≤ 8589934592) (hspan : |horizon| * 1000000000 + 10000 ≤ span) (hhi0 : t0 ≤ hi)
    (hhi : hi ≤ 8589934590000000000) (ops : List (HOp P)) (K : List (Meas P)) (hacc : Accepts (fun p => (h0.find p).isSome) |horizon| [] ops K)
    (hops : ∀ m ∈ arrivals ops, MeasOk m ∧ m.t ≤ hi)
    (hserved : ∀ n, Served U (fun p => (h0.find p).isSome) ok c0.tm keep span t0 hi (K.take n)) :
    ∃ L h, Chronological K L ∧ (ops.foldl (hStep fp (userInsts fp near U)) H).w = .ok h ∧ Ordered h ∧ SameDom h0 h ∧
      ∀ s, ∀ o ∈ K, o.t ≤ s → (∀ y ∈ K, y.t - o.t ≤ span) →
        ∃ c, CentralRun dim near U c0 (L.filter fun m => decide (m.t ≤ s)) c ∧
          (∀ c', CentralRun dim near U c0 (L.filter fun m => decide (m.t ≤ s)) c' → c' = c) ∧ AgreesAt dim h c s := by
  have hkey := (c84_accepted (fp := fp) hnear hU hg ht horizon hH hz0 hz1 hspan hhi0 hhi ops K hacc hops hserved).1
  have hd := holds_denotes (fp := fp) (span := span) hnear hU hg ht.free (fun p hp => (ht.start p hp).2) ht.t0 hhi (h0 := h0) (keep := keep)
  have hsv : Served U (fun p => (h0.find p).isSome) ok c0.tm keep span t0 hi K := by
    have := hserved K.length
    rwa [List.take_length] at this
  obtain ⟨⟨L, hL⟩, hall⟩ := denotes_run fp (userInsts fp near U) hd (.ok h0) (ht.holds hhi0) (hserved 0) horizon hH (spanOk hz0 hz1 hhi hspan) ops hops
    (fun n L hL => by
      obtain ⟨k, hk⟩ := timely_take fp (userInsts fp near U) ops H n
      rw [hk, hkey] at hL
      exact (hserved k).perm hL.1)
  obtain ⟨T, ⟨h, c, e, hdom, -, hrun, hr, hpast⟩, hT⟩ := hall L hL
  rw [hkey] at hL
  refine ⟨L, h, hL, e, hr.ordered, hdom, ?_⟩
  intro s o ho hos hy
  have hsvL := hsv.perm hL.1
  have hoL : o ∈ L := hL.1.symm.subset ho
  have hot := (hsv.time o ho).1
  have ht0' := ht.t0
  obtain ⟨c1, hrun1, hr1⟩ := hpast (s + 1) _ _ (by omega) (split_filter hL.2.1 s) ⟨o, by simp [hoL, hos], by
    have : T ≤ o.t + span := by
      have h1 := hy o ho
      refine hT _ (by omega) ?_
      intro y hyL
      have := hy y (hL.1.subset hyL)
      omega
    omega⟩ (by intro m hm; simp at hm; omega) (by intro m hm; simp at hm; omega)
  refine ⟨c1, hrun1, ?_, hr1.agreesAt hr.ordered⟩
  intro c' hc'
  exact CentralRun.unique hU (reg := fun p => (h0.find p).isSome)
    (fun m hm => ⟨(hsvL.known m (List.mem_filter.mp hm).1).1, (hsvL.known m (List.mem_filter.mp hm).1).2.2⟩)
    (fun m hm hk p hpm => (hsvL.reached m (List.mem_filter.mp hm).1 hk p hpm).1) (fun p hp => ht.init.rel.muS p hp) hc' hrun1

/-- C86. The situation of C84. Afterwards not only the newest estimates but all that are stored are those of the centralised filter:
what the isolated filters hold at any time `s` (at most the horizon before the newest accepted measurement) is what the centralised
filter holds after the accepted measurements up to `s`, however late and in whatever order they arrived. -/
theorem c86_history (hnear : NearOk near) (hU : Proper dim U ok) (hg : GateOk U.cfg) (ht : Team fp dim h0 c0 keep t0 hi) (horizon : ℚ) {H : HState (Res Hdl) P} (hH : H.Fresh (.ok h0) horizon)
    (hz0 : 1 / 100000 ≤ |horizon|) (hz1 : |horizon| ≤ 8589934592) (hspan : |horizon| * 1000000000 + 10000 ≤ span) (hhi0 : t0 ≤ hi)
    (hhi : hi ≤ 8589934590000000000) (ops : List (HOp P)) (K : List (Meas P)) (hacc : Accepts (fun p => (h0.find p).isSome) |horizon| [] ops K)
    (hops : ∀ m ∈ arrivals ops, MeasOk m ∧ m.t ≤ hi)
    (hserved : ∀ n, Served U (fun p => (h0.find p).isSome) ok c0.tm keep span t0 hi (K.take n)) :
    ∃ L h, Chronological K L ∧ (ops.foldl (hStep fp (userInsts fp near U)) H).w = .ok h ∧
      ∀ s, ∀ o ∈ K, o.t ≤ s → (∀ y ∈ K, y.t - o.t ≤ span) →
        ∃ c, CentralRun dim near U c0 (L.filter fun m => decide (m.t ≤ s)) c ∧
          (∀ c', CentralRun dim near U c0 (L.filter fun m => decide (m.t ≤ s)) c' → c' = c) ∧ AgreesAt dim h c s := by
  obtain ⟨L, h, hL, e, -, -, hall⟩ := run_history (fp := fp) hnear hU hg ht horizon hH hz0 hz1 hspan hhi0 hhi ops K hacc hops hserved
  exact ⟨L, h, hL, e, hall⟩

/-- C86, `get_belief_at_t`: at each time an instance was propagated to, its stored estimate is that of the centralised filter after the
accepted measurements up to that time. -/
theorem c86_belief_at (hnear : NearOk near) (hU : Proper dim U ok) (hg : GateOk U.cfg) (ht : Team fp dim h0 c0 keep t0 hi) (horizon : ℚ) {H : HState (Res Hdl) P} (hH : H.Fresh (.ok h0) horizon)
    (hz0 : 1 / 100000 ≤ |horizon|) (hz1 : |horizon| ≤ 8589934592) (hspan : |horizon| * 1000000000 + 10000 ≤ span) (hhi0 : t0 ≤ hi)
    (hhi : hi ≤ 8589934590000000000) (ops : List (HOp P)) (K : List (Meas P)) (hacc : Accepts (fun p => (h0.find p).isSome) |horizon| [] ops K)
    (hops : ∀ m ∈ arrivals ops, MeasOk m ∧ m.t ≤ hi)
    (hserved : ∀ n, Served U (fun p => (h0.find p).isSome) ok c0.tm keep span t0 hi (K.take n)) :
    ∃ L h, Chronological K L ∧ (ops.foldl (hStep fp (userInsts fp near U)) H).w = .ok h ∧
      ∀ x ∈ K, x.kind = .propagation → (∀ y ∈ K, y.t - x.t ≤ span) →
        ∃ c i b, CentralRun dim near U c0 (L.filter fun m => decide (m.t ≤ x.t)) c ∧
          (∀ c', CentralRun dim near U c0 (L.filter fun m => decide (m.t ≤ x.t)) c' → c' = c) ∧
          h.find x.id = some i ∧ i.beliefAt x.t = some b ∧ b.mean = c.mu x.id ∧ b.Sigma = c.cov x.id x.id := by
  obtain ⟨L, h, hL, e, ho, hdom, hall⟩ := run_history (fp := fp) hnear hU hg ht horizon hH hz0 hz1 hspan hhi0 hhi ops K hacc hops hserved
  refine ⟨L, h, hL, e, ?_⟩
  intro x hx hk hy
  obtain ⟨c, hrun, huniq, ha, -⟩ := hall x.t x hx (le_refl _) hy
  have hsv := hserved K.length
  rw [List.take_length] at hsv
  have hp : (h.find x.id).isSome := by rw [hdom x.id]; exact (hsv.known x hx).1
  obtain ⟨i, hi⟩ := Option.isSome_iff_exists.mp hp
  obtain ⟨b, hb, hm, hS⟩ := ha x.id i hi
  refine ⟨c, i, b, hrun, huniq, hi, ?_, hm, hS⟩
  have htm : c.tm x.id = x.t := by
    rw [hrun.clock x.id]
    exact clock_eq x.id _ x.t _ (List.Pairwise.sublist List.filter_sublist hL.2.1) (by intro m hm; simp at hm; exact hm.2)
      (x := x) (by simp [hL.1.symm.subset hx]) hk rfl rfl
  have hmem := (List.mem_filter.mp (List.mem_of_getLast? hb)).1
  rw [htm] at hmem
  rw [Inst.beliefAt_eq]
  exact (Buf.absMap_eq_some _ (ho.inst _ i hi).bel _ _).mpr hmem

end

namespace EndExample

/-- The premises of `c86_history` and `c86_belief_at` hold for the run of C84's example: a joint observation of time 1 s, delayed to after
2 s, corrects the stored estimate of time 1 s as the centralised filter does that gets the four measurements up to 1 s. -/
example (g : ℕ → ℕ → ℝ) : ∃ L h, Chronological (arrivals ops) L ∧
    (ops.foldl (hStep FP.exact (userInsts FP.exact Example.near (Linear1D.user FP.exact g))) (Handler.init (.ok (team 30)) 10)).w = .ok h ∧
    ∃ c, CentralRun (fun _ => 2) Example.near (Linear1D.user FP.exact g) c0 (L.filter fun m => decide (m.t ≤ 1000000000)) c ∧
      AgreesAt (fun _ => 2) h c 1000000000 := by
  have h10 : |(10 : ℚ)| = 10 := by norm_num
  have hacc := ops_prompt.accepts (kn := fun p => (SMap.find (team 30) p).isSome) (fun m hm => (ops_known 30 m hm).1)
  obtain ⟨L, h, hL, e, hall⟩ := c86_history (fp := FP.exact) Example.nearOk (Linear1D.proper FP.exact g) GateOk.default theTeam 10 (.init _ _) (by norm_num) (by norm_num)
    (by norm_num) (by norm_num) (by norm_num) ops _ (by rw [h10]; exact hacc) (fun m hm => ⟨ops_ok m hm, (ops_time m hm).2⟩)
    (fun n => served g (fun m hm => (List.take_sublist n _).subset hm) (List.Pairwise.sublist (List.take_sublist n _) ops_once) (ops_reached 30 g n))
  obtain ⟨c, hc, -, ha⟩ := hall 1000000000 ⟨1, 500000000, .propagation, dat 1 0⟩ (by simp [ops, ms, arrivals]) (by simp) (by
    intro y hy
    have := (ops_time y hy).2
    show y.t - 500000000 ≤ 10000010000
    omega)
  exact ⟨L, h, hL, e, c, hc, ha⟩

end EndExample
end Hdl
end Ikf
