import Verif.Lemmas.EndToEnd
import Verif.Props.Isolated

/-! # Property C84: delayed measurements, isolated filters, one centralised filter -/

namespace Ikf
open Mat

section
variable {P : Type _} {dim : ℕ → ℕ} {near : Mat → Mat} {U : EkfUser P} {ok : Meas P → Prop} {c c1 c2 c0 : Central} {m : Meas P}

/-! ## The centralised filter is a function of the measurements -/

theorem sideBySide_unique {dH : SMap Mat} (hd : dH.Sorted) (hne : dH ≠ []) {H H' : Mat} (h1 : SideBySide dH H) (h2 : SideBySide dH H') : H = H' := by
  obtain ⟨e, he⟩ := List.exists_mem_of_ne_nil _ hne
  refine Mat.ext' (by rw [← (h1.2 e he).1, ← (h2.2 e he).1]) (by rw [h1.1, h2.1]) ?_
  intro i j hi hj
  rw [h1.1] at hj
  have hn : ((dH.map fun e => (e.1, e.2.cols)).map (·.1)).Nodup := by
    rw [List.map_map]
    exact Hdl.Sorted.nodup hd
  obtain ⟨q, hq, j', hj', rfl⟩ := off_cover hn hj
  obtain ⟨x, hx, rfl⟩ := List.mem_map.mp hq
  rw [(h1.2 x hx).2 i j' hj', (h2.2 x hx).2 i j' hj']

theorem participants_nodup {dH : SMap Mat} (hd : dH.Sorted) : ((participants dim c dH).map (·.1)).Nodup := by
  unfold participants
  rw [List.map_map]
  have : ((fun x : ℕ × ℕ => x.1) ∘ fun p => (p, dim p)) = id := rfl
  rw [this, List.map_id]
  exact (Hdl.Sorted.nodup hd).filter _

theorem joint_unique {dH : SMap Mat} (hd : dH.Sorted) (hne : dH ≠ []) {R r : Mat} {t : Int} {cfg : Cfg}
    (h1 : SpecStep dim near c (.jointR dH R r t cfg) c1) (h2 : SpecStep dim near c (.jointR dH R r t cfg) c2) : c1 = c2 := by
  cases h1 with
  | jointR _ _ _ _ _ H S res hH hS h hr =>
    cases h2 with
    | jointR _ _ _ _ _ H' S' res' hH' hS' h' hr' =>
      rw [sideBySide_unique hd hne hH' hH, stacked_unique (participants_nodup hd) hS' hS, h] at h'
      rw [Res.ok.inj h']

theorem joint_gate_excl {dH : SMap Mat} (hd : dH.Sorted) (hne : dH ≠ []) {R r : Mat} {t : Int} {cfg : Cfg}
    (h1 : SpecStep dim near c (.jointR dH R r t cfg) c1) (h2 : c.GateJoint dim dH R r cfg) : False := by
  cases h1 with
  | jointR _ _ _ _ _ H S res hH hS h hr =>
    obtain ⟨H', S', res', hH', hS', h', hr'⟩ := h2
    rw [sideBySide_unique hd hne hH' hH, stacked_unique (participants_nodup hd) hS' hS, h] at h'
    rw [Res.ok.inj h', hr'] at hr
    simp at hr

theorem priv_unique {id : ℕ} {H R r : Mat} {t : Int} {cfg : Cfg}
    (h1 : SpecStep dim near c (.privEKF id H R r t cfg) c1) (h2 : SpecStep dim near c (.privEKF id H R r t cfg) c2) : c1 = c2 := by
  cases h1 with
  | privEKF _ _ _ _ _ _ res h hr =>
    cases h2 with
    | privEKF _ _ _ _ _ _ res' h' hr' =>
      rw [h] at h'
      rw [Res.ok.inj h']

theorem priv_gate_excl {id : ℕ} {H R r : Mat} {t : Int} {cfg : Cfg}
    (h1 : SpecStep dim near c (.privEKF id H R r t cfg) c1) (h2 : c.GatePriv id H R r cfg) : False := by
  cases h1 with
  | privEKF _ _ _ _ _ _ res h hr =>
    obtain ⟨res', h', hr'⟩ := h2
    rw [h] at h'
    rw [Res.ok.inj h', hr'] at hr
    simp at hr

/-- One outcome per measurement, if joint observations have participants in order. -/
theorem MeasSpec.unique (hj : ∀ dH R r, m.kind = .joint → U.joint m.id m.data m.t ((U.parts m.id m.data).map c.mu) = .ok (dH, R, r) → dH.Sorted ∧ dH ≠ [])
    (h1 : MeasSpec dim near U c m c1) (h2 : MeasSpec dim near U c m c2) : c1 = c2 := by
  have s1 : ∀ H : Mat, SMap.Sorted [(m.id, H)] := fun H => by simp [SMap.Sorted]
  cases h1 with
  | prop mb Phi Q _ hk hlt hU hs =>
    cases h2 with
    | prop mb' Phi' Q' _ hk' hlt' hU' hs' =>
      rw [hU] at hU'
      obtain ⟨rfl, e⟩ := Prod.mk.inj (Res.ok.inj hU')
      obtain ⟨rfl, rfl⟩ := Prod.mk.inj e
      cases hs; cases hs'; rfl
    | _ => simp_all
  | privNone hk hne => cases h2 <;> simp_all
  | priv H R r _ hk ht hv hU hs =>
    cases h2 with
    | priv H' R' r' _ hk' ht' hv' hU' hs' =>
      rw [hU] at hU'
      obtain ⟨rfl, e⟩ := Prod.mk.inj (Res.ok.inj hU')
      obtain ⟨rfl, rfl⟩ := Prod.mk.inj e
      exact priv_unique hs hs'
    | privGate H' R' r' hk' ht' hv' hU' hg =>
      rw [hU] at hU'
      obtain ⟨rfl, e⟩ := Prod.mk.inj (Res.ok.inj hU')
      obtain ⟨rfl, rfl⟩ := Prod.mk.inj e
      exact (priv_gate_excl hs hg).elim
    | _ => simp_all
  | privGate H R r hk ht hv hU hg =>
    cases h2 with
    | priv H' R' r' _ hk' ht' hv' hU' hs' =>
      rw [hU] at hU'
      obtain ⟨rfl, e⟩ := Prod.mk.inj (Res.ok.inj hU')
      obtain ⟨rfl, rfl⟩ := Prod.mk.inj e
      exact (priv_gate_excl hs' hg).elim
    | privGate => rfl
    | _ => simp_all
  | privH H R r _ hk ht hv hU hs =>
    cases h2 with
    | privH H' R' r' _ hk' ht' hv' hU' hs' =>
      rw [hU] at hU'
      obtain ⟨rfl, e⟩ := Prod.mk.inj (Res.ok.inj hU')
      obtain ⟨rfl, rfl⟩ := Prod.mk.inj e
      exact joint_unique (s1 _) (by simp) hs hs'
    | privHGate H' R' r' hk' ht' hv' hU' hg =>
      rw [hU] at hU'
      obtain ⟨rfl, e⟩ := Prod.mk.inj (Res.ok.inj hU')
      obtain ⟨rfl, rfl⟩ := Prod.mk.inj e
      exact (joint_gate_excl (s1 _) (by simp) hs hg).elim
    | _ => simp_all
  | privHGate H R r hk ht hv hU hg =>
    cases h2 with
    | privH H' R' r' _ hk' ht' hv' hU' hs' =>
      rw [hU] at hU'
      obtain ⟨rfl, e⟩ := Prod.mk.inj (Res.ok.inj hU')
      obtain ⟨rfl, rfl⟩ := Prod.mk.inj e
      exact (joint_gate_excl (s1 _) (by simp) hs' hg).elim
    | privHGate => rfl
    | _ => simp_all
  | joint dH R r _ hk ht hU hs =>
    obtain ⟨g1, g2⟩ := hj dH R r hk hU
    cases h2 with
    | joint dH' R' r' _ hk' ht' hU' hs' =>
      rw [hU] at hU'
      obtain ⟨rfl, e⟩ := Prod.mk.inj (Res.ok.inj hU')
      obtain ⟨rfl, rfl⟩ := Prod.mk.inj e
      exact joint_unique g1 g2 hs hs'
    | jointGate dH' R' r' hk' ht' hU' hg =>
      rw [hU] at hU'
      obtain ⟨rfl, e⟩ := Prod.mk.inj (Res.ok.inj hU')
      obtain ⟨rfl, rfl⟩ := Prod.mk.inj e
      exact (joint_gate_excl g1 g2 hs hg).elim
    | _ => simp_all
  | jointGate dH R r hk ht hU hg =>
    obtain ⟨g1, g2⟩ := hj dH R r hk hU
    cases h2 with
    | joint dH' R' r' _ hk' ht' hU' hs' =>
      rw [hU] at hU'
      obtain ⟨rfl, e⟩ := Prod.mk.inj (Res.ok.inj hU')
      obtain ⟨rfl, rfl⟩ := Prod.mk.inj e
      exact (joint_gate_excl g1 g2 hs' hg).elim
    | jointGate => rfl
    | _ => simp_all

/-- Means keep their sizes. -/
theorem MeasSpec.muS (hU : Proper dim U ok) (hm : ok m) {reg : ℕ → Bool} (hid : reg m.id = true) (h : MeasSpec dim near U c m c1)
    (hs : ∀ p, reg p = true → (c.mu p).Shape (dim p) 1) : ∀ p, reg p = true → (c1.mu p).Shape (dim p) 1 := by
  have hjoint : ∀ {dH R r t cfg}, SpecStep dim near c (.jointR dH R r t cfg) c1 → ∀ p, reg p = true → (c1.mu p).Shape (dim p) 1 := by
    intro dH R r t cfg h p hp
    cases h
    simp only [Central.joint]
    split
    · exact hs p hp
    · exact hs p hp
  cases h with
  | prop mb Phi Q _ hk hlt hU' hs' =>
    obtain ⟨mb', Phi', Q', e, -, -, -, q⟩ := hU.prop m (c.tm m.id) (c.mu m.id) hm hk (hs _ hid)
    rw [hU'] at e
    obtain ⟨rfl, -⟩ := Prod.mk.inj (Res.ok.inj e)
    intro p hp
    cases hs'
    simp only [Central.transform]
    split
    · rename_i h; rw [h]; exact q
    · exact hs p hp
  | privNone hk hne => exact hs
  | priv H R r _ hk ht hv hU' hs' =>
    intro p hp
    cases hs'
    simp only [Central.transform]
    split
    · rename_i h; rw [h]; exact hs _ hid
    · exact hs p hp
  | privGate H R r hk ht hv hU' hg => exact hs
  | privH H R r _ hk ht hv hU' hs' => exact hjoint hs'
  | privHGate H R r hk ht hv hU' hg => exact hs
  | joint dH R r _ hk ht hU' hs' => exact hjoint hs'
  | jointGate dH R r hk ht hU' hg => exact hs

theorem CentralRun.unique (hU : Proper dim U ok) {reg : ℕ → Bool} {L : List (Meas P)} (hL : ∀ m ∈ L, reg m.id = true ∧ ok m)
    (hp : ∀ m ∈ L, m.kind = .joint → ∀ p ∈ U.parts m.id m.data, reg p = true)
    (hs : ∀ p, reg p = true → (c0.mu p).Shape (dim p) 1) (h1 : CentralRun dim near U c0 L c1) (h2 : CentralRun dim near U c0 L c2) : c1 = c2 := by
  have key : ∀ L c1, CentralRun dim near U c0 L c1 → (∀ m ∈ L, reg m.id = true ∧ ok m) →
      (∀ m ∈ L, m.kind = .joint → ∀ p ∈ U.parts m.id m.data, reg p = true) →
      (∀ p, reg p = true → (c1.mu p).Shape (dim p) 1) ∧ ∀ c2, CentralRun dim near U c0 L c2 → c1 = c2 := by
    intro L c1 h1
    induction h1 with
    | nil =>
      intro _ _
      refine ⟨hs, ?_⟩
      intro c2 h2
      generalize hK : ([] : List (Meas P)) = K at h2
      cases h2 with
      | nil => rfl
      | snoc r h => simp at hK
    | snoc r h ih =>
      rename_i L c m c'
      intro hL hp
      obtain ⟨i1, i2⟩ := ih (fun x hx => hL x (by simp [hx])) (fun x hx => hp x (by simp [hx]))
      obtain ⟨k1, k2⟩ := hL m (by simp)
      refine ⟨h.muS hU k2 k1 i1, ?_⟩
      intro c2 h2
      generalize hK : L ++ [m] = K at h2
      cases h2 with
      | nil => simp at hK
      | snoc r' h' =>
        obtain ⟨e1, e2⟩ := List.append_inj' hK rfl
        have e2 := List.singleton_inj.mp e2
        subst e1; subst e2
        have := i2 _ r'
        subst this
        refine h.unique ?_ h'
        intro dH R r hk hj
        obtain ⟨dH', R', r', e, q1, q2, -⟩ := hU.joint m c.mu k2 hk (fun p hpm => i1 p (hp m (by simp) hk p hpm))
        rw [hj] at e
        obtain ⟨rfl, -⟩ := Prod.mk.inj (Res.ok.inj e)
        exact ⟨q1, q2⟩
  exact (key L c1 h1 hL hp).2 c2 h2

end

namespace Hdl
section
variable {P : Type _} {fp : FP} {dim : ℕ → ℕ} {near : Mat → Mat} {U : EkfUser P} {ok : Meas P → Prop} {h : Hdl} {c c0 : Central}

theorem Rel.agrees (hr : Rel dim h c) : Agrees dim h c := by
  refine ⟨?_, ?_⟩
  · intro p i hf
    have hp : (h.find p).isSome := by rw [hf]; rfl
    obtain ⟨b, h1, h2, h3, -⟩ := hr.bel p hp
    rw [bl_of_find hf] at h1
    refine ⟨b, ?_, h2, h3⟩
    obtain ⟨i', e, hi', hl, he⟩ := Newest.of_rel hr hp rfl
    rw [hf] at hi'
    obtain rfl := Option.some.inj hi'
    have ho := (hr.ok.ord p i hf).bel
    have h4 : i.bel.absMap e.1 = some e.2 := (Buf.absMap_eq_some _ ho _ _).mpr (List.mem_of_getLast? hl)
    rw [Inst.beliefAt_eq] at h1
    rw [he, h1] at h4
    rw [hl, ← he, Option.some.inj h4]
  · intro p q hpq hp hq ht
    rcases hr.getSigma hp hq hpq rfl ht.symm with ⟨g, -⟩ | ⟨g, -, g2⟩
    · exact Or.inl g
    · exact Or.inr ⟨g, g2⟩

end

/-! ## C84 -/

section
variable {P : Type _}

theorem spanOk {fp : FP} {hz : ℚ} (h0 : 1 / 100000 ≤ hz) (h1 : hz ≤ 8589934592) {B span : Int} (hB : B ≤ 8589934590000000000)
    (hspan : hz * 1000000000 + 10000 ≤ span) : SpanOk P fp hz B span := by
  intro b o l ht hs hk ho hl
  have hid : Buf.checkHorizon fp hz b = b := by
    unfold Buf.checkHorizon
    split
    · rename_i hc
      have hlat : b.latest = some l := hl
      rw [hlat]
      simp only
      rw [horizon_eq fp b o l ho hl] at hc
      have hlen : 1 < b.length := by
        by_contra hcon
        have : b.length = 1 := by omega
        obtain ⟨x, hx⟩ := List.length_eq_one_iff.mp this
        rw [hx] at ho hl
        simp at ho hl
        rw [← ho, ← hl, sub_self, fp.rnd_zero] at hc
        linarith [hc.2]
      rw [Buf.removeBefore_eq b hs]
      rcases ht o l ho hl hlen hc.2 with h2 | h2
      · rw [if_pos ⟨o, List.mem_of_head? ho, h2⟩]
        rw [List.filter_eq_self]
        intro e he
        have := Buf.SortedKeys.head_le hs ho e he
        simp; omega
      · rw [if_neg]
        rintro ⟨e, he, h3⟩
        have := hs.le_getLast hl e he
        omega
    · rfl
  have := (c15_span fp hz b hs h0 h1 (fun e he => ⟨(hk e he).1, le_trans (hk e he).2 hB⟩) l hl).1 o (by rw [hid]; exact List.mem_of_head? ho)
  have h2 : ((l.1 - o.1 : ℤ) : ℚ) ≤ span := by linarith
  exact_mod_cast h2

theorem _root_.Ikf.Served.perm {U : EkfUser P} {reg : ℕ → Bool} {ok : Meas P → Prop} {start keep : ℕ → Int} {span t0 hi : Int} {A L : List (Meas P)}
    (hp : L.Perm A) (h : Served U reg ok start keep span t0 hi A) : Served U reg ok start keep span t0 hi L := by
  refine ⟨fun m hm => h.known m (hp.subset hm), fun m hm => h.time m (hp.subset hm), ?_, ?_, ?_⟩
  · refine (hp.pairwise_iff ?_).mpr h.once
    intro a b hab h1 h2 h3 h4
    exact hab h2 h1 h3.symm h4.symm
  · intro m hm hk p hpm
    obtain ⟨h1, x, hx, h2⟩ := h.reached m (hp.subset hm) hk p hpm
    exact ⟨h1, x, hp.symm.subset hx, h2⟩
  · intro o ho x hx hk h1 h2
    obtain ⟨s, hs, h3⟩ := h.fresh o (hp.subset ho) x (hp.subset hx) hk h1 h2
    refine ⟨s, ?_, h3⟩
    rcases hs with hs | ⟨y, hy, h4⟩
    · exact Or.inl hs
    · exact Or.inr ⟨y, hp.symm.subset hy, h4⟩

/-- The instances `h0` as initialised at or before `t0`, none of them fixed, all with histories that reach back `keep p` ns (10 µs
more, for rounding) or, without trimming, over all times up to `hi`; the centralised filter `c0` starts from the same estimates,
without correlations. -/
structure Team (fp : FP) (dim : ℕ → ℕ) (h0 : Hdl) (c0 : Central) (keep : ℕ → Int) (t0 hi : Int) : Prop where
  init : Init dim h0 c0
  free : ∀ p, (h0.find p).isSome → c0.fix p = false
  start : ∀ p, (h0.find p).isSome → 0 ≤ c0.tm p ∧ c0.tm p ≤ t0
  t0 : 0 ≤ t0
  keep : ∀ p i, h0.find p = some i → 0 ≤ keep p ∧ ((keep p : ℚ) + 10000 ≤ i.hor * 1000000000 ∨ fp.secOfKey hi ≤ i.hor)

variable {fp : FP} {dim : ℕ → ℕ} {near : Mat → Mat} {U : EkfUser P} {ok : Meas P → Prop} {h0 : Hdl} {c0 : Central} {keep : ℕ → Int} {t0 hi span : Int}

theorem Team.holds (ht : Team fp dim h0 c0 keep t0 hi) (hhi : t0 ≤ hi) : Holds fp near U dim h0 c0 keep span t0 hi 0 [] (.ok h0) := by
  refine ⟨h0, c0, rfl, SameDom.refl _, ?_, .nil, ht.init.rel, ?_⟩
  · intro p i hi'
    refine ⟨ht.keep p i hi', ?_⟩
    have hp : (h0.find p).isSome := by rw [hi']; rfl
    have hs := ht.start p hp
    have hr := ht.init.rel
    obtain ⟨hor, b, e, -⟩ := ht.init.inst p i hi'
    have ho := hr.ok.ord p i hi'
    refine ⟨?_, ?_⟩
    · intro s x hx
      have : s = c0.tm p := by
        rw [Inst.beliefAt_eq, Buf.absMap_eq_some _ ho.bel, e] at hx
        simp only [Inst.doInit] at hx
        have hx' : (s, x) ∈ ([(c0.tm p, b)] : Buf Belief) := hx
        simp at hx'
        exact hx'.1
      omega
    · intro q s M hM
      rw [e] at hM
      have : (Inst.doInit ⟨[], [], hor⟩ b (c0.tm p)).fac q s = none := rfl
      rw [this] at hM; simp at hM
  · rintro t L1 L2 _ hL ⟨o, ho, -⟩
    have := List.append_eq_nil_iff.mp hL.symm
    rw [this.1] at ho
    simp at ho

/-- C84. Measurements arrive at the handler in any order, delayed by up to its horizon, with redo requests in between. If, after
each arrival, the ones accepted so far are ones the filters can process (`Served`), then the program does not crash, and all
estimates and cross-covariances of the isolated filters are those of the one centralised filter that gets the accepted
measurements in chronological order. -/
theorem c84_centralised (hnear : NearOk near) (hU : Proper dim U ok) (hg : GateOk U.cfg) (ht : Team fp dim h0 c0 keep t0 hi) (horizon : ℚ) {H : HState (Res Hdl) P} (hH : H.Fresh (.ok h0) horizon)
    (hz0 : 1 / 100000 ≤ |horizon|) (hz1 : |horizon| ≤ 8589934592) (hspan : |horizon| * 1000000000 + 10000 ≤ span) (hhi0 : t0 ≤ hi)
    (hhi : hi ≤ 8589934590000000000) (ops : List (HOp P)) (hops : ∀ m ∈ arrivals ops, MeasOk m ∧ m.t ≤ hi)
    (hserved : ∀ n, Served U (fun p => (h0.find p).isSome) ok c0.tm keep span t0 hi
      (timely fp (userInsts fp near U) H (ops.take n))) :
    ∃ L c h, Chronological (timely fp (userInsts fp near U) H ops) L ∧
      CentralRun dim near U c0 L c ∧ (∀ c', CentralRun dim near U c0 L c' → c' = c) ∧
      (ops.foldl (hStep fp (userInsts fp near U)) H).w = .ok h ∧ Agrees dim h c := by
  have hd := holds_denotes (fp := fp) (span := span) hnear hU hg ht.free (fun p hp => (ht.start p hp).2) ht.t0 hhi (h0 := h0) (keep := keep)
  have hg0 : Served U (fun p => (h0.find p).isSome) ok c0.tm keep span t0 hi ([] : List (Meas P)) := by
    have := hserved 0
    simpa [timely] using this
  obtain ⟨⟨L, hL⟩, hall⟩ := denotes_run fp (userInsts fp near U) hd (.ok h0) (ht.holds hhi0) hg0 horizon hH (spanOk hz0 hz1 hhi hspan) ops hops
    (fun n L hL => (hserved n).perm hL.1)
  obtain ⟨T, ⟨h, c, e, -, -, hrun, hr, -⟩, -⟩ := hall L hL
  refine ⟨L, c, h, hL, hrun, ?_, e, hr.agrees⟩
  intro c' hc'
  have hsv : Served U (fun p => (h0.find p).isSome) ok c0.tm keep span t0 hi L := by
    have := hserved ops.length
    rw [List.take_length] at this
    exact this.perm hL.1
  exact CentralRun.unique hU (reg := fun p => (h0.find p).isSome) (fun m hm => ⟨(hsv.known m hm).1, (hsv.known m hm).2.2⟩)
    (fun m hm hk p hpm => (hsv.reached m hm hk p hpm).1) (fun p hp => ht.init.rel.muS p hp) hc' hrun

/-- C84, with the condition on the arrivals alone: each arrival is in time (and accepted) or of an unknown instance or not newer than
anything accepted (and discarded); `K` are the accepted ones. The estimates are those of the centralised filter that gets `K` in
chronological order. -/
theorem c84_accepted (hnear : NearOk near) (hU : Proper dim U ok) (hg : GateOk U.cfg) (ht : Team fp dim h0 c0 keep t0 hi) (horizon : ℚ) {H : HState (Res Hdl) P} (hH : H.Fresh (.ok h0) horizon)
    (hz0 : 1 / 100000 ≤ |horizon|) (hz1 : |horizon| ≤ 8589934592) (hspan : |horizon| * 1000000000 + 10000 ≤ span) (hhi0 : t0 ≤ hi)
    (hhi : hi ≤ 8589934590000000000) (ops : List (HOp P)) (K : List (Meas P)) (hacc : Accepts (fun p => (h0.find p).isSome) |horizon| [] ops K)
    (hops : ∀ m ∈ arrivals ops, MeasOk m ∧ m.t ≤ hi)
    (hserved : ∀ n, Served U (fun p => (h0.find p).isSome) ok c0.tm keep span t0 hi (K.take n)) :
    timely fp (userInsts fp near U) H ops = K ∧
    ∃ L c h, Chronological K L ∧ CentralRun dim near U c0 L c ∧ (∀ c', CentralRun dim near U c0 L c' → c' = c) ∧
      (ops.foldl (hStep fp (userInsts fp near U)) H).w = .ok h ∧ Agrees dim h c := by
  have hd := holds_denotes (fp := fp) (span := span) hnear hU hg ht.free (fun p hp => (ht.start p hp).2) ht.t0 hhi (h0 := h0) (keep := keep)
  have hg0 : Served U (fun p => (h0.find p).isSome) ok c0.tm keep span t0 hi ([] : List (Meas P)) := hserved 0
  have key : timely fp (userInsts fp near U) H ops = K := by
    refine timely_accepts fp (userInsts fp near U) hd (spanOk hz0 hz1 hhi hspan) hz0 hz1 hhi ops hops
      H [] K [] (hH.convR (ht.holds hhi0) hg0) ?_
      hacc (by simp) (by simp)
    intro n L hL
    rw [List.nil_append] at hL
    exact (hserved n).perm hL.1
  refine ⟨key, ?_⟩
  have := c84_centralised (fp := fp) hnear hU hg ht horizon hH hz0 hz1 hspan hhi0 hhi ops hops (fun n => by
    obtain ⟨k, hk⟩ := timely_take fp (userInsts fp near U) ops H n
    rw [hk, key]
    exact hserved k)
  rw [key] at this
  exact this

/-- C84, when no arrival is later than the horizon (`Prompt`). Then all arrivals are accepted, and the estimates are those of the
centralised filter that gets all of them in chronological order. -/
theorem c84_prompt (hnear : NearOk near) (hU : Proper dim U ok) (hg : GateOk U.cfg) (ht : Team fp dim h0 c0 keep t0 hi) (horizon : ℚ) {H : HState (Res Hdl) P} (hH : H.Fresh (.ok h0) horizon)
    (hz0 : 1 / 100000 ≤ |horizon|) (hz1 : |horizon| ≤ 8589934592) (hspan : |horizon| * 1000000000 + 10000 ≤ span) (hhi0 : t0 ≤ hi)
    (hhi : hi ≤ 8589934590000000000) (ops : List (HOp P)) (hprompt : Prompt |horizon| [] ops) (hops : ∀ m ∈ arrivals ops, MeasOk m)
    (hserved : ∀ n, Served U (fun p => (h0.find p).isSome) ok c0.tm keep span t0 hi ((arrivals ops).take n)) :
    ∃ L c h, Chronological (arrivals ops) L ∧ CentralRun dim near U c0 L c ∧ (∀ c', CentralRun dim near U c0 L c' → c' = c) ∧
      (ops.foldl (hStep fp (userInsts fp near U)) H).w = .ok h ∧ Agrees dim h c := by
  have h1 := hserved (arrivals ops).length
  rw [List.take_length] at h1
  exact (c84_accepted hnear hU hg ht horizon hH hz0 hz1 hspan hhi0 hhi ops (arrivals ops) (hprompt.accepts fun m hm => (h1.known m hm).1)
    (fun m hm => ⟨hops m hm, (h1.time m hm).2⟩) hserved).2

/-- C84. The order of arrival does not matter: the same measurements, arriving in two orders, give the same estimates. -/
theorem c84_order_irrelevant (hnear : NearOk near) (hU : Proper dim U ok) (hg : GateOk U.cfg) (ht : Team fp dim h0 c0 keep t0 hi) (horizon : ℚ) {H : HState (Res Hdl) P} (hH : H.Fresh (.ok h0) horizon)
    (hz0 : 1 / 100000 ≤ |horizon|) (hz1 : |horizon| ≤ 8589934592) (hspan : |horizon| * 1000000000 + 10000 ≤ span) (hhi0 : t0 ≤ hi)
    (hhi : hi ≤ 8589934590000000000) (ops ops' : List (HOp P)) (hsame : ∃ L, Chronological (arrivals ops) L ∧ Chronological (arrivals ops') L)
    (hp : Prompt |horizon| [] ops) (hp' : Prompt |horizon| [] ops') (hops : ∀ m ∈ arrivals ops, MeasOk m)
    (hs : ∀ n, Served U (fun p => (h0.find p).isSome) ok c0.tm keep span t0 hi ((arrivals ops).take n))
    (hs' : ∀ n, Served U (fun p => (h0.find p).isSome) ok c0.tm keep span t0 hi ((arrivals ops').take n)) :
    ∃ c h h', (ops.foldl (hStep fp (userInsts fp near U)) H).w = .ok h ∧
      (ops'.foldl (hStep fp (userInsts fp near U)) H).w = .ok h' ∧ Agrees dim h c ∧ Agrees dim h' c := by
  obtain ⟨K, k1, k2⟩ := hsame
  have hops' : ∀ m ∈ arrivals ops', MeasOk m := fun m hm => hops m (k1.1.subset (k2.1.symm.subset hm))
  obtain ⟨L, c, h, l1, l2, l3, l4, l5⟩ := c84_prompt (fp := fp) hnear hU hg ht horizon hH hz0 hz1 hspan hhi0 hhi ops hp hops hs
  obtain ⟨L', c', h', m1, m2, m3, m4, m5⟩ := c84_prompt (fp := fp) hnear hU hg ht horizon hH hz0 hz1 hspan hhi0 hhi ops' hp' hops' hs'
  have e1 : L = K := chronological_unique _ _ _ (fun m hm => (hops m hm).1) l1 k1
  have e2 : L' = K := chronological_unique _ _ _ (fun m hm => (hops' m hm).1) m1 k2
  have : c' = c := l3 c' (by rw [e1, ← e2]; exact m2)
  rw [this] at m5
  exact ⟨c, h, h', l4, m4, l5, m5⟩

/-! ## C85 -/

/-- What a user expects of instances registered with the handler, which sets their horizons: propagations that arrive in time
(`Prompt`), to times after the initial estimates, no two of one instance to one time, can be processed. -/
def AcceptedServed (fp : FP) (near : Mat → Mat) (U : EkfUser P) (ok : Meas P → Prop) (h0 : Hdl) (t0 : Int) (horizon : ℚ) : Prop :=
  ∀ ops : List (HOp P), Prompt |horizon| [] ops →
    (∀ m ∈ arrivals ops, MeasOk m ∧ t0 < m.t ∧ m.t ≤ 8589934590000000000 ∧ m.kind = .propagation ∧ (h0.find m.id).isSome ∧ ok m) →
    ((arrivals ops).Pairwise fun a b => a.id = b.id → a.t ≠ b.t) →
    ∃ h, (ops.foldl (hStep fp (userInsts fp near U)) (Handler.init (.ok h0) horizon)).w = .ok h

/-- C85, as long as the histories do not reach their horizons: instances with the horizon of the handler, all times (in seconds)
up to the horizon. Then the conclusion of C84 holds.
Missing: longer runs (`c85_horizon_fails`). -/
theorem c85_within_horizon_partial (hnear : NearOk near) (hU : Proper dim U ok) (hg : GateOk U.cfg) (hi0 : Init dim h0 c0)
    (hfree : ∀ p, (h0.find p).isSome → c0.fix p = false) (ht0 : 0 ≤ t0) (hstart : ∀ p, (h0.find p).isSome → 0 ≤ c0.tm p ∧ c0.tm p ≤ t0)
    (horizon : ℚ) {H : HState (Res Hdl) P} (hH : H.Fresh (.ok h0) horizon) (hadd : ∀ p i, h0.find p = some i → i.hor = |horizon|)
    (hz0 : 1 / 100000 ≤ |horizon|) (hz1 : |horizon| ≤ 8589934592) (hhi0 : t0 ≤ hi) (hhi : hi ≤ 8589934590000000000)
    (hfit : fp.secOfKey hi ≤ |horizon|)
    (ops : List (HOp P)) (K : List (Meas P)) (hacc : Accepts (fun p => (h0.find p).isSome) |horizon| [] ops K)
    (hops : ∀ m ∈ arrivals ops, MeasOk m ∧ m.t ≤ hi)
    (hknown : ∀ m ∈ K, (h0.find m.id).isSome ∧ m.kind ≠ .unknown ∧ ok m) (htime : ∀ m ∈ K, t0 < m.t ∧ m.t ≤ hi)
    (honce : K.Pairwise fun a b => a.kind = .propagation → b.kind = .propagation → a.id = b.id → a.t ≠ b.t)
    (hreached : ∀ n, ∀ m ∈ K.take n, m.kind = .joint → ∀ p ∈ U.parts m.id m.data, (h0.find p).isSome ∧
      ∃ x ∈ K.take n, x.kind = .propagation ∧ x.id = p ∧ x.t = m.t) :
    timely fp (userInsts fp near U) H ops = K ∧
    ∃ L c h, Chronological K L ∧ CentralRun dim near U c0 L c ∧ (∀ c', CentralRun dim near U c0 L c' → c' = c) ∧
      (ops.foldl (hStep fp (userInsts fp near U)) H).w = .ok h ∧ Agrees dim h c := by
  have hteam : Team fp dim h0 c0 (fun _ => hi) t0 hi :=
    ⟨hi0, hfree, hstart, ht0, fun p i hf => ⟨by omega, Or.inr (by rw [hadd p i hf]; exact hfit)⟩⟩
  have hsub : ∀ n, (K.take n).Sublist K := fun n => List.take_sublist n K
  refine c84_accepted (span := ⌈|horizon| * 1000000000 + 10000⌉) hnear hU hg hteam horizon hH hz0 hz1 (Int.le_ceil _) hhi0 hhi ops K hacc hops ?_
  intro n
  refine ⟨fun m hm => hknown m ((hsub n).subset hm), fun m hm => htime m ((hsub n).subset hm), List.Pairwise.sublist (hsub n) honce,
    fun m hm hkj p hpm => hreached n m hm hkj p hpm, ?_⟩
  intro o ho x hx hxk hox _
  have hxr := (hknown x ((hsub n).subset hx)).1
  have h1 := (htime o ((hsub n).subset ho)).1
  have h2 := (htime x ((hsub n).subset hx)).2
  have h3 := hstart x.id hxr
  refine ⟨c0.tm x.id, Or.inl rfl, by omega, ?_⟩
  show x.t - c0.tm x.id ≤ hi
  omega

/-- C84. A measurement of unknown kind is discarded and changes nothing, whatever the state. -/
theorem c84_unknown (h : Hdl) (m : Meas P) (hk : m.kind = .unknown) : (userInsts fp near U).inst (.ok h) m = (.ok h, .discarded) := by
  show settle (.ok h) (userStep fp near U h m) = _
  unfold userStep
  rw [hk]
  rfl

/-- C84. An instance added under a new id is found with the estimates it brings and the horizon of the handler; the others stay as they are.
Under an id already in use nothing is added. -/
theorem c84_added (horizon : ℚ) (h : Hdl) (id : ℕ) (i : Inst) :
    (h.find id = none → SMap.find (addTo horizon h id i) id = some ⟨i.bel, i.ccf, |horizon|⟩ ∧
      ∀ p, p ≠ id → SMap.find (addTo horizon h id i) p = h.find p) ∧
    (h.find id ≠ none → addTo horizon h id i = h) := by
  constructor
  · intro hn
    unfold addTo
    rw [if_neg (by simp [hn])]
    constructor
    · rw [SMap.find_emplace, if_pos ⟨rfl, hn⟩]
    · intro p hp
      rw [SMap.find_emplace, if_neg (fun hh => hp hh.1.symm)]
  · intro hn
    unfold addTo
    rw [if_pos (Option.isSome_iff_ne_none.mpr hn)]

end
end Hdl
end Ikf
