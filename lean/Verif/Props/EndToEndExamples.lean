import Verif.Props.EndToEnd
import Verif.Props.IsolatedExamples
import Verif.Lemmas.StdJoint

/-! # C84, C85: the filter class of the repository's example, concrete runs -/

namespace Ikf
open Mat

namespace Linear1D

/-- The measurement has the sizes the class expects: scalar, and a joint observation is of another instance. -/
def Ok (m : Meas Data) : Prop := m.data.z.Shape 1 1 ∧ m.data.R.Shape 1 1 ∧ m.data.R.tr = m.data.R ∧ (m.kind = .joint → m.data.J ≠ m.id)

theorem q0_shape : Q0.Shape 2 2 := Shape.smul (Shape.one 2) _

theorem tr_addM {A B : Mat} {n m : ℕ} (hA : A.Shape n m) (hB : B.Shape n m) : (A + B).tr = A.tr + B.tr := by
  refine Mat.ext' rfl rfl ?_
  intro i j _ _
  rw [tr_e, add_e A B (by rw [hA.1, hB.1]) (by rw [hA.2, hB.2]),
    add_e A.tr B.tr (by rw [hA.tr.1, hB.tr.1]) (by rw [hA.tr.2, hB.tr.2]), tr_e, tr_e]

theorem q0_tr : Q0.tr = Q0 := by
  refine Mat.ext' rfl rfl ?_
  intro i j _ _
  unfold Q0
  rw [tr_e, smul_e, smul_e, one_e, one_e]
  by_cases h : i = j
  · rw [h]
  · rw [if_neg (fun x => h x.1.symm), if_neg (fun x => h x.1)]

theorem mem_emplace {a b : ℕ} {x y : Mat} {e : ℕ × Mat} (he : e ∈ SMap.emplace [(a, x)] b y) : e = (a, x) ∨ e = (b, y) := by
  have hs : SMap.Sorted (SMap.emplace [(a, x)] b y) := SMap.Sorted.emplace (by simp [SMap.Sorted]) _ _
  have := (SMap.find_eq_some hs e.1 e.2).mpr he
  rw [SMap.find_emplace] at this
  split at this
  · rename_i h
    exact Or.inr (Prod.ext h.1.symm (Option.some.inj this).symm)
  · simp only [SMap.find] at this
    split at this
    · rename_i h
      exact Or.inl (Prod.ext h.symm (Option.some.inj this).symm)
    · simp at this

/-- `LinearIKF_1D_const_acc` is a filter class C84 applies to. -/
theorem proper (fp : FP) (g : ℕ → ℕ → ℝ) : Proper (fun _ => 2) (user fp g) Ok where
  prop := by
    intro m ta x hm hk hx
    set d := dt fp ta m.t
    have hP : (Phi d).Shape 2 2 := ⟨rfl, rfl⟩
    have hG : (G d).Shape 2 1 := ⟨rfl, rfl⟩
    have hGt : (G d).tr.Shape 1 2 := ⟨rfl, rfl⟩
    refine ⟨Phi d * x + G d * m.data.z, Phi d, G d * m.data.R * (G d).tr + Q0, ?_, hP, (hG.mul hm.2.1).mul hGt |>.add, ?_, (hP.mul hx).add⟩
    · show prop fp m.id m.data ta m.t x = _
      unfold prop
      change ((Phi d).mulC x >>= fun x => _) = _
      rw [hP.mulC hx, Res.bind_ok, hG.mulC hm.1, Res.bind_ok, (hP.mul hx).addC (hG.mul hm.1), Res.bind_ok, hG.mulC hm.2.1, Res.bind_ok,
        (hG.mul hm.2.1).mulC hGt, Res.bind_ok, ((hG.mul hm.2.1).mul hGt).addC q0_shape, Res.bind_ok]
    · rw [tr_addM (((hG.mul hm.2.1).mul hGt)) q0_shape, tr_mul, tr_mul, hm.2.2.1, tr_tr, Mat.mul_assoc, q0_tr]
  priv := by
    intro m x hm hk hx
    have hr : (row 1).Shape 1 2 := ⟨rfl, rfl⟩
    refine ⟨row 1, m.data.R, m.data.z - row 1 * x, ?_, rfl, hm.2.1, hm.1⟩
    show priv m.id m.data m.t x = _
    unfold priv
    rw [hr.mulC hx, Res.bind_ok, hm.1.subC (hr.mul hx), Res.bind_ok]
  joint := by
    intro m mu hm hk hx
    have hJ := hm.2.2.2 hk
    have hr : ∀ s, (row s).Shape 1 2 := fun s => ⟨rfl, rfl⟩
    have h1 : (mu m.id).Shape 2 1 := hx m.id (by simp [user])
    have h2 : (mu m.data.J).Shape 2 1 := hx m.data.J (by simp [user])
    obtain ⟨H, eH, -, sH⟩ := StdHdl.horcat_side (I := m.id) (J := m.data.J) (Ne.symm hJ) g (hr (-1)) (hr 1) (by omega) (by omega) (by omega)
    obtain ⟨x, ex, -, sx⟩ := StdHdl.vertcat_mean (I := m.id) (J := m.data.J) (Ne.symm hJ) g (mu := mu) h1 h2 (by omega) (by omega) rfl rfl
    refine ⟨SMap.emplace [(m.id, row (-1))] m.data.J (row 1), m.data.R, m.data.z - H * x, ?_, ?_, ?_, ?_, 1, ?_, hm.2.1, hm.1⟩
    · show joint g m.id m.data m.t [mu m.id, mu m.data.J] = _
      unfold joint
      simp only
      rw [eH, Res.bind_ok, ex, Res.bind_ok, sH.mulC sx, Res.bind_ok, hm.1.subC (sH.mul sx), Res.bind_ok]
    · exact SMap.Sorted.emplace (by simp [SMap.Sorted]) _ _
    · intro h
      have := SMap.find_emplace [(m.id, row (-1))] m.data.J (row 1) m.data.J
      rw [h] at this
      simp [SMap.find, Ne.symm hJ] at this
    · intro p hp
      obtain ⟨e, he, rfl⟩ := List.mem_map.mp hp
      rcases mem_emplace he with rfl | rfl <;> simp [user]
    · intro e he
      rcases mem_emplace he with rfl | rfl
      · exact hr _
      · exact hr _

end Linear1D

namespace Hdl.EndExample

def bel0 : Belief := { mean := of 2 1 (fun _ _ => 0), Sigma := one 2, stamp := 0 }

/-- Two instances initialised at time 0, histories of `hor` seconds. -/
def team (hor : ℚ) : Hdl := [(1, Inst.doInit ⟨[], [], hor⟩ bel0 0), (2, Inst.doInit ⟨[], [], hor⟩ bel0 0)]

/-- That is what `add` makes of two instances with any horizons. -/
example (hor a b : ℚ) : addTo hor (addTo hor [] 1 (Inst.doInit ⟨[], [], a⟩ bel0 0)) 2 (Inst.doInit ⟨[], [], b⟩ bel0 0) = team |hor| := rfl

noncomputable def c0 : Central where
  tm _ := 0
  mu _ := of 2 1 (fun _ _ => 0)
  cov p q := if p = q then one 2 else Mat.zero 2 2
  fix _ := false

theorem find_team {hor : ℚ} {p : ℕ} {i : Inst} (hi : SMap.find (team hor) p = some i) : i = Inst.doInit ⟨[], [], hor⟩ bel0 0 := by
  simp only [team, SMap.find] at hi
  split at hi
  · exact (Option.some.inj hi).symm
  · split at hi
    · exact (Option.some.inj hi).symm
    · simp at hi

theorem init (hor : ℚ) : Init (fun _ => 2) (team hor) c0 where
  sorted := by simp [team, SMap.Sorted]
  inst := by
    intro p i hi
    exact ⟨hor, bel0, find_team hi, rfl, Nat.two_pos, rfl, rfl, rfl, tr_one 2, rfl, by simp [c0, bel0], rfl⟩
  uncorrelated := by intro p q hpq; simp [c0, hpq]

/-- A measurement of `z` with unit noise. -/
def dat (z : ℝ) (J : ℕ) : Linear1D.Data := ⟨of 1 1 (fun _ _ => z), one 1, J⟩

def ms (k : ObsType) (id : ℕ) (t : Int) (z : ℝ) (J : ℕ) : HOp Linear1D.Data := .meas ⟨id, t, k, dat z J⟩

/-- Propagations of both, a private observation, and a joint observation that is delayed by one second. -/
def ops : List (HOp Linear1D.Data) :=
  [ms .propagation 1 500000000 1 0, ms .propagation 1 1000000000 1 0, ms .propagation 2 1000000000 2 0, .request 700000000 true,
   ms .propagation 1 2000000000 1 0, ms .priv 1 2000000000 3 0, ms .propagation 2 2000000000 2 0, ms .joint 1 1000000000 4 2]

theorem ops_prompt : Prompt 10 [] ops := by
  refine ⟨Or.inl rfl, ?_⟩
  have key : ∀ (A : List (Meas Linear1D.Data)) (m : Meas Linear1D.Data), (⟨1, 500000000, .propagation, dat 1 0⟩ : Meas Linear1D.Data) ∈ A → 1000000000 ≤ m.t →
      (∀ y ∈ A, y.t ≤ 2000000000) → InTime 10 A m := by
    intro A m hA hm hy
    refine Or.inr ⟨_, hA, ?_, ?_⟩
    · show (500000000 : Int) + 13000 ≤ m.t
      omega
    · intro y h
      have := hy y h
      have : ((y.t - 500000000 : ℤ) : ℚ) ≤ (1500000000 : ℤ) := by exact_mod_cast (by omega : y.t - 500000000 ≤ 1500000000)
      change ((y.t - 500000000 : ℤ) : ℚ) / 1000000000 ≤ _
      push_cast at *
      linarith
  refine ⟨key _ _ (by simp) (by simp) (by simp), key _ _ (by simp) (by simp) (by simp), key _ _ (by simp) (by simp) (by simp),
    key _ _ (by simp) (by simp) (by simp), key _ _ (by simp) (by simp) (by simp), key _ _ (by simp) (by simp) (by simp), trivial⟩

theorem dat_ok (k : ObsType) (id : ℕ) (t : Int) (z : ℝ) (J : ℕ) (hJ : J ≠ id) : Linear1D.Ok ⟨id, t, k, dat z J⟩ :=
  ⟨⟨rfl, rfl⟩, Shape.one 1, tr_one 1, fun _ => hJ⟩

theorem ops_known (hor : ℚ) : ∀ m ∈ arrivals ops, (SMap.find (team hor) m.id).isSome ∧ m.kind ≠ .unknown ∧ Linear1D.Ok m := by
  intro m hm
  simp only [ops, ms, arrivals, List.filterMap_cons, List.filterMap_nil, List.mem_cons, List.not_mem_nil, or_false] at hm
  rcases hm with rfl | rfl | rfl | rfl | rfl | rfl | rfl <;>
    exact ⟨by simp [team, SMap.find], by simp, dat_ok _ _ _ _ _ (by decide)⟩

theorem ops_ok : ∀ m ∈ arrivals ops, MeasOk m := by
  intro m hm
  simp only [ops, ms, arrivals, List.filterMap_cons, List.filterMap_nil, List.mem_cons, List.not_mem_nil, or_false] at hm
  rcases hm with rfl | rfl | rfl | rfl | rfl | rfl | rfl <;> exact ⟨by simp, by simp, by simp⟩

theorem ops_time : ∀ m ∈ arrivals ops, 0 < m.t ∧ m.t ≤ 5000000000 := by
  intro m hm
  simp only [ops, ms, arrivals, List.filterMap_cons, List.filterMap_nil, List.mem_cons, List.not_mem_nil, or_false] at hm
  rcases hm with rfl | rfl | rfl | rfl | rfl | rfl | rfl <;> exact ⟨by simp, by simp⟩

theorem ops_once : (arrivals ops).Pairwise fun a b => a.kind = .propagation → b.kind = .propagation → a.id = b.id → a.t ≠ b.t := by
  simp [ops, ms, arrivals]

/-- A prefix with a joint observation contains what comes before it. -/
theorem reached_of {g : ℕ → ℕ → ℝ} {hor : ℚ} {K : List (Meas Linear1D.Data)} {k : ℕ} (h1 : ∀ m ∈ K.take k, m.kind ≠ .joint)
    (h2 : ∀ m ∈ K, m.kind = .joint → m = ⟨1, 1000000000, .joint, dat 4 2⟩)
    (h3 : (⟨1, 1000000000, .propagation, dat 1 0⟩ : Meas Linear1D.Data) ∈ K.take k) (h4 : (⟨2, 1000000000, .propagation, dat 2 0⟩ : Meas Linear1D.Data) ∈ K.take k)
    (n : ℕ) : ∀ m ∈ K.take n, m.kind = .joint →
    ∀ p ∈ (Linear1D.user FP.exact g).parts m.id m.data, (SMap.find (team hor) p).isSome ∧
      ∃ x ∈ K.take n, x.kind = .propagation ∧ x.id = p ∧ x.t = m.t := by
  have hpre : ∀ a b, a ≤ b → (K.take a).Sublist (K.take b) := by
    intro a b hab
    have : K.take a = (K.take b).take a := by rw [List.take_take, Nat.min_eq_left hab]
    rw [this]; exact List.take_sublist _ _
  intro m hm hk p hp
  rcases Nat.lt_or_ge k n with h | h
  · have h3' := (hpre k n h.le).subset h3
    have h4' := (hpre k n h.le).subset h4
    rw [h2 m ((List.take_sublist n K).subset hm) hk] at hp ⊢
    have hp' : p = 1 ∨ p = 2 := by simpa [Linear1D.user, dat] using hp
    rcases hp' with rfl | rfl
    · exact ⟨rfl, _, h3', rfl, rfl, rfl⟩
    · exact ⟨rfl, _, h4', rfl, rfl, rfl⟩
  · exact absurd hk (h1 m ((hpre n k h).subset hm))

theorem ops_reached (hor : ℚ) (g : ℕ → ℕ → ℝ) (n : ℕ) : ∀ m ∈ (arrivals ops).take n, m.kind = .joint →
    ∀ p ∈ (Linear1D.user FP.exact g).parts m.id m.data, (SMap.find (team hor) p).isSome ∧
      ∃ x ∈ (arrivals ops).take n, x.kind = .propagation ∧ x.id = p ∧ x.t = m.t :=
  reached_of (k := 6) (by simp [ops, ms, arrivals]) (by simp [ops, ms, arrivals]) (by simp [ops, ms, arrivals]) (by simp [ops, ms, arrivals]) n

theorem served {K : List (Meas Linear1D.Data)} (g : ℕ → ℕ → ℝ) (hl : ∀ m ∈ K, m ∈ arrivals ops)
    (honce : K.Pairwise fun a b => a.kind = .propagation → b.kind = .propagation → a.id = b.id → a.t ≠ b.t)
    (hr : ∀ m ∈ K, m.kind = .joint → ∀ p ∈ (Linear1D.user FP.exact g).parts m.id m.data, (SMap.find (team 30) p).isSome ∧
      ∃ x ∈ K, x.kind = .propagation ∧ x.id = p ∧ x.t = m.t) :
    Served (Linear1D.user FP.exact g) (fun p => (SMap.find (team 30) p).isSome) Linear1D.Ok c0.tm (fun _ => 20000000000) 10000010000 0 5000000000 K := by
  refine ⟨fun m hm => ops_known 30 m (hl m hm), fun m hm => ops_time m (hl m hm), honce, hr, ?_⟩
  intro o ho x hx _ hox _
  have h1 := ops_time o (hl o ho)
  have h2 := ops_time x (hl x hx)
  exact ⟨0, Or.inl rfl, by omega, by show x.t - 0 ≤ 20000000000; omega⟩

theorem theTeam : Team FP.exact (fun _ => 2) (team 30) c0 (fun _ => 20000000000) 0 5000000000 := by
  refine ⟨init 30, fun _ _ => rfl, fun _ _ => ⟨le_refl _, le_refl _⟩, le_refl _, ?_⟩
  intro p i hi
  rw [find_team hi]
  exact ⟨by norm_num, Or.inl (by show ((20000000000 : ℤ) : ℚ) + 10000 ≤ 30 * 1000000000; norm_num)⟩

/-- The premises of `c84_prompt` hold for the example's filter class with histories of 30 s under a handler with a horizon of 10 s, and
for measurements one of which is delayed; so do those of `c84_centralised`. -/
example (g : ℕ → ℕ → ℝ) : ∃ L c h, Chronological (arrivals ops) L ∧ CentralRun (fun _ => 2) Example.near (Linear1D.user FP.exact g) c0 L c ∧
    (∀ c', CentralRun (fun _ => 2) Example.near (Linear1D.user FP.exact g) c0 L c' → c' = c) ∧
    (ops.foldl (hStep FP.exact (userInsts FP.exact Example.near (Linear1D.user FP.exact g))) (Handler.init (.ok (team 30)) 10)).w = .ok h ∧
    Agrees (fun _ => 2) h c := by
  have h10 : |(10 : ℚ)| = 10 := by norm_num
  exact c84_prompt (fp := FP.exact) Example.nearOk (Linear1D.proper FP.exact g) GateOk.default theTeam 10 (.init _ _) (by norm_num) (by norm_num) (by norm_num) (by norm_num) (by norm_num) ops
    (by rw [h10]; exact ops_prompt) ops_ok
    (fun n => served g (fun m hm => (List.take_sublist n _).subset hm) (List.Pairwise.sublist (List.take_sublist n _) ops_once) (ops_reached 30 g n))

/-- The same measurements, the joint observation not delayed. -/
def ops2 : List (HOp Linear1D.Data) :=
  [ms .propagation 1 500000000 1 0, ms .propagation 1 1000000000 1 0, ms .propagation 2 1000000000 2 0, ms .joint 1 1000000000 4 2,
   ms .propagation 1 2000000000 1 0, ms .propagation 2 2000000000 2 0, ms .priv 1 2000000000 3 0]

theorem ops2_prompt : Prompt 10 [] ops2 := by
  refine ⟨Or.inl rfl, ?_⟩
  have key : ∀ (A : List (Meas Linear1D.Data)) (m : Meas Linear1D.Data), (⟨1, 500000000, .propagation, dat 1 0⟩ : Meas Linear1D.Data) ∈ A → 1000000000 ≤ m.t →
      (∀ y ∈ A, y.t ≤ 2000000000) → InTime 10 A m := by
    intro A m hA hm hy
    refine Or.inr ⟨_, hA, ?_, ?_⟩
    · show (500000000 : Int) + 13000 ≤ m.t
      omega
    · intro y h
      have := hy y h
      have : ((y.t - 500000000 : ℤ) : ℚ) ≤ (1500000000 : ℤ) := by exact_mod_cast (by omega : y.t - 500000000 ≤ 1500000000)
      change ((y.t - 500000000 : ℤ) : ℚ) / 1000000000 ≤ _
      push_cast at *
      linarith
  refine ⟨key _ _ (by simp) (by simp) (by simp), key _ _ (by simp) (by simp) (by simp), key _ _ (by simp) (by simp) (by simp),
    key _ _ (by simp) (by simp) (by simp), key _ _ (by simp) (by simp) (by simp), key _ _ (by simp) (by simp) (by simp), trivial⟩

theorem ops2_once : (arrivals ops2).Pairwise fun a b => a.kind = .propagation → b.kind = .propagation → a.id = b.id → a.t ≠ b.t := by
  simp [ops2, ms, arrivals]

theorem ops2_sub : ∀ m ∈ arrivals ops2, m ∈ arrivals ops := by
  intro m hm
  simp only [ops2, ms, arrivals, List.filterMap_cons, List.filterMap_nil, List.mem_cons, List.not_mem_nil, or_false] at hm
  simp only [ops, ms, arrivals, List.filterMap_cons, List.filterMap_nil, List.mem_cons, List.not_mem_nil, or_false]
  tauto

theorem ops2_reached (hor : ℚ) (g : ℕ → ℕ → ℝ) (n : ℕ) : ∀ m ∈ (arrivals ops2).take n, m.kind = .joint →
    ∀ p ∈ (Linear1D.user FP.exact g).parts m.id m.data, (SMap.find (team hor) p).isSome ∧
      ∃ x ∈ (arrivals ops2).take n, x.kind = .propagation ∧ x.id = p ∧ x.t = m.t :=
  reached_of (k := 3) (by simp [ops2, ms, arrivals]) (by simp [ops2, ms, arrivals]) (by simp [ops2, ms, arrivals]) (by simp [ops2, ms, arrivals]) n

theorem same : ∃ L, Chronological (arrivals ops) L ∧ Chronological (arrivals ops2) L := by
  let L : List (Meas Linear1D.Data) := [⟨1, 500000000, .propagation, dat 1 0⟩, ⟨1, 1000000000, .propagation, dat 1 0⟩, ⟨2, 1000000000, .propagation, dat 2 0⟩,
    ⟨1, 1000000000, .joint, dat 4 2⟩, ⟨1, 2000000000, .propagation, dat 1 0⟩, ⟨2, 2000000000, .propagation, dat 2 0⟩, ⟨1, 2000000000, .priv, dat 3 0⟩]
  have hL : L.Pairwise Meas.before := by simp [L, Meas.before, ObsType.prio]
  have h2 : Chronological (arrivals ops2) L := ⟨List.Perm.refl _, hL, fun _ _ => rfl⟩
  have h1 : ∀ t K, ofClass L t K = ofClass (arrivals ops) t K := by
    intro t K
    cases K <;> simp [L, ofClass, ops, ms, arrivals, List.filter_cons]
  exact ⟨L, ⟨perm_of_classes _ _ h1, hL, h1⟩, h2⟩

/-- The premises of `c84_order_irrelevant` hold. -/
example (g : ℕ → ℕ → ℝ) : ∃ c h h',
    (ops.foldl (hStep FP.exact (userInsts FP.exact Example.near (Linear1D.user FP.exact g))) (Handler.init (.ok (team 30)) 10)).w = .ok h ∧
    (ops2.foldl (hStep FP.exact (userInsts FP.exact Example.near (Linear1D.user FP.exact g))) (Handler.init (.ok (team 30)) 10)).w = .ok h' ∧
    Agrees (fun _ => 2) h c ∧ Agrees (fun _ => 2) h' c := by
  have h10 : |(10 : ℚ)| = 10 := by norm_num
  exact c84_order_irrelevant (fp := FP.exact) Example.nearOk (Linear1D.proper FP.exact g) GateOk.default theTeam
    10 (.init _ _) (by norm_num) (by norm_num) (by norm_num) (by norm_num) (by norm_num) ops ops2 same (by rw [h10]; exact ops_prompt) (by rw [h10]; exact ops2_prompt) ops_ok
    (fun n => served g (fun m hm => (List.take_sublist n _).subset hm) (List.Pairwise.sublist (List.take_sublist n _) ops_once) (ops_reached 30 g n))
    (fun n => served g (fun m hm => ops2_sub m ((List.take_sublist n _).subset hm)) (List.Pairwise.sublist (List.take_sublist n _) ops2_once) (ops2_reached 30 g n))

/-- The premises of `c84_accepted` and `c85_within_horizon_partial` hold with the horizon the handler sets: a propagation of instance 2 to the
time of the first measurement is discarded. -/
example (g : ℕ → ℕ → ℝ) : ∃ L c h, Chronological (arrivals ops) L ∧ CentralRun (fun _ => 2) Example.near (Linear1D.user FP.exact g) c0 L c ∧
    (∀ c', CentralRun (fun _ => 2) Example.near (Linear1D.user FP.exact g) c0 L c' → c' = c) ∧
    ((ms .propagation 1 500000000 1 0 :: ms .propagation 2 500000000 1 0 :: ops.tail).foldl
      (hStep FP.exact (userInsts FP.exact Example.near (Linear1D.user FP.exact g))) (Handler.init (.ok (team 10)) 10)).w = .ok h ∧
    Agrees (fun _ => 2) h c := by
  have h10 : |(10 : ℚ)| = 10 := by norm_num
  have hkn := ops_known 10
  have hprompt := ops_prompt.accepts (kn := fun p => (SMap.find (team 10) p).isSome) (fun m hm => (hkn m hm).1)
  have hacc : Accepts (fun p => (SMap.find (team 10) p).isSome) 10 [] (ms .propagation 1 500000000 1 0 :: ms .propagation 2 500000000 1 0 :: ops.tail) (arrivals ops) := by
    cases hprompt with
    | take hk hm r =>
      refine .take hk hm (.drop (Or.inr ⟨by simp, ?_⟩) r)
      simp
    | drop hm r =>
      rcases hm with hm | ⟨hm, -⟩
      · simp [team, SMap.find] at hm
      · exact absurd rfl hm
  refine (c85_within_horizon_partial (fp := FP.exact) (t0 := 0) (hi := 5000000000)
    Example.nearOk (Linear1D.proper FP.exact g) GateOk.default (init 10) (fun _ _ => rfl) (le_refl _) (fun _ _ => ⟨le_refl _, le_refl _⟩) 10 (.init _ _)
    (fun p i hi => by rw [find_team hi, h10]; rfl) (by norm_num) (by norm_num) (by norm_num) (by norm_num)
    (by rw [h10]; simp only [FP.secOfKey, FP.toSec, FP.exact, Timestamp.ofStampNs]; rw [(by decide : Int.tdiv 5000000000 1000000000 = 5), (by decide : Int.tmod 5000000000 1000000000 = 0)]; norm_num) _ _ (by rw [h10]; exact hacc) ?_ hkn ops_time ops_once (ops_reached 10 g)).2
  intro m hm
  have hm' : m = ⟨2, 500000000, .propagation, dat 1 0⟩ ∨ m ∈ arrivals ops := by
    simp only [ops, ms, arrivals, List.tail_cons, List.filterMap_cons, List.filterMap_nil, List.mem_cons, List.not_mem_nil, or_false] at hm ⊢
    tauto
  rcases hm' with rfl | hm'
  · exact ⟨⟨by simp, by simp, by simp⟩, by simp⟩
  · exact ⟨ops_ok m hm', (ops_time m hm').2⟩

/-! ## C85 fails -/

/-- Six propagations in order, then one that is 0.5 s late. -/
def late : List (HOp Linear1D.Data) :=
  [ms .propagation 1 500000000 1 0, ms .propagation 2 1000000000 1 0, ms .propagation 1 1200000000 1 0, ms .propagation 1 1300000000 1 0,
   ms .propagation 1 1400000000 1 0, ms .propagation 1 1600000000 1 0, ms .propagation 1 1100000000 1 0]

theorem late_prompt : Prompt 1 [] late := by
  refine ⟨Or.inl rfl, ?_⟩
  have key : ∀ (A : List (Meas Linear1D.Data)) (m : Meas Linear1D.Data), ∀ i s, (⟨i, s, .propagation, dat 1 0⟩ : Meas Linear1D.Data) ∈ A → s + 13000 ≤ m.t →
      (∀ y ∈ A, y.t ≤ s + 999990000) → InTime 1 A m := by
    intro A m i s hA hm hy
    refine Or.inr ⟨_, hA, hm, ?_⟩
    intro y h
    have := hy y h
    have : ((y.t - s : ℤ) : ℚ) ≤ (999990000 : ℤ) := by exact_mod_cast (by omega : y.t - s ≤ 999990000)
    change ((y.t - s : ℤ) : ℚ) / 1000000000 ≤ _
    push_cast at *
    linarith
  exact ⟨key _ _ 1 500000000 (by simp) (by simp) (by simp), key _ _ 1 500000000 (by simp) (by simp) (by simp), key _ _ 1 500000000 (by simp) (by simp) (by simp), key _ _ 1 500000000 (by simp) (by simp) (by simp), key _ _ 1 500000000 (by simp) (by simp) (by simp),
    key _ _ 2 1000000000 (by simp) (by simp) (by simp), trivial⟩

theorem late_known : ∀ m ∈ arrivals late, MeasOk m ∧ 0 < m.t ∧ m.t ≤ 8589934590000000000 ∧ m.kind = .propagation ∧ (SMap.find (team 1) m.id).isSome ∧
    Linear1D.Ok m := by
  intro m hm
  simp only [late, ms, arrivals, List.filterMap_cons, List.filterMap_nil, List.mem_cons, List.not_mem_nil, or_false] at hm
  rcases hm with rfl | rfl | rfl | rfl | rfl | rfl | rfl <;>
    exact ⟨⟨by simp, by simp, by simp⟩, by simp, by simp, rfl, by simp [team, SMap.find], dat_ok _ _ _ _ _ (by decide)⟩

theorem late_once : (arrivals late).Pairwise fun a b => a.id = b.id → a.t ≠ b.t := by
  simp [late, ms, arrivals]

def isUb {α : Type _} : Res α → Bool
  | .ub => true
  | _ => false

theorem late_crashes : isUb (late.foldl (hStep FP.exact (userInsts FP.exact Example.near (Linear1D.user FP.exact fun _ _ => 0)))
    (Handler.init (.ok (team 1)) 1)).w = true := by decide +kernel

end Hdl.EndExample

/-- C85 fails: with the horizon of the handler (1 s), as `add` sets it, a propagation that is late by half a second dereferences a
null pointer: the estimates before it have been dropped. The conditions on the team are those of `c85_within_horizon_partial`. -/
theorem Hdl.c85_horizon_fails : ¬ ∀ (horizon : ℚ) (h0 : Hdl) (c0 : Central) (t0 : Int), 1 / 100000 ≤ |horizon| → |horizon| ≤ 8589934592 →
    Init (fun _ => 2) h0 c0 → (∀ p i, h0.find p = some i → c0.fix p = false ∧ c0.tm p = t0 ∧ i.hor = |horizon|) → 0 ≤ t0 →
    AcceptedServed FP.exact Example.near (Linear1D.user FP.exact fun _ _ => 0) Linear1D.Ok h0 t0 horizon := by
  intro hall
  have h1 : |(1 : ℚ)| = 1 := by norm_num
  obtain ⟨h, e⟩ := hall 1 (EndExample.team 1) EndExample.c0 0 (by norm_num) (by norm_num) (EndExample.init 1)
    (fun p i hi => ⟨rfl, rfl, by rw [EndExample.find_team hi, h1]; rfl⟩) (le_refl _) EndExample.late (by rw [h1]; exact EndExample.late_prompt)
    EndExample.late_known EndExample.late_once
  have := EndExample.late_crashes
  rw [e] at this
  exact Bool.noConfusion this

end Ikf
