import Verif.Spec.GaussNewton
import Verif.Props.Iterated

/-! # The iterated joint observation as the iteration on stacked vectors -/

namespace Ikf
open Mat
namespace Hdl

theorem SameBut.trans {a b c : SMap Belief} (h1 : SameBut a b) (h2 : SameBut b c) : SameBut a c := by
  induction h1 generalizing c with
  | nil => cases h2; exact .nil
  | fixed hf _ ih =>
    cases h2 with
    | fixed _ h3 => exact .fixed hf (ih h3)
    | unfixed hf' _ => rw [hf] at hf'; cases hf'
  | unfixed hf _ ih =>
    cases h2 with
    | fixed hf' _ => exact absurd (hf.symm.trans hf') (by simp)
    | unfixed _ h3 => exact .unfixed hf (ih h3)

section moved
variable {d d' : SMap Belief} {x y dx x0 : Mat}

/-- The blocks of the unfixed beliefs. -/
abbrev ubs (d : SMap Belief) : List (ℕ × ℕ) := bdims (unfixed d)

theorem moved_eq (d : SMap Belief) (x : Mat) :
    moved d x = d.map fun e => if e.2.fixed then e else (e.1, e.2.setMean (rowsOf (ubs d) x (e.1, e.2.dim))) := rfl

theorem sameBut_map (f : ℕ × Belief → Mat) (d : SMap Belief) :
    SameBut d (d.map fun e => if e.2.fixed then e else (e.1, e.2.setMean (f e))) := by
  induction d with
  | nil => exact .nil
  | cons e r ih =>
    rw [List.map_cons]
    cases hf : e.2.fixed with
    | true => simp only [if_true]; exact .fixed hf ih
    | false => simp only [Bool.false_eq_true, if_false]; exact .unfixed hf ih

theorem sameBut_moved (d : SMap Belief) (x : Mat) : SameBut d (moved d x) := sameBut_map _ d

theorem eq_map_of_sameBut (f : ℕ × Belief → Mat) (hf0 : ∀ (e : ℕ × Belief) m, f (e.1, e.2.setMean m) = f e) (h : SameBut d d')
    (hm : ∀ e ∈ unfixed d', e.2.mean = f e) :
    d' = d.map fun e => if e.2.fixed then e else (e.1, e.2.setMean (f e)) := by
  induction h with
  | nil => rfl
  | fixed hf _ ih =>
    rw [unfixed_cons_neg _ _ hf] at hm
    rw [List.map_cons, if_pos hf, ← ih hm]
  | unfixed hf _ ih =>
    rename_i e m r r' _
    rw [unfixed_cons_pos _ _ (by exact hf)] at hm
    have h1 := hm _ List.mem_cons_self
    rw [setMean_mean, hf0] at h1
    rw [List.map_cons, if_neg (by rw [hf]; simp), ← ih (fun x hx => hm x (List.mem_cons_of_mem _ hx)), h1]

theorem SameBut.ubs_eq (h : SameBut d d') : Hdl.ubs d' = Hdl.ubs d := h.dims

theorem ubs_nodup (hd : d.Sorted) : ((ubs d).map (·.1)).Nodup := by rw [bdims_keys]; exact Sorted.nodup (unfixed_sorted hd)

/-- The beliefs are determined by their stacked mean. -/
theorem eq_moved (h : SameBut d d') (hd : d.Sorted) (hm : MeanOk d') (hx : stackMean d' = .ok x) : d' = moved d x := by
  have hd' := h.sorted hd
  obtain ⟨m, h1, h2⟩ := stackMean_spec d' hd' (fun p => match d'.find p with | some b => b.mean | none => Mat.empty)
    (fun e he => by simp only [(SMap.find_eq_some hd' _ _).mpr (mem_unfixed.mp he).1]) hm
  rw [hx] at h1
  obtain rfl := Res.ok.inj h1
  rw [moved_eq]
  refine eq_map_of_sameBut (fun e => rowsOf (ubs d) x (e.1, e.2.dim)) (fun _ _ => rfl) h ?_
  intro e he
  have hs := hm e he
  refine Mat.ext' hs.1 hs.2 ?_
  intro i j hi hj
  rw [hs.1] at hi
  rw [hs.2] at hj
  have hj0 : j = 0 := by omega
  subst hj0
  have := h2.2 (e.1, e.2.dim) (List.mem_map.mpr ⟨e, he, rfl⟩) i hi
  simp only [(SMap.find_eq_some hd' _ _).mpr (mem_unfixed.mp he).1] at this
  unfold rowsOf
  rw [block_e, if_pos ⟨hi, by omega⟩, ← this, ← h.ubs_eq]

theorem meanOk_moved (d : SMap Belief) (x : Mat) : MeanOk (moved d x) := by
  intro e he
  obtain ⟨h1, h2⟩ := mem_unfixed.mp he
  rw [moved_eq] at h1
  obtain ⟨a, ha, rfl⟩ := List.mem_map.mp h1
  split at h2
  · rename_i hf; rw [hf] at h2; cases h2
  · rename_i hf
    rw [if_neg hf]
    exact ⟨rfl, rfl⟩

theorem stackMean_moved (hd : d.Sorted) (hx : x.Shape (getDim d) 1) : stackMean (moved d x) = .ok x := by
  have hs := sameBut_moved d x
  have hd' := hs.sorted hd
  obtain ⟨m, h1, h2⟩ := stackMean_spec (moved d x) hd' (fun p => match (moved d x).find p with | some b => b.mean | none => Mat.empty)
    (fun e he => by simp only [(SMap.find_eq_some hd' _ _).mpr (mem_unfixed.mp he).1]) (meanOk_moved d x)
  rw [h1]
  congr 1
  rw [show bdims (unfixed (moved d x)) = ubs d from hs.ubs_eq] at h2
  refine stackedMean_unique (ubs_nodup hd) h2 ⟨by rw [← getDim_eq]; exact hx, ?_⟩
  intro p hp i hi
  obtain ⟨e, he, rfl⟩ := List.mem_map.mp hp
  have hmem : (e.1, e.2.setMean (rowsOf (ubs d) x (e.1, e.2.dim))) ∈ moved d x := by
    rw [moved_eq]
    refine List.mem_map.mpr ⟨e, (mem_unfixed.mp he).1, ?_⟩
    rw [if_neg (by rw [(mem_unfixed.mp he).2]; simp)]
  simp only [(SMap.find_eq_some hd' _ _).mpr hmem]
  rw [setMean_mean]
  unfold rowsOf
  rw [block_e, if_pos ⟨hi, by omega⟩]

theorem moved_self (hd : d.Sorted) (hm : MeanOk d) (hx : stackMean d = .ok x0) : moved d x0 = d := (eq_moved (SameBut.refl d) hd hm hx).symm

theorem getDim_moved (d : SMap Belief) (x : Mat) : getDim (moved d x) = getDim d := (sameBut_moved d x).getDim

/-- Correcting the beliefs is moving them. -/
theorem boxplusAll_moved (hd : d.Sorted) (hx : x.Shape (getDim d) 1) (hdx : dx.Shape (getDim d) 1) :
    boxplusAll dx (unfixed (moved d x)) 0 = .ok (unfixed (moved d (x + dx))) := by
  have hdx' : dx.Shape (getDim (moved d x)) 1 := by rw [getDim_moved]; exact hdx
  obtain ⟨d', h1, h2, h3⟩ := boxplusAll_spec hdx' (moved d x) 0 (by omega) (meanOk_moved d x)
  obtain ⟨m, a1, a2, -⟩ := stackMean_add hdx' h1 (meanOk_moved d x) h2
  rw [stackMean_moved hd hx] at a1
  obtain rfl := Res.ok.inj a1
  rw [h2, eq_moved ((sameBut_moved d x).trans h1) hd h3 a2]

theorem add_sub_self' {n : ℕ} (hx0 : x0.Shape n 1) (hx : x.Shape n 1) : x0 + (x - x0) = x := by
  refine Mat.ext' (by rw [hx.1]; exact hx0.1) (by rw [hx.2]; exact hx0.2) ?_
  intro i j _ _
  rw [add_e x0 (x - x0) (by rw [hx0.1]; exact hx.1) (by rw [hx0.2]; exact hx.2), sub_e x x0 (by rw [hx0.1, hx.1]) (by rw [hx0.2, hx.2])]
  ring

/-- The state error is the difference to the a priori mean. -/
theorem stateError_moved (hd : d.Sorted) (hm : MeanOk d) (hx0 : stackMean d = .ok x0) (hs0 : x0.Shape (getDim d) 1) (hx : x.Shape (getDim d) 1) :
    stateError (unfixed (moved d x)) d 0 (Mat.zero (getDim d) 1) = .ok (x - x0) := by
  have hdx : (x - x0).Shape (getDim d) 1 := hx.sub
  refine stateError_eq hdx (sameBut_moved d x) hd hm ?_
  have := boxplusAll_moved hd hs0 hdx
  rw [moved_self hd hm hx0, add_sub_self' hs0 hx] at this
  exact this

/-- The loop of the Jacobian of the state error. -/
theorem stateJac_loop {pj : Belief → Mat → Mat} {ex : Mat} {D : SMap Belief} (hn : (D.map (·.1)).Nodup) (hu : ∀ e ∈ D, e.2.fixed = false) (r : SMap Belief) :
    ∀ (l : SMap Belief) (J J' : Mat), l ++ r = D → J.Shape (tot (bdims D)) (tot (bdims D)) →
    (∀ a ∈ D, ∀ b ∈ D, ∀ i < a.2.dim, ∀ j < b.2.dim, J.e (off (bdims D) a.1 + i) (off (bdims D) b.1 + j) =
      if a.1 = b.1 then (if a.1 ∈ l.map (·.1) then (pj a.2 (smul (-1) (rowsOf (bdims D) ex (a.1, a.2.dim)))).e i j else if i = j then 1 else 0) else 0) →
    stateJac pj ex r (tot (bdims l)) J = .ok J' →
    J'.Shape (tot (bdims D)) (tot (bdims D)) ∧ ∀ a ∈ D, ∀ b ∈ D, ∀ i < a.2.dim, ∀ j < b.2.dim,
      J'.e (off (bdims D) a.1 + i) (off (bdims D) b.1 + j) = if a.1 = b.1 then (pj a.2 (smul (-1) (rowsOf (bdims D) ex (a.1, a.2.dim)))).e i j else 0 := by
  have hn' : ((bdims D).map (·.1)).Nodup := by rw [bdims_keys]; exact hn
  have inj : ∀ {a b : ℕ × Belief}, a ∈ D → b ∈ D → a.1 = b.1 → a = b := fun ha hb h => List.inj_on_of_nodup_map hn ha hb h
  induction r with
  | nil =>
    intro l J J' hl hJ hb hs
    rw [List.append_nil] at hl
    subst hl
    obtain rfl := Res.ok.inj hs
    refine ⟨hJ, fun a ha b hb' i hi j hj => ?_⟩
    rw [hb a ha b hb' i hi j hj, if_pos (List.mem_map.mpr ⟨a, ha, rfl⟩)]
  | cons e r ih =>
    intro l J J' hl hJ hb hs
    have he : e ∈ D := by rw [← hl]; simp
    rw [stateJac] at hs
    simp only [hu e he, Bool.not_false, if_true] at hs
    have hoff : off (bdims D) e.1 = tot (bdims l) := by rw [← hl]; exact off_bdims l e r (by rw [hl]; exact hn)
    obtain ⟨v, hv, hs⟩ := bind_eq_ok hs
    obtain ⟨J1, hJ1, hs⟩ := bind_eq_ok hs
    have ev : v = rowsOf (bdims D) ex (e.1, e.2.dim) := by
      unfold blockC at hv
      split at hv
      · rw [← Res.ok.inj hv]; unfold rowsOf; rw [hoff]
      · cases hv
    subst ev
    unfold setBlockC at hJ1
    split at hJ1
    · rename_i hd
      obtain rfl := Res.ok.inj hJ1
      rw [tot_bdims_snoc] at hs
      refine ih (l ++ [e]) (J.setBlock (tot (bdims l)) (tot (bdims l)) (pj e.2 (smul (-1) (rowsOf (bdims D) ex (e.1, e.2.dim))))) J' (by rw [← hl]; simp) hJ ?_ hs
      intro a ha b hb' i hi j hj
      have ha' : (a.1, a.2.dim) ∈ bdims D := List.mem_map.mpr ⟨a, ha, rfl⟩
      have hb'' : (b.1, b.2.dim) ∈ bdims D := List.mem_map.mpr ⟨b, hb', rfl⟩
      have he' : (e.1, e.2.dim) ∈ bdims D := List.mem_map.mpr ⟨e, he, rfl⟩
      rw [← hoff]
      have := setBlock_block hn' hJ he' he' ha' hb'' (X := pj e.2 (smul (-1) (rowsOf (bdims D) ex (e.1, e.2.dim)))) ⟨hd.2.2.1, hd.2.2.2⟩ hi hj
      rw [this]
      by_cases hae : a.1 = e.1
      · obtain rfl := inj ha he hae
        by_cases hab : a.1 = b.1
        · obtain rfl := inj ha hb' hab
          rw [if_pos ⟨rfl, rfl⟩, if_pos rfl, if_pos (by simp)]
        · rw [if_neg (fun h => hab (Prod.mk.inj h.2).1.symm), hb a ha b hb' i hi j hj, if_neg hab, if_neg hab]
      · rw [if_neg (fun h => hae (Prod.mk.inj h.1).1), hb a ha b hb' i hi j hj]
        have : a.1 ∈ (l ++ [e]).map (·.1) ↔ a.1 ∈ l.map (·.1) := by simp [hae]
        simp only [this]
    · cases hJ1

/-- The Jacobian of the state error is block diagonal. -/
theorem stateJac_moved {pj : Belief → Mat → Mat} {ex J : Mat} (hd : d.Sorted)
    (hs : stateJac pj ex (unfixed (moved d x)) 0 (one (getDim d)) = .ok J) :
    BlockDiag (ubs d) (fun p => (match d.find p.1 with | some b => pj (b.setMean (rowsOf (ubs d) x p)) (smul (-1) (rowsOf (ubs d) ex p)) | none => Mat.empty)) J := by
  have hsb := sameBut_moved d x
  have hd' := hsb.sorted hd
  have hn := Sorted.nodup (unfixed_sorted hd')
  have hbs : bdims (unfixed (moved d x)) = ubs d := hsb.ubs_eq
  obtain ⟨h1, h2⟩ := stateJac_loop (pj := pj) (ex := ex) hn (fun e he => (mem_unfixed.mp he).2) (unfixed (moved d x)) [] (one (getDim d)) J rfl
    (by rw [hbs, ← getDim_eq]; exact Shape.one _)
    (by
      intro a ha b hb i hi j hj
      have hn' : ((bdims (unfixed (moved d x))).map (·.1)).Nodup := by rw [bdims_keys]; exact hn
      have ha' : (a.1, a.2.dim) ∈ bdims (unfixed (moved d x)) := List.mem_map.mpr ⟨a, ha, rfl⟩
      have hb' : (b.1, b.2.dim) ∈ bdims (unfixed (moved d x)) := List.mem_map.mpr ⟨b, hb, rfl⟩
      have hle := off_add_le hn' ha'
      rw [show tot (bdims (unfixed (moved d x))) = getDim d from by rw [hbs, getDim_eq]] at hle
      simp only at hle
      rw [one_e]
      by_cases hab : a.1 = b.1
      · obtain rfl := List.inj_on_of_nodup_map hn ha hb hab
        rw [if_pos (show a.1 = a.1 from rfl), if_neg (show ¬ a.1 ∈ List.map (fun x : ℕ × Belief => x.1) [] by simp)]
        by_cases hij : i = j
        · rw [if_pos hij, if_pos ⟨by omega, by omega⟩]
        · rw [if_neg hij, if_neg (fun h => hij (by omega))]
      · rw [if_neg hab, if_neg]
        rintro ⟨h0, -⟩
        obtain ⟨e1, -⟩ := off_disjoint hn' ha' hb' hi hj h0
        exact hab (Prod.mk.inj e1).1)
    hs
  rw [hbs] at h1 h2
  refine ⟨h1, ?_⟩
  intro p hp q hq i hi j hj
  obtain ⟨a, ha, rfl⟩ := List.mem_map.mp hp
  obtain ⟨b, hb, rfl⟩ := List.mem_map.mp hq
  have mk : ∀ c ∈ unfixed d, (c.1, c.2.setMean (rowsOf (ubs d) x (c.1, c.2.dim))) ∈ unfixed (moved d x) := by
    intro c hc
    refine mem_unfixed.mpr ⟨?_, (mem_unfixed.mp hc).2⟩
    rw [moved_eq]
    refine List.mem_map.mpr ⟨c, (mem_unfixed.mp hc).1, ?_⟩
    rw [if_neg (by rw [(mem_unfixed.mp hc).2]; simp)]
  have := h2 _ (mk a ha) _ (mk b hb) i hi j hj
  simp only [setMean_dim] at this
  simp only
  rw [this, (SMap.find_eq_some hd _ _).mpr (mem_unfixed.mp ha).1]
  by_cases hab : a.1 = b.1
  · obtain rfl := List.inj_on_of_nodup_map (Sorted.nodup hd) (mem_unfixed.mp ha).1 (mem_unfixed.mp hb).1 hab
    simp
  · rw [if_neg hab, if_neg (fun h => hab (Prod.mk.inj h).1)]

end moved

theorem eraseFixed_eq (d : SMap Belief) (dH : SMap Mat) :
    eraseFixed d dH = dH.filter fun e => !d.any fun b => b.1 == e.1 && b.2.fixed := by
  unfold eraseFixed
  induction d generalizing dH with
  | nil => simp
  | cons a r ih =>
    rw [List.foldl_cons, ih]
    cases hf : a.2.fixed with
    | true =>
      simp only [if_true, SMap.erase]
      rw [List.filter_filter]
      refine List.filter_congr ?_
      intro e _
      simp only [List.any_cons, hf, Bool.and_true, Bool.not_or]
      rw [Bool.and_comm]
      congr 1
      by_cases h : a.1 = e.1
      · simp [h]
      · have h' : e.1 ≠ a.1 := fun h0 => h h0.symm
        simp [h, h']
    | false =>
      simp only [Bool.false_eq_true, if_false]
      refine List.filter_congr ?_
      intro e _
      simp [List.any_cons, hf]

/-- The body behind the residual, with any Jacobian of the state error. -/
theorem iterCorrect_jac {cfg : Cfg} {S R H e r J : Mat} {n m : ℕ} (h : ObsShape H R r S n m) (he : e.Shape n 1) (hJ : J.Shape n n) (x : SMap Belief) :
    iterCorrect cfg S R H e J r x =
      (gate (innov H R (J * S * J.tr) cfg.eps) r cfg >>= fun good =>
        if good then boxplusAll (gainM H R (J * S * J.tr) cfg.eps * r - J * e) x 0 >>= fun y =>
          .ok (.next ⟨y, H, gainM H R (J * S * J.tr) cfg.eps, J, J * S * J.tr, r⟩ (gainM H R (J * S * J.tr) cfg.eps * r - J * e))
        else .ok (.ret .rejected r)) := by
  unfold iterCorrect
  have hP : (J * S * J.tr).Shape n n := (hJ.mul h.S).mul hJ.tr
  have hO : ObsShape H R r (J * S * J.tr) n m := ⟨h.H, h.R, h.r, hP⟩
  have hSi := innov_shape hO cfg.eps
  have hK := gainM_shape hO cfg.eps
  rw [hJ.mulC h.S, Res.bind_ok, (hJ.mul h.S).mulC hJ.tr, Res.bind_ok, h.H.mulC hP, Res.bind_ok, (h.H.mul hP).mulC h.H.tr, Res.bind_ok,
    ((h.H.mul hP).mul h.H.tr).addC h.R, Res.bind_ok]
  rw [show (H * (J * S * J.tr) * H.tr + R) = innov0 H R (J * S * J.tr) from rfl, stabilize_ok (innov0_shape hO), Res.bind_ok]
  rw [show stabM (innov0 H R (J * S * J.tr)) cfg.eps = innov H R (J * S * J.tr) cfg.eps from rfl]
  congr 1
  funext good
  cases good with
  | false => rfl
  | true =>
    rw [if_pos rfl, if_pos rfl]
    rw [hP.mulC h.H.tr, Res.bind_ok, hSi.invC, Res.bind_ok, (hP.mul h.H.tr).mulC hSi.inv, Res.bind_ok]
    rw [show J * S * J.tr * H.tr * (innov H R (J * S * J.tr) cfg.eps).inv = gainM H R (J * S * J.tr) cfg.eps from rfl]
    rw [hK.mulC h.r, Res.bind_ok, hJ.mulC he, Res.bind_ok, (hK.mul h.r).subC (hJ.mul he), Res.bind_ok]

section loop
variable {pj : Belief → Mat → Mat} {hf : SMap Belief → List ℕ → Mat → SMap Mat × Mat} {ids : List ℕ} {z R S x0 : Mat} {d : SMap Belief} {cfg : Cfg}

theorem sub_self_zero {n : ℕ} (hx : x0.Shape n 1) : x0 - x0 = Mat.zero n 1 := by
  refine Mat.ext' hx.1 hx.2 ?_
  intro i j _ _
  rw [sub_e x0 x0 rfl rfl, zero_e, sub_self]

theorem add_zero' {A : Mat} {n : ℕ} (hA : A.Shape n 1) : A + Mat.zero n 1 = A := by
  refine Mat.ext' rfl rfl ?_
  intro i j _ _
  rw [add_e A (Mat.zero n 1) (by rw [hA.1]; rfl) (by rw [hA.2]; rfl), zero_e, _root_.add_zero]

/-- What one iteration returns. -/
inductive BodyOut (g : GN) (cfg : Cfg) (d : SMap Belief) (k : ℕ) (x : Mat) : ItOut → Prop
  | next (q : GN.Pt) (hx : q.x = x) (hs : g.Step cfg k q) (hp : g.Passes cfg q) (hd : q.dx.Shape (getDim d) 1) :
      BodyOut g cfg d k x (.next ⟨unfixed (moved d (x + q.dx)), q.H, q.K, q.J, q.P, q.r⟩ q.dx)
  | rej (q : GN.Pt) (hx : q.x = x) (hs : g.Step cfg k q) (ho : cfg.outlier = true) (hg : checkNIS (g.inn cfg q) q.r cfg.conf = .ok false) :
      BodyOut g cfg d k x (.ret .rejected q.r)
  | misfit (H r : Mat) (hl : g.lin x H r) (hm : ¬ ObsShape H g.R r g.S (tot g.bs) H.rows) : BodyOut g cfg d k x (.ret .discarded (Mat.zero 0 1))

theorem iterBody_out (hd : d.Sorted) (hm : MeanOk d) (hx0 : stackMean d = .ok x0) (hs0 : x0.Shape (getDim d) 1) (hS : S.Shape (getDim d) (getDim d))
    (hsort : ∀ b, (hf b ids z).1.Sorted) {k : ℕ} {x : Mat} (hx : x.Shape (getDim d) 1) (hk : k = 0 → x = x0) {s : It}
    (hsx : s.x = unfixed (moved d x)) (hsJ : k = 0 → s.J = one (getDim d)) {o : ItOut} (hb : iterBody pj hf ids z R d S cfg k s = .ok o) :
    BodyOut (userProblem pj hf ids z d x0 S R) cfg d k x o := by
  have hdim : tot (userProblem pj hf ids z d x0 S R).bs = getDim d := (getDim_eq d).symm
  unfold iterBody at hb
  dsimp only at hb
  rw [hsx, fullBel_eq (sameBut_moved d x) hd] at hb
  obtain ⟨H, hH, hb⟩ := bind_eq_ok hb
  rw [eraseFixed_eq] at hH
  have hside := stackH_spec _ (List.Pairwise.filter _ (hsort (moved d x))) H hH
  have hlin : (userProblem pj hf ids z d x0 S R).lin x H (hf (moved d x) ids z).2 := ⟨_, rfl, hside⟩
  split at hb
  · rename_i hck
    have hO := obsShape_of_check hS hck
    obtain ⟨⟨e, J, r⟩, hq, hb⟩ := bind_eq_ok hb
    have key : e = x - x0 ∧ J.Shape (getDim d) (getDim d) ∧ (k = 0 → J = one (getDim d)) ∧
        (0 < k → (userProblem pj hf ids z d x0 S R).ErrJac x J) ∧ r = (hf (moved d x) ids z).2 + H * (J * (x - x0)) := by
      unfold relinearise at hq
      by_cases hk0 : 0 < k
      · rw [if_pos hk0, hsx, stateError_moved hd hm hx0 hs0 hx, Res.bind_ok] at hq
        obtain ⟨J', hJ', hq⟩ := bind_eq_ok hq
        have hbd := stateJac_moved hd hJ'
        have hJs : J'.Shape (getDim d) (getDim d) := by have := hbd.1; rw [← getDim_eq] at this; exact this
        have hex : (x - x0).Shape (getDim d) 1 := hx.sub
        rw [hJs.mulC hex, Res.bind_ok, hO.H.mulC (hJs.mul hex), Res.bind_ok, hO.r.addC (hO.H.mul (hJs.mul hex)), Res.bind_ok] at hq
        obtain ⟨e1, e2⟩ := Prod.mk.inj (Res.ok.inj hq)
        obtain ⟨e2, e3⟩ := Prod.mk.inj e2
        subst e1 e2 e3
        exact ⟨rfl, hJs, fun h => by omega, fun _ => hbd, rfl⟩
      · have hk' : k = 0 := by omega
        rw [if_neg hk0] at hq
        obtain ⟨e1, e2⟩ := Prod.mk.inj (Res.ok.inj hq)
        obtain ⟨e2, e3⟩ := Prod.mk.inj e2
        have hxx := hk hk'
        subst e1 e2 e3 hxx
        rw [hsJ hk', sub_self_zero hs0, Mat.one_mul (Mat.zero (getDim d) 1) (getDim d) rfl, mul_zero_mat hO.H, add_zero' hO.r]
        exact ⟨rfl, Shape.one _, fun _ => rfl, fun h => by omega, rfl⟩
    obtain ⟨rfl, hJs, hJ0, hJ1, hr⟩ := key
    have hex : (x - x0).Shape (getDim d) 1 := hx.sub
    have hrs : r.Shape H.rows 1 := by rw [hr]; exact hO.r.add
    have hO' : ObsShape H R r S (getDim d) H.rows := ⟨hO.H, hO.R, hrs, hO.S⟩
    have hP : (J * S * J.tr).Shape (getDim d) (getDim d) := (hJs.mul hS).mul hJs.tr
    have hOP : ObsShape H R r (J * S * J.tr) (getDim d) H.rows := ⟨hO.H, hO.R, hrs, hP⟩
    dsimp only at hb
    rw [iterCorrect_jac hO' hex hJs] at hb
    obtain ⟨good, hg, hb⟩ := bind_eq_ok hb
    have hK := gainM_shape hOP cfg.eps
    set q : GN.Pt := ⟨x, H, r, J, J * S * J.tr, gainM H R (J * S * J.tr) cfg.eps, gainM H R (J * S * J.tr) cfg.eps * r - J * (x - x0)⟩ with hqd
    have hstep : (userProblem pj hf ids z d x0 S R).Step cfg k q := by
      refine ⟨fun h => ?_, fun h => hJ1 h, ⟨(hf (moved d x) ids z).2, hlin, ?_, hr⟩, rfl, rfl, rfl⟩
      · rw [hdim]; exact hJ0 h
      · rw [hdim]; exact hO
    have hdx : q.dx.Shape (getDim d) 1 := (hK.mul hrs).sub
    cases good with
    | true =>
      rw [if_pos rfl, boxplusAll_moved hd hx hdx, Res.bind_ok] at hb
      obtain rfl := Res.ok.inj hb
      refine BodyOut.next q rfl hstep ?_ hdx
      intro ho
      unfold gate at hg
      rw [if_pos ho] at hg
      exact hg
    | false =>
      rw [if_neg (by simp)] at hb
      obtain rfl := Res.ok.inj hb
      unfold gate at hg
      by_cases ho : cfg.outlier = true
      · rw [if_pos ho] at hg
        exact BodyOut.rej q rfl hstep ho hg
      · rw [if_neg ho] at hg; cases hg
  · rename_i hck
    obtain rfl := Res.ok.inj hb
    refine BodyOut.misfit H _ hlin ?_
    intro hO
    exact hck hO.check

theorem run_congr {g : GN} {N : ℕ} {q q' : ℕ → GN.Pt} (h : g.Run cfg N q) (he : ∀ k < N, q' k = q k) (hN : (q' N).x = (q N).x) : g.Run cfg N q' where
  start := by
    by_cases h0 : N = 0
    · subst h0; rw [hN]; exact h.start
    · rw [he 0 (by omega)]; exact h.start
  step k hk := by rw [he k hk]; exact h.step k hk
  pass k hk := by rw [he k hk]; exact h.pass k hk
  big k hk := by rw [he k hk]; exact h.big k hk
  next k hk := by
    rw [he k hk, ← h.next k hk]
    by_cases h1 : k + 1 < N
    · rw [he (k + 1) h1]
    · have : k + 1 = N := by omega
      rw [this, hN]

theorem run_snoc {g : GN} {N : ℕ} {q : ℕ → GN.Pt} (h : g.Run cfg N q) (hs : g.Step cfg N (q N)) (hp : g.Passes cfg (q N))
    (hb : 0 < N → ¬ GN.Small cfg (q N)) (hn : (q (N + 1)).x = (q N).x + (q N).dx) : g.Run cfg (N + 1) q where
  start := h.start
  step k hk := by
    by_cases h1 : k < N
    · exact h.step k h1
    · rw [show k = N by omega]; exact hs
  pass k hk := by
    by_cases h1 : k < N
    · exact h.pass k h1
    · rw [show k = N by omega]; exact hp
  big k hk := by
    by_cases h1 : k < N
    · exact h.big k h1
    · rw [show k = N by omega]; exact hb
  next k hk := by
    by_cases h1 : k < N
    · exact h.next k h1
    · rw [show k = N by omega]; exact hn

theorem converged_iff (dx : Mat) (tol : ℝ) : converged dx tol = true ↔ ∀ i < dx.rows, |dx.e i 0| ≤ tol := by
  unfold converged; rw [decide_eq_true_iff]

/-- What the loop returns. -/
inductive LoopSpec (g : GN) (cfg : Cfg) (d : SMap Belief) : LoopOut → Prop
  | fin (N : ℕ) (q : ℕ → GN.Pt) (iter : ℕ) (hr : g.Run cfg N q) (hs : g.Step cfg N (q N)) (hp : g.Passes cfg (q N))
      (hx : (q N).x.Shape (getDim d) 1) (hd : (q N).dx.Shape (getDim d) 1)
      (hi : (iter = N + 1 ∧ N + 1 = cfg.numIter ∧ ¬ (0 < N ∧ GN.Small cfg (q N))) ∨ (iter = N ∧ N + 1 ≤ cfg.numIter ∧ 0 < N ∧ GN.Small cfg (q N))) :
      LoopSpec g cfg d (.fin iter ⟨unfixed (moved d ((q N).x + (q N).dx)), (q N).H, (q N).K, (q N).J, (q N).P, (q N).r⟩)
  | rej (N : ℕ) (q : ℕ → GN.Pt) (h : g.Rejects cfg N q) : LoopSpec g cfg d (.ret .rejected (q N).r)
  | misfit (N : ℕ) (q : ℕ → GN.Pt) (h : g.Misfits cfg N q) : LoopSpec g cfg d (.ret .discarded (Mat.zero 0 1))

theorem iterLoop_out (hd : d.Sorted) (hm : MeanOk d) (hx0 : stackMean d = .ok x0) (hs0 : x0.Shape (getDim d) 1) (hS : S.Shape (getDim d) (getDim d))
    (hsort : ∀ b, (hf b ids z).1.Sorted) (n : ℕ) : ∀ (k : ℕ) (q : ℕ → GN.Pt) (s : It) (o : LoopOut), k + (n + 1) = cfg.numIter →
    (userProblem pj hf ids z d x0 S R).Run cfg k q → (q k).x.Shape (getDim d) 1 → s.x = unfixed (moved d (q k).x) → (k = 0 → s.J = one (getDim d)) →
    iterLoop pj hf ids z R d S cfg (n + 1) k s = .ok o → LoopSpec (userProblem pj hf ids z d x0 S R) cfg d o := by
  induction n with
  | zero =>
    intro k q s o hkn hrun hx hsx hsJ hl
    rw [iterLoop] at hl
    obtain ⟨b, hb, hl⟩ := bind_eq_ok hl
    have hbo := iterBody_out hd hm hx0 hs0 hS hsort hx (fun h => by subst h; exact hrun.start) hsx hsJ hb
    cases hbo with
    | next p hpx hps hpp hpd =>
      set q' : ℕ → GN.Pt := fun j => if j = k then p else q j with hq'
      have hqk : q' k = p := if_pos rfl
      have hrun' : (userProblem pj hf ids z d x0 S R).Run cfg k q' := run_congr hrun (fun j hj => if_neg (by omega)) (by rw [hqk, hpx])
      simp only [iterLoop] at hl
      have hcv : converged p.dx cfg.tolEps = true ↔ GN.Small cfg p := converged_iff p.dx cfg.tolEps
      have base := fun it hi => LoopSpec.fin (d := d) k q' it hrun' (by rw [hqk]; exact hps) (by rw [hqk]; exact hpp) (by rw [hqk, hpx]; exact hx)
        (by rw [hqk]; exact hpd) hi
      rw [hqk, hpx] at base
      by_cases hc : 0 < k ∧ converged p.dx cfg.tolEps = true
      · rw [if_pos hc] at hl
        obtain rfl := Res.ok.inj hl
        exact base k (Or.inr ⟨rfl, by omega, hc.1, hcv.mp hc.2⟩)
      · rw [if_neg hc] at hl
        obtain rfl := Res.ok.inj hl
        exact base (k + 1) (Or.inl ⟨rfl, hkn, fun h => hc ⟨h.1, hcv.mpr h.2⟩⟩)
    | rej p hpx hps ho hg =>
      set q' : ℕ → GN.Pt := fun j => if j = k then p else q j with hq'
      have hqk : q' k = p := if_pos rfl
      have hrun' : (userProblem pj hf ids z d x0 S R).Run cfg k q' := run_congr hrun (fun j hj => if_neg (by omega)) (by rw [hqk, hpx])
      obtain rfl := Res.ok.inj hl
      have := LoopSpec.rej (d := d) k q' ⟨hrun', by omega, by rw [hqk]; exact hps, by rw [hqk]; exact ⟨ho, hg⟩⟩
      rw [hqk] at this
      exact this
    | misfit H r hlin hmis =>
      obtain rfl := Res.ok.inj hl
      exact LoopSpec.misfit k q ⟨hrun, by omega, H, r, hlin, hmis⟩
  | succ n ih =>
    intro k q s o hkn hrun hx hsx hsJ hl
    rw [iterLoop] at hl
    obtain ⟨b, hb, hl⟩ := bind_eq_ok hl
    have hbo := iterBody_out hd hm hx0 hs0 hS hsort hx (fun h => by subst h; exact hrun.start) hsx hsJ hb
    cases hbo with
    | next p hpx hps hpp hpd =>
      set q' : ℕ → GN.Pt := fun j => if j = k then p else if j = k + 1 then { p with x := p.x + p.dx } else q j with hq'
      have hqk : q' k = p := if_pos rfl
      have hqk1 : (q' (k + 1)).x = p.x + p.dx := by
        rw [hq']; simp only
        rw [if_neg (by omega), if_pos trivial]
      have hrun' : (userProblem pj hf ids z d x0 S R).Run cfg k q' := run_congr hrun
        (fun j hj => by rw [hq']; simp only; rw [if_neg (by omega), if_neg (by omega)]) (by rw [hqk, hpx])
      have hcv : converged p.dx cfg.tolEps = true ↔ GN.Small cfg p := converged_iff p.dx cfg.tolEps
      dsimp only at hl
      by_cases hc : 0 < k ∧ converged p.dx cfg.tolEps = true
      · rw [if_pos hc] at hl
        obtain rfl := Res.ok.inj hl
        have base := LoopSpec.fin (d := d) k q' k hrun' (by rw [hqk]; exact hps) (by rw [hqk]; exact hpp) (by rw [hqk, hpx]; exact hx)
          (by rw [hqk]; exact hpd) (Or.inr ⟨rfl, by omega, hc.1, by rw [hqk]; exact hcv.mp hc.2⟩)
        rw [hqk, hpx] at base
        exact base
      · rw [if_neg hc] at hl
        refine ih (k + 1) q' _ o (by omega) (run_snoc hrun' (by rw [hqk]; exact hps) (by rw [hqk]; exact hpp)
          (fun h0 => by rw [hqk]; exact fun h1 => hc ⟨h0, hcv.mpr h1⟩) (by rw [hqk1, hqk])) ?_ ?_ (fun h => by omega) hl
        · rw [hqk1, hpx]; exact hx.add
        · dsimp only; rw [hqk1, hpx]
    | rej p hpx hps ho hg =>
      set q' : ℕ → GN.Pt := fun j => if j = k then p else q j with hq'
      have hqk : q' k = p := if_pos rfl
      have hrun' : (userProblem pj hf ids z d x0 S R).Run cfg k q' := run_congr hrun (fun j hj => if_neg (by omega)) (by rw [hqk, hpx])
      obtain rfl := Res.ok.inj hl
      have := LoopSpec.rej (d := d) k q' ⟨hrun', by omega, by rw [hqk]; exact hps, by rw [hqk]; exact ⟨ho, hg⟩⟩
      rw [hqk] at this
      exact this
    | misfit H r hlin hmis =>
      obtain rfl := Res.ok.inj hl
      exact LoopSpec.misfit k q ⟨hrun, by omega, H, r, hlin, hmis⟩

end loop

end Hdl
end Ikf
