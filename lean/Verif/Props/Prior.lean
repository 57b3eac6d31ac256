import Verif.Model.Decoupled
import Verif.Model.Collab
import Verif.Lemmas.SMap
import Verif.Lemmas.Buffer
import Verif.Lemmas.IteratedLoop
import Verif.Props.FactorStore

/-!
# The beliefs a joint observation starts from (C83)

Before a joint observation every participant is asked for its belief at `t`; one that has none predicts itself with its
own `predict_to`. What a joint observation does is what it does after the participants were predicted one by one.
-/

namespace Ikf
open Mat
namespace Hdl

/-! ## Specification -/

/-- Instance `p` asked for its belief at `t`: a stored belief of exactly that time, else what its own prediction leaves. -/
def ownPrior (pred : ℕ → Inst → Int → Inst × Bool) (t : Int) (p : ℕ) (i : Inst) : Inst × Option Belief :=
  match i.beliefAt t with
  | some b => (i, some b)
  | none => ((pred p i t).1, if (pred p i t).2 then (pred p i t).1.beliefAt t else none)

/-- The handler after the instances `ids` were asked; the others are as they were. -/
def predicted (pred : ℕ → Inst → Int → Inst × Bool) (t : Int) (ids : List ℕ) (h : Hdl) : Hdl :=
  h.map fun e => if e.1 ∈ ids then (e.1, (ownPrior pred t e.1 e.2).1) else e

/-- `p` is registered and has a belief at `t` after it was asked. -/
def Avail (pred : ℕ → Inst → Int → Inst × Bool) (t : Int) (h : Hdl) (p : ℕ) : Prop :=
  ∃ i b, h.find p = some i ∧ (ownPrior pred t p i).2 = some b

/-- `p` is registered but has no belief at `t`, asked or not. -/
def Missing (pred : ℕ → Inst → Int → Inst × Bool) (t : Int) (h : Hdl) (p : ℕ) : Prop :=
  ∃ i, h.find p = some i ∧ (ownPrior pred t p i).2 = none

/-! ## Lemmas -/

section
variable {pred : ℕ → Inst → Int → Inst × Bool} {t : Int} {h : Hdl} {ids : List ℕ}

theorem find_predicted (h : Hdl) (ids : List ℕ) (q : ℕ) :
    (predicted pred t ids h).find q = (h.find q).map fun i => if q ∈ ids then (ownPrior pred t q i).1 else i := by
  unfold predicted
  induction h with
  | nil => rfl
  | cons e r ih =>
    rw [List.map_cons, SMap.find_cons, SMap.find_cons, ih]
    by_cases hq : e.1 = q
    · subst hq
      by_cases hm : e.1 ∈ ids <;> simp [hm]
    · have : (if e.1 ∈ ids then (e.1, (ownPrior pred t e.1 e.2).1) else e).1 = e.1 := by split <;> rfl
      rw [this, if_neg hq, if_neg hq]

theorem sorted_predicted (hs : SMap.Sorted h) (ids : List ℕ) : SMap.Sorted (predicted pred t ids h) := by
  rw [SMap.sorted_iff_keys] at hs ⊢
  have : (predicted pred t ids h).keys = h.keys := by
    unfold predicted SMap.keys
    rw [List.map_map]
    refine List.map_congr_left ?_
    intro e _
    simp only [Function.comp]
    split <;> rfl
  rw [this]; exact hs

theorem predicted_nil (h : Hdl) : predicted pred t [] h = h := by unfold predicted; simp

theorem predicted_cons (hs : SMap.Sorted h) {p : ℕ} {i : Inst} (hf : h.find p = some i) {r : List ℕ} (hp : p ∉ r) :
    predicted pred t r (h.set p (ownPrior pred t p i).1) = predicted pred t (p :: r) h := by
  refine Hdl.sorted_ext (sorted_predicted (hs.set _ _) _) (sorted_predicted hs _) ?_
  intro q
  rw [find_predicted, find_predicted, SMap.find_set]
  by_cases hq : p = q
  · subst hq; simp [hf, hp]
  · have : ¬ q = p := fun h => hq h.symm
    simp [hq, this]

theorem exist_of_belief {i : Inst} {b : Belief} (hb : i.beliefAt t = some b) : i.bel.existAt t = true := by
  unfold Inst.beliefAt at hb
  cases hg : i.bel.getAt t with
  | none => rw [hg] at hb; cases hb
  | some e =>
    unfold Buf.getAt at hg
    rw [Buf.existAt_iff]
    exact ⟨e, List.mem_of_find?_eq_some hg, by have := List.find?_some hg; simpa using this⟩

theorem noexist_of_belief {i : Inst} (hb : i.beliefAt t = none) : i.bel.existAt t = false := by
  by_contra hc
  rw [Bool.not_eq_false, Buf.existAt_iff] at hc
  unfold Inst.beliefAt at hb
  rw [Option.map_eq_none_iff, Buf.getAt_eq_none] at hb
  obtain ⟨e, he, h1⟩ := hc
  exact hb e he h1

theorem put_back (hs : SMap.Sorted h) {p : ℕ} {i : Inst} (hf : h.find p = some i) : h.set p i = h := by
  refine Hdl.sorted_ext (hs.set _ _) hs ?_
  intro q
  rw [SMap.find_set]
  by_cases hq : p = q
  · subst hq; simp [hf]
  · simp [hq]

theorem beliefPredict_own (hs : SMap.Sorted h) {p : ℕ} {i : Inst} (hf : h.find p = some i) :
    beliefPredict pred h p t = .ok (h.set p (ownPrior pred t p i).1, (ownPrior pred t p i).2) := by
  unfold beliefPredict ownPrior
  rw [Hdl.get_ok hf, Res.bind_ok]
  cases hb : i.beliefAt t with
  | some b => rw [if_pos (exist_of_belief hb), put_back hs hf]
  | none => rw [noexist_of_belief hb]; rfl

theorem ownPrior_idem {p : ℕ} {i : Inst} {b : Belief} (hb : (ownPrior pred t p i).2 = some b) :
    ownPrior pred t p (ownPrior pred t p i).1 = ((ownPrior pred t p i).1, some b) := by
  have : (ownPrior pred t p i).1.beliefAt t = some b := by
    unfold ownPrior at hb ⊢
    cases hi : i.beliefAt t with
    | some b' => rw [hi] at hb; exact hi.trans hb
    | none =>
      rw [hi] at hb
      dsimp only at hb ⊢
      split at hb
      · exact hb
      · cases hb
  generalize (ownPrior pred t p i).1 = j at this
  unfold ownPrior
  rw [this]

theorem Avail.set {p q : ℕ} (ha : Avail pred t h q) (hq : p ≠ q) (i : Inst) : Avail pred t (h.set p i) q := by
  obtain ⟨j, b, h1, h2⟩ := ha
  exact ⟨j, b, by rw [SMap.find_set_ne _ hq]; exact h1, h2⟩

theorem Missing.set {p q : ℕ} (ha : Missing pred t h q) (hq : p ≠ q) (i : Inst) : Missing pred t (h.set p i) q := by
  obtain ⟨j, h1, h2⟩ := ha
  exact ⟨j, by rw [SMap.find_set_ne _ hq]; exact h1, h2⟩

/-- The three loops over the participants do the same up to the first instance without a belief. -/
theorem loops_step (hs : SMap.Sorted h) {p : ℕ} {i : Inst} {b : Belief} (hf : h.find p = some i) (hb : (ownPrior pred t p i).2 = some b) (r : List ℕ) (acc : SMap Belief) :
    getDictBel pred h (p :: r) t acc = getDictBel pred (h.set p (ownPrior pred t p i).1) r t (acc.emplace p b) ∧
    getDictAll pred h (p :: r) t acc = getDictAll pred (h.set p (ownPrior pred t p i).1) r t (acc.emplace p b) ∧
    Collab.getBels pred t (p :: r) h acc = Collab.getBels pred t r (h.set p (ownPrior pred t p i).1) (acc.emplace p b) := by
  refine ⟨?_, ?_, ?_⟩
  · rw [getDictBel, beliefPredict_own hs hf, hb]; rfl
  · rw [getDictAll, beliefPredict_own hs hf, hb]; rfl
  · rw [Collab.getBels, hf, if_pos (by rfl), beliefPredict_own hs hf, hb]; rfl

theorem loops_avail (ids : List ℕ) : ∀ {h : Hdl}, SMap.Sorted h → ids.Nodup → (∀ p ∈ ids, Avail pred t h p) → ∀ acc,
    (∃ d, getDictBel pred h ids t acc = .ok (predicted pred t ids h, d) ∧ getDictAll pred h ids t acc = .ok (predicted pred t ids h, d) ∧
      Collab.getBels pred t ids h acc = .ok (predicted pred t ids h, some d)) ∧
    getDictBel pred h ids t acc = getDictBel pred (predicted pred t ids h) ids t acc ∧
    getDictAll pred h ids t acc = getDictAll pred (predicted pred t ids h) ids t acc ∧
    Collab.getBels pred t ids h acc = Collab.getBels pred t ids (predicted pred t ids h) acc := by
  induction ids with
  | nil => intro h _ _ _ acc; rw [predicted_nil]; exact ⟨⟨acc, rfl, rfl, rfl⟩, rfl, rfl, rfl⟩
  | cons p r ih =>
    intro h hs hn ha acc
    obtain ⟨i, b, hf, hb⟩ := ha p List.mem_cons_self
    have hn' := List.nodup_cons.mp hn
    have hs1 := hs.set p (ownPrior pred t p i).1
    have hrest : ∀ q ∈ r, Avail pred t (h.set p (ownPrior pred t p i).1) q := fun q hq =>
      (ha q (List.mem_cons_of_mem _ hq)).set (fun e => hn'.1 (by rw [e]; exact hq)) _
    obtain ⟨e1, e2, e3⟩ := loops_step hs hf hb r acc
    have hc := predicted_cons (pred := pred) (t := t) hs hf hn'.1
    obtain ⟨⟨d, d1, d2, d3⟩, g1, g2, g3⟩ := ih hs1 hn'.2 hrest (acc.emplace p b)
    rw [hc] at d1 d2 d3 g1 g2 g3
    have hpf : (predicted pred t (p :: r) h).find p = some (ownPrior pred t p i).1 := by
      rw [find_predicted, hf]; simp
    have hpb : (ownPrior pred t p (ownPrior pred t p i).1).2 = some b := by rw [ownPrior_idem hb]
    have hps : SMap.Sorted (predicted pred t (p :: r) h) := sorted_predicted hs _
    obtain ⟨k1, k2, k3⟩ := loops_step hps hpf hpb r acc
    rw [ownPrior_idem hb, put_back hps hpf] at k1 k2 k3
    exact ⟨⟨d, e1.trans d1, e2.trans d2, e3.trans d3⟩, e1.trans (g1.trans k1.symm), e2.trans (g2.trans k2.symm), e3.trans (g3.trans k3.symm)⟩

theorem loops_missing (pre : List ℕ) (p : ℕ) (post : List ℕ) : ∀ {h : Hdl}, SMap.Sorted h → (pre ++ [p]).Nodup → (∀ q ∈ pre, Avail pred t h q) → Missing pred t h p →
    ∀ acc, getDictBel pred h (pre ++ p :: post) t acc = .ok (predicted pred t (pre ++ [p]) h, []) ∧
      getDictAll pred h (pre ++ p :: post) t acc = .throws ∧
      Collab.getBels pred t (pre ++ p :: post) h acc = .ok (predicted pred t (pre ++ [p]) h, none) := by
  induction pre with
  | nil =>
    intro h hs _ _ hm acc
    obtain ⟨i, hf, hb⟩ := hm
    have hc := predicted_cons (pred := pred) (t := t) hs hf (r := []) (by simp)
    rw [predicted_nil] at hc
    rw [List.nil_append, List.nil_append, getDictBel, getDictAll, Collab.getBels, hf, if_pos (by rfl), beliefPredict_own hs hf, hb, hc]
    exact ⟨rfl, rfl, rfl⟩
  | cons q r ih =>
    intro h hs hn ha hm acc
    obtain ⟨i, b, hf, hb⟩ := ha q List.mem_cons_self
    rw [List.cons_append] at hn
    have hn' := List.nodup_cons.mp hn
    have hs1 := hs.set q (ownPrior pred t q i).1
    obtain ⟨e1, e2, e3⟩ := loops_step hs hf hb (r ++ p :: post) acc
    obtain ⟨g1, g2, g3⟩ := ih hs1 hn'.2 (fun x hx => (ha x (List.mem_cons_of_mem _ hx)).set (fun e => hn'.1 (by rw [e]; exact List.mem_append_left _ hx)) _)
      (hm.set (fun e => hn'.1 (e ▸ List.mem_append_right _ List.mem_cons_self)) _) (acc.emplace q b)
    rw [predicted_cons (pred := pred) (t := t) hs hf hn'.1] at g1 g3
    exact ⟨e1.trans g1, e2.trans g2, e3.trans g3⟩

theorem loops_unknown (pre : List ℕ) (p : ℕ) (post : List ℕ) : ∀ {h : Hdl}, SMap.Sorted h → (pre ++ [p]).Nodup → (∀ q ∈ pre, Avail pred t h q) → h.find p = none →
    ∀ acc, getDictBel pred h (pre ++ p :: post) t acc = .ub ∧ getDictAll pred h (pre ++ p :: post) t acc = .ub ∧
      Collab.getBels pred t (pre ++ p :: post) h acc = .ok (predicted pred t pre h, none) := by
  induction pre with
  | nil =>
    intro h hs _ _ hm acc
    have hg : get h p = .ub := by unfold get; rw [hm]
    rw [List.nil_append, getDictBel, getDictAll, Collab.getBels, hm, beliefPredict, hg, predicted_nil]
    exact ⟨rfl, rfl, rfl⟩
  | cons q r ih =>
    intro h hs hn ha hm acc
    obtain ⟨i, b, hf, hb⟩ := ha q List.mem_cons_self
    rw [List.cons_append] at hn
    have hn' := List.nodup_cons.mp hn
    have hs1 := hs.set q (ownPrior pred t q i).1
    have hqp : q ≠ p := fun e => hn'.1 (e ▸ List.mem_append_right _ List.mem_cons_self)
    have hqr : q ∉ r := fun hx => hn'.1 (List.mem_append_left _ hx)
    obtain ⟨e1, e2, e3⟩ := loops_step hs hf hb (r ++ p :: post) acc
    obtain ⟨g1, g2, g3⟩ := ih hs1 hn'.2 (fun x hx => (ha x (List.mem_cons_of_mem _ hx)).set (fun e => hqr (by rw [e]; exact hx)) _)
      (by rw [SMap.find_set_ne _ hqp]; exact hm) (acc.emplace q b)
    rw [predicted_cons (pred := pred) (t := t) hs hf hqr] at g3
    exact ⟨e1.trans g1, e2.trans g2, e3.trans g3⟩

/-! ## C83 -/

/-- What being asked leaves: every instance outside `ids`, and every one that has a belief at `t`, is as it was; an available instance has a belief at `t`. -/
theorem c83_predicted (ids : List ℕ) (q : ℕ) :
    (q ∉ ids → (predicted pred t ids h).find q = h.find q) ∧
    (∀ i b, h.find q = some i → i.beliefAt t = some b → (predicted pred t ids h).find q = some i) ∧
    (q ∈ ids → Avail pred t h q → ∃ j b, (predicted pred t ids h).find q = some j ∧ j.beliefAt t = some b) := by
  refine ⟨?_, ?_, ?_⟩
  · intro hq
    rw [find_predicted]; simp [hq]
  · intro i b hf hb
    rw [find_predicted, hf, Option.map_some]
    split
    · unfold ownPrior; rw [hb]
    · rfl
  · rintro hq ⟨i, b, hf, hb⟩
    refine ⟨(ownPrior pred t q i).1, b, by rw [find_predicted, hf]; simp [hq], ?_⟩
    unfold ownPrior at hb ⊢
    cases hi : i.beliefAt t with
    | some b' => rw [hi] at hb; exact hi.trans hb
    | none =>
      rw [hi] at hb
      dsimp only at hb ⊢
      split at hb
      · exact hb
      · cases hb

/-- C83: if every participant has a belief at `t` or can predict one, a joint observation does exactly what it does after each of them was predicted on its own:
for the handler's three kinds of observation. -/
theorem c83_predict_first {near : Mat → Mat} {pj : Belief → Mat → Mat} {hf : SMap Belief → List ℕ → Mat → SMap Mat × Mat} {dH : SMap Mat} {R r z : Mat} {cfg : Cfg}
    (hs : SMap.Sorted h) :
    (dH.keys.Nodup → (∀ p ∈ dH.keys, Avail pred t h p) →
      applyObsR near pred h dH R r t cfg = applyObsR near pred (predicted pred t dH.keys h) dH R r t cfg ∧
      applyObsZ near pred h dH z R t cfg = applyObsZ near pred (predicted pred t dH.keys h) dH z R t cfg) ∧
    (ids.Nodup → (∀ p ∈ ids, Avail pred t h p) →
      applyObsI near pj pred hf h R z t ids cfg = applyObsI near pj pred hf (predicted pred t ids h) R z t ids cfg) := by
  refine ⟨fun hn ha => ?_, fun hn ha => ?_⟩
  · obtain ⟨-, g, -⟩ := loops_avail dH.keys hs hn ha []
    exact ⟨by unfold applyObsR; rw [g], by unfold applyObsZ; rw [g]⟩
  · obtain ⟨-, g, -⟩ := loops_avail ids hs hn ha []
    unfold applyObsI; rw [g]

/-- C83: the same for the Schmidt-Kalman handler. -/
theorem c83_predict_first_schmidt {near : Mat → Mat} {hf : SMap Belief → List ℕ → Mat → SMap Mat × Mat} {dH : SMap Mat} {R r z : Mat} {cfg : Cfg}
    (hs : SMap.Sorted h) :
    (dH.keys.Nodup → (∀ p ∈ dH.keys, Avail pred t h p) →
      applyObsSR near pred h dH R r t cfg = applyObsSR near pred (predicted pred t dH.keys h) dH R r t cfg ∧
      applyObsSZ near pred h dH z R t cfg = applyObsSZ near pred (predicted pred t dH.keys h) dH z R t cfg) ∧
    (ids.Nodup → (∀ p ∈ ids, Avail pred t h p) →
      applyObsSH near pred hf h R z t ids cfg = applyObsSH near pred hf (predicted pred t ids h) R z t ids cfg) := by
  refine ⟨fun hn ha => ?_, fun hn ha => ?_⟩
  · obtain ⟨-, g, -⟩ := loops_avail dH.keys hs hn ha []
    exact ⟨by unfold applyObsSR; rw [g], by unfold applyObsSZ; rw [g]⟩
  · obtain ⟨-, g, -⟩ := loops_avail ids hs hn ha []
    unfold applyObsSH; rw [g]

/-- C83: a participant without a belief at `t` that cannot predict one. The participants before it were predicted, those after it were not asked; nothing else happened.
`apply_observation` answers false, the one with a measurement function `OUTOFORDER`. -/
theorem c83_missing {near : Mat → Mat} {pj : Belief → Mat → Mat} {hf : SMap Belief → List ℕ → Mat → SMap Mat × Mat} {dH : SMap Mat} {R r z H : Mat} {cfg : Cfg}
    (hs : SMap.Sorted h) {pre post : List ℕ} {p : ℕ} (hn : (pre ++ [p]).Nodup) (ha : ∀ q ∈ pre, Avail pred t h q) (hm : Missing pred t h p) :
    (dH.keys = pre ++ p :: post → stackH dH = .ok H →
      applyObsR near pred h dH R r t cfg = .ok (predicted pred t (pre ++ [p]) h, false) ∧
      applyObsZ near pred h dH z R t cfg = .ok (predicted pred t (pre ++ [p]) h, false) ∧
      applyObsSR near pred h dH R r t cfg = .ok (predicted pred t (pre ++ [p]) h, false) ∧
      applyObsSZ near pred h dH z R t cfg = .ok (predicted pred t (pre ++ [p]) h, false)) ∧
    (ids = pre ++ p :: post →
      applyObsI near pj pred hf h R z t ids cfg = .ok (predicted pred t (pre ++ [p]) h, .outOfOrder, Mat.zero 0 1) ∧
      applyObsSH near pred hf h R z t ids cfg = .ok (predicted pred t (pre ++ [p]) h, .outOfOrder) ∧
      applyObsID near pj pred hf h R z t ids cfg = .ok (predicted pred t (pre ++ [p]) h, .outOfOrder, Mat.zero 0 1)) := by
  obtain ⟨g, -, -⟩ := loops_missing pre p post hs hn ha hm []
  refine ⟨fun hk hH => ?_, fun hk => ?_⟩
  · rw [← hk] at g
    unfold applyObsR applyObsZ applyObsSR applyObsSZ
    rw [hH, Res.bind_ok, Res.bind_ok, Res.bind_ok, Res.bind_ok, g]
    exact ⟨rfl, rfl, rfl, rfl⟩
  · rw [← hk] at g
    unfold applyObsI applyObsSH applyObsID
    rw [g]
    exact ⟨rfl, rfl, rfl⟩

/-- C83: an unknown participant is undefined behaviour (a null pointer is dereferenced). -/
theorem c83_unknown {near : Mat → Mat} {pj : Belief → Mat → Mat} {hf : SMap Belief → List ℕ → Mat → SMap Mat × Mat} {dH : SMap Mat} {R r z H : Mat} {cfg : Cfg}
    (hs : SMap.Sorted h) {pre post : List ℕ} {p : ℕ} (hn : (pre ++ [p]).Nodup) (ha : ∀ q ∈ pre, Avail pred t h q) (hm : h.find p = none) :
    (dH.keys = pre ++ p :: post → stackH dH = .ok H →
      applyObsR near pred h dH R r t cfg = .ub ∧ applyObsZ near pred h dH z R t cfg = .ub ∧
      applyObsSR near pred h dH R r t cfg = .ub ∧ applyObsSZ near pred h dH z R t cfg = .ub) ∧
    (ids = pre ++ p :: post →
      applyObsI near pj pred hf h R z t ids cfg = .ub ∧ applyObsSH near pred hf h R z t ids cfg = .ub ∧
      applyObsID near pj pred hf h R z t ids cfg = .ub) := by
  obtain ⟨g, -, -⟩ := loops_unknown pre p post hs hn ha hm []
  refine ⟨fun hk hH => ?_, fun hk => ?_⟩
  · rw [← hk] at g
    unfold applyObsR applyObsZ applyObsSR applyObsSZ
    rw [hH, Res.bind_ok, Res.bind_ok, Res.bind_ok, Res.bind_ok, g]
    exact ⟨rfl, rfl, rfl, rfl⟩
  · rw [← hk] at g
    unfold applyObsI applyObsSH applyObsID
    rw [g]
    exact ⟨rfl, rfl, rfl⟩

/-- C83, handler with decoupled propagation: every registered instance is asked, whether it takes part or not. If all have a belief at `t` or can predict one, and
predicting keeps the sizes, the call does what it does after all instances were predicted; if one cannot, the call throws. -/
theorem c83_decoupled {near : Mat → Mat} {dH : SMap Mat} {R r z : Mat} {cfg : Cfg} (hs : SMap.Sorted h) :
    ((∀ p ∈ h.keys, Avail pred t h p) →
      (∀ e ∈ h, (ownPrior pred t e.1 e.2).1.bel.latest.map (fun b => b.2.dim) = e.2.bel.latest.map (fun b => b.2.dim)) →
      applyObsRD near pred h dH R r t cfg = applyObsRD near pred (predicted pred t h.keys h) dH R r t cfg ∧
      applyObsZD near pred h dH z R t cfg = applyObsZD near pred (predicted pred t h.keys h) dH z R t cfg) ∧
    (∀ H, stackHAll h dH = .ok H → ∀ p, Missing pred t h p →
      applyObsRD near pred h dH R r t cfg = .throws ∧ applyObsZD near pred h dH z R t cfg = .throws) := by
  have hkn : h.keys.Nodup := by
    rw [SMap.sorted_iff_keys] at hs
    exact hs.imp (fun h => by omega)
  have hkp : (predicted pred t h.keys h).keys = h.keys := by
    unfold predicted SMap.keys
    rw [List.map_map]
    refine List.map_congr_left ?_
    intro e _
    simp only [Function.comp]
    split <;> rfl
  refine ⟨fun ha hd => ?_, fun H hH p hp => ?_⟩
  · have hst : stackHAll h dH = stackHAll (predicted pred t h.keys h) dH := by
      have : ∀ l : Hdl, (∀ e ∈ l, e ∈ h) → allDims (l.map fun e => if e.1 ∈ SMap.keys h then (e.1, (ownPrior pred t e.1 e.2).1) else e) = allDims l := by
        intro l
        induction l with
        | nil => intro _; rfl
        | cons e r ih =>
          intro hl
          have he := hl e List.mem_cons_self
          rw [List.map_cons, if_pos (show e.1 ∈ SMap.keys h from List.mem_map.mpr ⟨e, he, rfl⟩), allDims, allDims, ih (fun x hx => hl x (List.mem_cons_of_mem _ hx))]
          have := hd e he
          dsimp only
          cases h1 : (ownPrior pred t e.1 e.2).1.bel.latest <;> cases h2 : e.2.bel.latest <;> rw [h1, h2] at this <;> simp at this
          dsimp only; rw [this]
      unfold stackHAll
      rw [predicted, this h (fun _ h => h)]
    obtain ⟨-, -, g, -⟩ := loops_avail h.keys hs hkn ha []
    unfold applyObsRD applyObsZD
    rw [hst, hkp, g]
    exact ⟨rfl, rfl⟩
  · have key : getDictAll pred h h.keys t [] = .throws := by
      have hreg : ∀ q ∈ h.keys, ∃ i, h.find q = some i := fun q hq => Option.isSome_iff_exists.mp ((SMap.find_isSome_iff _ _).mpr hq)
      have hpk : p ∈ h.keys := by
        obtain ⟨i, hf, -⟩ := hp
        exact (SMap.find_isSome_iff _ _).mp (by rw [hf]; rfl)
      -- the first one that is missing
      have : ∀ l : List ℕ, (∀ q ∈ l, q ∈ h.keys) → p ∈ l → ∃ pre p' post, l = pre ++ p' :: post ∧ (∀ q ∈ pre, Avail pred t h q) ∧ Missing pred t h p' := by
        intro l
        induction l with
        | nil => intro _ h; cases h
        | cons q r ih =>
          intro hl hpl
          obtain ⟨i, hf⟩ := hreg q (hl q List.mem_cons_self)
          cases hb : (ownPrior pred t q i).2 with
          | none => exact ⟨[], q, r, rfl, fun _ h => (by cases h), i, hf, hb⟩
          | some b =>
            have hqp : p ≠ q := by
              rintro rfl
              obtain ⟨j, h1, h2⟩ := hp
              rw [hf] at h1
              obtain rfl := Option.some.inj h1
              rw [hb] at h2; cases h2
            have hpr : p ∈ r := (List.mem_cons.mp hpl).resolve_left hqp
            obtain ⟨pre, p', post, e1, e2, e3⟩ := ih (fun x hx => hl x (List.mem_cons_of_mem _ hx)) hpr
            refine ⟨q :: pre, p', post, by rw [e1]; rfl, ?_, e3⟩
            intro x hx
            rcases List.mem_cons.mp hx with rfl | hx
            · exact ⟨i, b, hf, hb⟩
            · exact e2 x hx
      obtain ⟨pre, p', post, e1, e2, e3⟩ := this h.keys (fun _ h => h) hpk
      have hn : (pre ++ [p']).Nodup := by
        rw [e1, show pre ++ p' :: post = (pre ++ [p']) ++ post by simp] at hkn
        exact (List.nodup_append.mp hkn).1
      rw [e1]
      exact (loops_missing pre p' post hs hn e2 e3 []).2.1
    unfold applyObsRD applyObsZD
    rw [hH, Res.bind_ok, Res.bind_ok, key]
    exact ⟨rfl, rfl⟩

/-- C83, what another agent is told: the beliefs and factors after the asked instances were predicted one by one; nothing if one is unknown or cannot predict. -/
theorem c83_answer_to_agents {parts : List ℕ} (hs : SMap.Sorted h) :
    (ids.Nodup → (∀ p ∈ ids, Avail pred t h p) →
      Collab.getBF pred h ids parts t = Collab.getBF pred (predicted pred t ids h) ids parts t) ∧
    (∀ pre p post, ids = pre ++ p :: post → (pre ++ [p]).Nodup → (∀ q ∈ pre, Avail pred t h q) →
      (Missing pred t h p → Collab.getBF pred h ids parts t = .ok (predicted pred t (pre ++ [p]) h, none)) ∧
      (h.find p = none → Collab.getBF pred h ids parts t = .ok (predicted pred t pre h, none))) := by
  refine ⟨fun hn ha => ?_, ?_⟩
  · obtain ⟨-, -, -, g⟩ := loops_avail ids hs hn ha []
    unfold Collab.getBF; rw [g]
  · rintro pre p post rfl hn ha
    refine ⟨fun hm => ?_, fun hm => ?_⟩
    · unfold Collab.getBF
      rw [(loops_missing pre p post hs hn ha hm []).2.2]; rfl
    · unfold Collab.getBF
      rw [(loops_unknown pre p post hs hn ha hm []).2.2]; rfl

/-- C83: the beliefs in that answer are those of the predicted instances. -/
theorem c83_answer_beliefs {parts : List ℕ} (hs : SMap.Sorted h) (hn : ids.Nodup) (ha : ∀ p ∈ ids, Avail pred t h p) {h' : Hdl} {bs : SMap Belief} {F : SMap (SMap Mat)}
    (hr : Collab.getBF pred h ids parts t = .ok (h', some (bs, F))) :
    h' = predicted pred t ids h ∧ ∀ p b, bs.find p = some b ↔ p ∈ ids ∧ ∃ i, h'.find p = some i ∧ i.beliefAt t = some b := by
  have gen : ∀ (ids : List ℕ) {h : Hdl}, SMap.Sorted h → ids.Nodup → (∀ p ∈ ids, Avail pred t h p) → ∀ acc : SMap Belief, (∀ p ∈ ids, acc.find p = none) →
      ∃ d, Collab.getBels pred t ids h acc = .ok (predicted pred t ids h, some d) ∧
        ∀ p b, d.find p = some b ↔ acc.find p = some b ∨ (p ∈ ids ∧ ∃ i, (predicted pred t ids h).find p = some i ∧ i.beliefAt t = some b) := by
    intro ids
    induction ids with
    | nil => intro h _ _ _ acc _; exact ⟨acc, by rw [predicted_nil]; rfl, fun p b => by simp⟩
    | cons p r ih =>
      intro h hs hn ha acc hac
      obtain ⟨i, b, hf, hb⟩ := ha p List.mem_cons_self
      have hn' := List.nodup_cons.mp hn
      have hs1 := hs.set p (ownPrior pred t p i).1
      have hrest : ∀ q ∈ r, Avail pred t (h.set p (ownPrior pred t p i).1) q := fun q hq =>
        (ha q (List.mem_cons_of_mem _ hq)).set (fun e => hn'.1 (by rw [e]; exact hq)) _
      obtain ⟨-, -, e3⟩ := loops_step hs hf hb r acc
      have hc := predicted_cons (pred := pred) (t := t) hs hf hn'.1
      have hac0 := hac p List.mem_cons_self
      obtain ⟨d, d1, d2⟩ := ih hs1 hn'.2 hrest (acc.emplace p b) (by
        intro q hq
        have hpq : p ≠ q := fun e => hn'.1 (by rw [e]; exact hq)
        rw [SMap.emplace, hac0, SMap.find_set_ne _ hpq]
        exact hac q (List.mem_cons_of_mem _ hq))
      rw [hc] at d1 d2
      refine ⟨d, e3.trans d1, ?_⟩
      intro q b'
      rw [d2, SMap.emplace, hac0, SMap.find_set]
      have hpb : (ownPrior pred t p i).1.beliefAt t = some b := by
        unfold ownPrior at hb ⊢
        cases hi : i.beliefAt t with
        | some b' => rw [hi] at hb; exact hi.trans hb
        | none =>
          rw [hi] at hb
          dsimp only at hb ⊢
          split at hb
          · exact hb
          · cases hb
      by_cases hq : p = q
      · subst hq
        have hpf : (predicted pred t (p :: r) h).find p = some (ownPrior pred t p i).1 := by
          rw [find_predicted, hf]; simp
        rw [if_pos rfl, hac0, hpf]
        simp [hn'.1, hpb]
      · have hq' : ¬ q = p := fun e => hq e.symm
        simp [hq, hq']
  obtain ⟨d, d1, d2⟩ := gen ids hs hn ha [] (fun _ _ => rfl)
  unfold Collab.getBF at hr
  rw [d1] at hr
  simp only [Res.bind_ok] at hr
  obtain ⟨F', hF, hr⟩ := Hdl.bind_eq_ok hr
  cases hr
  refine ⟨rfl, fun p b => ?_⟩
  rw [d2]
  constructor
  · rintro (h | h)
    · cases h
    · exact h
  · exact Or.inr

end
end Hdl
end Ikf
