import Verif.Lemmas.Concurrent
import Verif.Props.Covariance

/-!
# C105: several threads use one handler
-/

namespace Ikf.Conc

open Ikf.Lock (Mutex)

section
variable {V : Loc → Type} {α : Type} {s0 : Store V} {calls : ℕ → List (Prog V α)} {es : List Ev} {c : Conf V α}

theorem free_of_quiet {tmo : Prop} {hist} (h : Inv tmo calls s0 c hist) (hq : c.Quiet) : c.main = .free := by
  cases hm : c.main with
  | free => rfl
  | held o d =>
    obtain ⟨s, -, ⟨p, q, r, h1, -⟩, -⟩ := h.holder hm
    rw [hq o] at h1
    simp at h1

/-- C105 (1). Any number of threads make any calls of functions that keep to the lock of the handler, interleaved in any way. If no undefined behaviour
happened and all have returned, the same calls made one after another, in some order that keeps the order of each thread, give the same results and
leave the same members. -/
theorem c105_one_by_one_partial (hl : ∀ th, ∀ p ∈ calls th, Locked p) (hr : Run (start s0 calls) es (.ok c)) (hq : c.Quiet) :
    ∃ hist, OneByOne s0 hist c.store ∧ ∀ th, callsOf th hist = (c.thr th).past ∧ (c.thr th).past.map (·.1) ++ (c.thr th).todo = calls th := by
  obtain ⟨hist, h⟩ := (Inv.start (tmo := True) s0 calls hl).run (fun _ _ => trivial) hr rfl
  obtain ⟨s, hs, hm⟩ := h.seq
  rw [free_of_quiet h hq] at hm
  refine ⟨_, hm.1 ▸ hs, fun th => ⟨?_, ?_⟩⟩
  · rw [h.mine th, tail_none (hq th), List.append_nil]
  · have := h.prog th
    rw [hq th] at this
    simpa using this

/-- C105 (2): that order keeps the order in time, too. At any moment (`c1`) there is a beginning `h1` of the history with every call that has returned by then
and no call that has not begun by then. -/
theorem c105_real_time_partial {es1 es2 : List Ev} {c1 c2 : Conf V α} (hl : ∀ th, ∀ p ∈ calls th, Locked p) (h1 : Run (start s0 calls) es1 (.ok c1))
    (h2 : Run c1 es2 (.ok c2)) (hq : c2.Quiet) :
    ∃ l1 l2, OneByOne s0 (l1 ++ l2) c2.store ∧ (∀ th, callsOf th (l1 ++ l2) = (c2.thr th).past) ∧
      ∀ th, callsOf th l1 = (c1.thr th).past ∨ ∃ p q a, (c1.thr th).now = some (p, q) ∧ callsOf th l1 = (c1.thr th).past ++ [(p, a)] := by
  obtain ⟨l1, i1⟩ := (Inv.start (tmo := True) s0 calls hl).run (fun _ _ => trivial) h1 rfl
  rw [List.nil_append] at i1
  obtain ⟨l2, i2⟩ := i1.run (fun _ _ => trivial) h2 rfl
  obtain ⟨s, hs, hm⟩ := i2.seq
  rw [free_of_quiet i2 hq] at hm
  refine ⟨l1, l2, hm.1 ▸ hs, fun th => ?_, fun th => ?_⟩
  · rw [i2.mine th, tail_none (hq th), List.append_nil]
  · cases hn : (c1.thr th).now with
    | none => exact Or.inl (by rw [i1.mine th, tail_none hn, List.append_nil])
    | some x =>
      obtain ⟨p, q⟩ := x
      by_cases hr : ∃ a, q = .ret a
      · obtain ⟨a, rfl⟩ := hr
        exact Or.inr ⟨p, _, a, rfl, by rw [i1.mine th, tail_ret hn]⟩
      · exact Or.inl (by rw [i1.mine th, tail_ne hn (fun a e => hr ⟨a, e⟩), List.append_nil])

/-- C105 (3): two such calls never race for a member, in no schedule, not even after a time-out. -/
theorem c105_no_race_partial (hl : ∀ th, ∀ p ∈ calls th, Locked p) (hr : Run (start s0 calls) es (.ok c)) : ¬ c.Race := by
  obtain ⟨hist, h⟩ := (Inv.start (tmo := True) s0 calls hl).run (fun _ _ => trivial) hr rfl
  have key : ∀ th p q x, (c.thr th).now = some (p, q) → q.access = some x → ∃ d, c.main = .held th d := by
    intro th p q x hn ha
    rcases held_or c th with hd | hno
    · exact hd
    · exfalso
      rcases h.out th hno with h1 | ⟨p', h1, h2⟩ | ⟨p', a, h1, -⟩ | ⟨p', a, h1⟩ <;> rw [hn] at h1
      · simp at h1
      · cases h1; rcases h2 with ⟨b, r, rfl, -⟩ | ⟨b, rfl, -⟩ <;> simp [Prog.access] at ha
      · cases h1; simp [Prog.access] at ha
      · cases h1; simp [Prog.access] at ha
  rintro ⟨a, b, l, wa, wb, hab, ⟨p, q, h1, h2⟩, ⟨p', q', h3, h4⟩, -⟩
  obtain ⟨d, hd⟩ := key a p q _ h1 h2
  obtain ⟨d', hd'⟩ := key b p' q' _ h3 h4
  rw [hd] at hd'
  cases hd'
  exact hab rfl

/-- C105 (4): undefined behaviour in a schedule without time-outs is that of a single call: the calls before it, one after another, and then this call, crash as
well. -/
theorem c105_no_new_crash_partial (hl : ∀ th, ∀ p ∈ calls th, Locked p) (hr : Run (start s0 calls) es .ub) (ht : ∀ th, .timeout th ∉ es) :
    ∃ (hist : List (ℕ × Prog V α × α)) (s : Store V) (th : ℕ) (p : Prog V α) (rest : List (Prog V α)), OneByOne s0 hist s ∧ p.run s = .ub ∧
      (callsOf th hist).map (·.1) ++ p :: rest = calls th ∧ ∀ x, (callsOf x hist).map (·.1) <+: calls x := by
  have key : ∀ (c : Conf V α) (es : List Ev) (r : Res (Conf V α)) hist, Run c es r → r = .ub → (∀ th, .timeout th ∉ es) → Inv False calls s0 c hist →
      ∃ (hist : List (ℕ × Prog V α × α)) (s : Store V) (th : ℕ) (p : Prog V α) (rest : List (Prog V α)), OneByOne s0 hist s ∧ p.run s = .ub ∧
      (callsOf th hist).map (·.1) ++ p :: rest = calls th ∧ ∀ x, (callsOf x hist).map (·.1) <+: calls x := by
    intro c es r hist hr
    induction hr generalizing hist with
    | nil c => intro h; cases h
    | cons hs _ ih =>
      intro e ht h
      obtain ⟨ext, h1⟩ := h.step (fun th he => absurd (he ▸ List.mem_cons_self) (ht th)) hs
      exact ih _ e (fun th hm => ht th (List.mem_cons_of_mem _ hm)) h1
    | @ub c e hs =>
      intro _ _ h
      obtain ⟨s, th, p, h1, h2, h3⟩ := h.step_ub hs
      refine ⟨_, s, th, p, (c.thr th).todo, h1, h2, ?_, h.prefix⟩
      have := h.prog th
      rw [h.mine th, tail_ne h3 (by simp), List.append_nil, ← this, h3]
      simp
  exact key _ _ _ [] hr rfl ht (Inv.start s0 calls hl)

/-- C105 (5): no deadlock: as long as a call is to be made or has not returned, some thread can go on (other than by a time-out). -/
theorem c105_no_deadlock (hl : ∀ th, ∀ p ∈ calls th, Locked p) (hr : Run (start s0 calls) es (.ok c))
    (hw : ∃ th, (c.thr th).now ≠ none ∨ (c.thr th).todo ≠ []) : ∃ th r, Step c (.step th) r := by
  obtain ⟨hist, h⟩ := (Inv.start (tmo := True) s0 calls hl).run (fun _ _ => trivial) hr rfl
  cases hm : c.main with
  | free =>
    obtain ⟨th, hw⟩ := hw
    have hfree : acquire c.main th = some (.held th 0) := by rw [hm]; rfl
    rcases h.out th (by rw [hm]; simp) with h1 | ⟨p', h1, h2⟩ | ⟨p', a, h1, -⟩ | ⟨p', a, h1⟩
    · rcases hw with hw | hw
      · exact absurd h1 hw
      · obtain ⟨p, ps, hps⟩ := List.exists_cons_of_ne_nil hw
        exact ⟨th, _, .call c th _ p ps rfl h1 hps⟩
    · rcases h2 with ⟨b, r, rfl, -⟩ | ⟨b, rfl, -⟩
      · exact ⟨th, _, .tryOk c th _ _ _ _ _ rfl h1 hfree⟩
      · exact ⟨th, _, .lockMain c th _ _ _ _ rfl h1 hfree⟩
    · exact ⟨th, _, .unlockMainUb c th _ _ _ rfl h1 (by rw [hm]; rfl)⟩
    · exact ⟨th, _, .ret c th _ _ _ rfl h1⟩
  | held o d =>
    obtain ⟨s, -, ⟨p, q, r, h1, h2, h3, h4, h5⟩, -⟩ := h.holder hm
    have hacq : acquire c.main o = some (.held o (d + 1)) := by rw [hm]; simp [acquire]
    cases h3 with
    | rd h3 => exact ⟨o, _, .rd c o _ _ _ _ rfl h1⟩
    | wr h3 => exact ⟨o, _, .wr c o _ _ _ _ _ rfl h1⟩
    | tryLock h3 => exact ⟨o, _, .tryOk c o _ _ _ _ _ rfl h1 hacq⟩
    | lockMain h3 => exact ⟨o, _, .lockMain c o _ _ _ _ rfl h1 hacq⟩
    | unlockMain h3 => exact ⟨o, _, .unlockMain c o _ _ _ (dec o d) rfl h1 (by rw [hm]; cases d <;> simp [Lock.unlock, dec])⟩
    | lockRur h3 => exact ⟨o, _, .lockRur c o _ _ _ (.held o 0) rfl h1 (by rw [h5]; rfl)⟩
    | unlockRur h3 => exact ⟨o, _, .unlockRur c o _ _ _ .free rfl h1 (by rw [h5]; simp [Lock.unlock])⟩
    | crash => exact ⟨o, _, .crash c o _ _ rfl h1⟩

/-- C105 (6): with `std::lock_guard`, as DecoupledPropagationHandler does, there are no time-outs, so (1) to (4) hold without any proviso. -/
theorem c105_blocking (hl : ∀ th, ∀ p ∈ calls th, Blocking p) {r : Res (Conf V α)} (hr : Run (start s0 calls) es r) (th : ℕ) : .timeout th ∉ es := by
  have hall : ∀ th, ∀ p ∈ calls th, Locked p := fun th p hp => Or.inr (hl th p hp)
  have key : ∀ (c : Conf V α) (es : List Ev) (r : Res (Conf V α)) hist, Run c es r → Inv False calls s0 c hist → .timeout th ∉ es := by
    intro c es r hist hr
    induction hr generalizing hist with
    | nil c => simp
    | @cons c c' e es r hs _ ih =>
      intro h
      have hne : ∀ x, e ≠ .timeout x := by
        rintro x rfl
        cases hs with
        | tryLate _ y p k kt hx hn hm =>
          subst hx
          rcases held_or c x with ⟨d, hd⟩ | hno
          · rw [hd] at hm; simp [acquire] at hm
          · rcases h.out x hno with h1 | ⟨p', h1, h2⟩ | ⟨p', a, h1, hf, -⟩ | ⟨p', a, h1⟩
            · rw [hn] at h1; simp at h1
            · rw [hn] at h1
              cases h1
              have : (.tryLock k kt : Prog V α) ∈ calls x := by
                rw [← h.prog x, hn]; simp
              obtain ⟨b, hb, -⟩ := hl x _ this
              simp at hb
            · exact hf
            · rw [hn] at h1; simp at h1
      obtain ⟨ext, h1⟩ := h.step (fun x he => absurd he (hne x)) hs
      simp only [List.mem_cons, not_or]
      exact ⟨fun e' => hne th e'.symm, ih _ h1⟩
    | @ub c e hs =>
      intro h hmem
      rw [List.mem_singleton] at hmem
      subst hmem
      cases hs
  exact key _ _ _ [] hr (Inv.start s0 calls hall)

/-- C105 is false with `lock_guard_timed`: once a `try_lock` of such a call has timed out, its thread never returns; if it goes on, that is undefined
behaviour. So (1) and (2) are about schedules in which every lock was acquired within 25 ms. -/
theorem c105_timeout_fails (hl : ∀ th, ∀ p ∈ calls th, Locked p) (hr : Run (start s0 calls) es (.ok c)) (th : ℕ) (ht : .timeout th ∈ es) :
    (c.thr th).now ≠ none ∧ ∀ r, Step c (.step th) r → r = .ub := by
  let Stuck (c : Conf V α) : Prop := (∃ p a, (c.thr th).now = some (p, .unlock .main (.ret a))) ∧ ∀ d, c.main ≠ .held th d
  have stuck : ∀ (c : Conf V α), Stuck c → ∀ r, Step c (.step th) r → r = .ub := by
    rintro c ⟨⟨p, a, hn⟩, hm⟩ r hs
    generalize hE : Ev.step th = E at hs
    cases hs with
    | unlockMainUb => rfl
    | unlockRurUb => rfl
    | crash => rfl
    | tryLate => simp at hE
    | unlockMain y x p' k m hx hn' hu =>
      cases hE
      exfalso
      cases hc : c.main with
      | free => rw [hc] at hu; simp [Lock.unlock] at hu
      | held o d =>
        rw [hc] at hu
        obtain ⟨rfl, -⟩ := unlock_held hu
        exact hm d hc
    | call y x p' ps hx hn' => cases hE; subst hx; rw [hn] at hn'; simp at hn'
    | ret y x p' a hx hn' => cases hE; subst hx; rw [hn] at hn'; simp at hn'
    | rd y x p' l k hx hn' => cases hE; subst hx; rw [hn] at hn'; simp at hn'
    | wr y x p' l f k hx hn' => cases hE; subst hx; rw [hn] at hn'; simp at hn'
    | tryOk y x p' k kt m hx hn' => cases hE; subst hx; rw [hn] at hn'; simp at hn'
    | lockMain y x p' k m hx hn' => cases hE; subst hx; rw [hn] at hn'; simp at hn'
    | lockRur y x p' k m hx hn' => cases hE; subst hx; rw [hn] at hn'; simp at hn'
    | unlockRur y x p' k m hx hn' => cases hE; subst hx; rw [hn] at hn'; simp at hn'
  have keep : ∀ (c c' : Conf V α) (e : Ev), Stuck c → Step c e (.ok c') → Stuck c' := by
    intro c c' e hst hs
    have other : ∀ y, e = .step y ∨ e = .timeout y → y ≠ th := by
      rintro y (rfl | rfl) rfl
      · exact absurd (stuck c hst _ hs) (by simp)
      · obtain ⟨⟨p, a, hn⟩, -⟩ := hst
        cases hs with
        | tryLate _ x p' k kt hx hn' => subst hx; rw [hn] at hn'; simp at hn'
    obtain ⟨⟨p, a, hn⟩, hm⟩ := hst
    have acq : ∀ y m, y ≠ th → acquire c.main y = some m → ∀ d, m ≠ .held th d := by
      intro y m hy ha d
      rcases acquire_ok ha with ⟨-, rfl⟩ | ⟨d', -, rfl⟩ <;> intro e <;> cases e <;> exact hy rfl
    cases hs with
    | call y x p' ps hx hn' => exact ⟨⟨p, a, by simp only [put_other _ _ (other y (Or.inl rfl)).symm]; exact hn⟩, hm⟩
    | ret y x p' a' hx hn' => exact ⟨⟨p, a, by simp only [put_other _ _ (other y (Or.inl rfl)).symm]; exact hn⟩, hm⟩
    | rd y x p' l k hx hn' => exact ⟨⟨p, a, by simp only [put_other _ _ (other y (Or.inl rfl)).symm]; exact hn⟩, hm⟩
    | wr y x p' l f k hx hn' => exact ⟨⟨p, a, by simp only [put_other _ _ (other y (Or.inl rfl)).symm]; exact hn⟩, hm⟩
    | tryOk y x p' k kt m hx hn' ha =>
      exact ⟨⟨p, a, by simp only [put_other _ _ (other y (Or.inl rfl)).symm]; exact hn⟩, acq y m (other y (Or.inl rfl)) ha⟩
    | tryLate y x p' k kt hx hn' ha => exact ⟨⟨p, a, by simp only [put_other _ _ (other y (Or.inr rfl)).symm]; exact hn⟩, hm⟩
    | lockMain y x p' k m hx hn' ha =>
      exact ⟨⟨p, a, by simp only [put_other _ _ (other y (Or.inl rfl)).symm]; exact hn⟩, acq y m (other y (Or.inl rfl)) ha⟩
    | lockRur y x p' k m hx hn' ha => exact ⟨⟨p, a, by simp only [put_other _ _ (other y (Or.inl rfl)).symm]; exact hn⟩, hm⟩
    | unlockRur y x p' k m hx hn' hu => exact ⟨⟨p, a, by simp only [put_other _ _ (other y (Or.inl rfl)).symm]; exact hn⟩, hm⟩
    | unlockMain y x p' k m hx hn' hu =>
      refine ⟨⟨p, a, by simp only [put_other _ _ (other y (Or.inl rfl)).symm]; exact hn⟩, ?_⟩
      cases hc : c.main with
      | free => rw [hc] at hu; simp [Lock.unlock] at hu
      | held o d =>
        rw [hc] at hu
        obtain ⟨rfl, rfl⟩ := unlock_held hu
        intro d'
        cases d with
        | zero => simp [dec]
        | succ d => simp only [dec]; intro e; cases e; exact other _ (Or.inl rfl) rfl
  have key : ∀ (c0 : Conf V α) (es : List Ev) (r : Res (Conf V α)) hist, Run c0 es r → r = .ok c → Inv True calls s0 c0 hist →
      (Stuck c0 ∨ .timeout th ∈ es) → Stuck c := by
    intro c0 es r hist hr
    induction hr generalizing hist with
    | nil c0 => intro e _ h; cases e; simpa using h
    | @cons c0 c' e es r hs _ ih =>
      intro e' h hor
      obtain ⟨ext, h1⟩ := h.step (fun _ _ => trivial) hs
      refine ih _ e' h1 ?_
      rcases hor with hst | hmem
      · exact Or.inl (keep _ _ _ hst hs)
      · rcases List.mem_cons.mp hmem with rfl | hmem
        · left
          cases hs with
          | tryLate _ x p k kt hx hn hm =>
            subst hx
            have hno : ∀ d, c0.main ≠ .held th d := by
              intro d hd
              rw [hd] at hm
              simp [acquire] at hm
            refine ⟨?_, hno⟩
            rcases h.out th hno with h1 | ⟨p', h1, h2⟩ | ⟨p', a, h1, -⟩ | ⟨p', a, h1⟩ <;> rw [hn] at h1
            · simp at h1
            · cases h1
              rcases h2 with ⟨b, r, hb, hb'⟩ | ⟨b, hb, -⟩
              · cases hb
                exact ⟨_, r, by simp only [put_same]; rfl⟩
              · simp at hb
            · simp at h1
            · simp at h1
        · exact Or.inr hmem
    | ub => intro e; cases e
  have h := key _ _ _ [] hr rfl (Inv.start s0 calls hl) (Or.inr ht)
  refine ⟨?_, stuck c h⟩
  obtain ⟨⟨p, a, hn⟩, -⟩ := h
  rw [hn]
  simp

/-- C105 (7): what every single call keeps, every concurrent use keeps. -/
theorem c105_invariant_partial (I : Store V → Prop) (hl : ∀ th, ∀ p ∈ calls th, Locked p) (hI : ∀ th, ∀ p ∈ calls th, ∀ s s' a, I s → p.run s = .ok (s', a) → I s')
    (h0 : I s0) (hr : Run (start s0 calls) es (.ok c)) (hq : c.Quiet) : I c.store := by
  obtain ⟨hist, hs, hm⟩ := c105_one_by_one_partial hl hr hq
  have hmem : ∀ e ∈ hist, e.2.1 ∈ calls e.1 := by
    intro e he
    have h1 : e.2 ∈ callsOf e.1 hist := List.mem_map.mpr ⟨e, List.mem_filter.mpr ⟨he, by simp⟩, rfl⟩
    rw [(hm e.1).1] at h1
    rw [← (hm e.1).2]
    exact List.mem_append_left _ (List.mem_map.mpr ⟨_, h1, rfl⟩)
  clear hm hr hq
  generalize c.store = st at hs
  induction hs with
  | nil s => exact h0
  | cons h _ ih => exact ih (hI _ _ (hmem _ List.mem_cons_self) _ _ _ h0 h) (fun e he => hmem e (List.mem_cons_of_mem _ he))

/-- C105 with C104: calls of the API that store covariances one after another store covariances when several threads make them at the same time. `hd` is the part
of the members that C104 is about; the calls may be cut into accesses in any way. -/
theorem c105_covariances_partial {fp : FP} {near : Mat → Mat} {pj : Belief → Mat → Mat} {pred : ℕ → Inst → Int → Inst × Bool} (hn : NearCov near) (hp : PredCov pred)
    (hd : Store V → Hdl) (hl : ∀ th, ∀ p ∈ calls th, Locked p)
    (hc : ∀ th, ∀ p ∈ calls th, ∃ x : Call, x.Ok ∧ ∀ s s' a, p.run s = .ok (s', a) → Hdl.exec fp near pj pred (hd s) x = .ok (hd s'))
    (h0 : hd s0 = []) (hr : Run (start s0 calls) es (.ok c)) (hq : c.Quiet) : (hd c.store).Covs := by
  refine c105_invariant_partial (fun s => (hd s).Covs) hl ?_ ?_ hr hq
  · intro th p hpc s s' a hi hrun
    obtain ⟨x, hx, he⟩ := hc th p hpc
    exact Hdl.Covs.exec hn hp hi hx (he s s' a hrun)
  · show (hd s0).Covs
    rw [h0]
    intro x hx
    simp at hx

end

end Ikf.Conc
