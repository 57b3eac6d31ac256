import Verif.Spec.Log

/-!
# C122: the library's log

`c122_sequential`: one thread, any program of calls: never an exception, and the log is exactly what the history of
configurations says. `c122_level`, `c122_disabled`: what that means for `set_level` and `disable`.
`c122_threads_partial`: any number of threads and any schedule, once the logger exists and nobody replaces its
sinks: never an exception. `c122_prepared_partial`: in particular if the
first thread has logged before the others start. `c122_lines_partial`: and if nobody changes the level, every text is in every sink that
admits it exactly once and in program order. `c122_first_use_fails`, `c122_setup_fails`: without these conditions a
call can throw.
-/

namespace Ikf.Log

theorem put_same {α : Type} (f : ℕ → α) (th : ℕ) (a : α) : put f th a th = a := by simp [put]

theorem put_other {α : Type} (f : ℕ → α) {th x : ℕ} (a : α) (h : x ≠ th) : put f th a x = f x := by simp [put, h]

theorem run_append (s : St) (l₁ l₂ : List ℕ) : run s (l₁ ++ l₂) = (run s l₁).bind fun s' => run s' l₂ := by
  induction l₁ generalizing s with
  | nil => rfl
  | cons a l ih =>
    simp only [List.cons_append, run]
    cases h : step s a with
    | ok s' => simpa [Res.bind] using ih s'
    | throws => rfl
    | ub => rfl

theorem linesOf_append (th : ℕ) (a b : List Line) : linesOf th (a ++ b) = linesOf th a ++ linesOf th b := by
  simp [linesOf]

theorem linesOf_write (g : Lg) (sev th n : ℕ) :
    linesOf th (g.write sev (.text th n)) = (dest (g.level, g.sinks) sev).map fun k => (k, sev, n) := by
  unfold Lg.write dest linesOf
  by_cases h : g.level ≤ sev
  · simp [h, List.filterMap_map, Function.comp_def]
  · simp [h]

theorem linesOf_other (g : Lg) (sev n : ℕ) {th t : ℕ} (h : t ≠ th) : linesOf th (g.write sev (.text t n)) = [] := by
  unfold Lg.write linesOf
  split
  · simp [List.filterMap_map, h]
  · simp

theorem linesOf_own (g : Lg) (sev th : ℕ) (m : Msg) (h : ∀ t n, m ≠ .text t n) : linesOf th (g.write sev m) = [] := by
  unfold Lg.write linesOf
  split
  · cases m with
    | text t n => exact absurd rfl (h t n)
    | _ => simp [List.filterMap_map]
  · simp

/-! ### One thread -/

/-- The registered logger is the configuration. -/
def Has (s : St) (c : Conf) : Prop :=
  match c with
  | none => s.reg = none
  | some (l, ks) => ∃ p, s.reg = some p ∧ s.heap[p]? = some ⟨l, ks⟩

theorem has_some {s : St} {l : ℕ} {ks : List Sink} (p : ℕ) (h : s.reg = some p) (hg : s.heap[p]? = some ⟨l, ks⟩) :
    Has s (some (l, ks)) := ⟨p, h, hg⟩

theorem Has.reg {s : St} {c : ℕ × List Sink} (h : Has s (some c)) :
    ∃ p, s.reg = some p ∧ s.heap[p]? = some ⟨c.1, c.2⟩ := h

/-- What performing means for the configuration. -/
def todoConf (c : ℕ × List Sink) : Todo → ℕ × List Sink
  | .setLevel l => (l, c.2)
  | _ => c

def todoAdds (c : ℕ × List Sink) : Todo → List (ℕ × ℕ × ℕ)
  | .write sev n => (dest c sev).map fun k => (k, sev, n)
  | _ => []

/-- After `k` steps of thread 0 from `s`: idle again with the same program, configuration `c'` and more lines. -/
def To (s : St) (k : ℕ) (ops : List Op) (c' : Conf) (more : List (ℕ × ℕ × ℕ)) : Prop :=
  ∃ s', run s (List.replicate k 0) = .ok s' ∧ s'.pc 0 = .idle ∧ s'.prog 0 = ops ∧ Has s' c' ∧
    linesOf 0 s'.out = linesOf 0 s.out ++ more

theorem To.cons {s s₁ : St} {k : ℕ} {ops : List Op} {c' : Conf} {more : List (ℕ × ℕ × ℕ)} (h : step s 0 = .ok s₁)
    (ho : linesOf 0 s₁.out = linesOf 0 s.out) (ht : To s₁ k ops c' more) : To s (k + 1) ops c' more := by
  obtain ⟨s', hr, h1, h2, h3, h4⟩ := ht
  exact ⟨s', by simp [List.replicate_succ, run, h, Res.bind, hr], h1, h2, h3, by rw [h4, ho]⟩

theorem to_act {s : St} {p : ℕ} {t : Todo} {c : ℕ × List Sink} (hpc : s.pc 0 = .act p t)
    (hr : s.reg = some p) (hg : s.heap[p]? = some ⟨c.1, c.2⟩) :
    To s 1 (s.prog 0) (some (todoConf c t)) (todoAdds c t) := by
  refine ⟨{ perform s 0 p t with pc := put s.pc 0 .idle }, ?_, ?_, ?_, ?_, ?_⟩
  · simp [run, step, hpc, Res.bind]
  · simp [put]
  · cases t <;> rfl
  · cases t with
    | nothing => exact ⟨p, hr, hg⟩
    | setLevel l => exact ⟨p, hr, by simp [perform, hg]⟩
    | write sev n => exact ⟨p, hr, hg⟩
  · cases t with
    | nothing => simp [perform, todoAdds]
    | setLevel l => simp [perform, todoAdds]
    | write sev n => simp [perform, todoAdds, hg, linesOf_append, linesOf_write]

theorem to_look {s : St} {t : Todo} {c : Conf} (hpc : s.pc 0 = .look t) (hc : Has s c) :
    ∃ k, To s k (s.prog 0) (some (todoConf (c.getD fresh) t)) (todoAdds (c.getD fresh) t) := by
  cases c with
  | some c =>
    obtain ⟨p, hr, hg⟩ := hc.reg
    refine ⟨2, To.cons (s₁ := { s with pc := put s.pc 0 (.act p t) }) (by simp [step, hpc, hr]) rfl ?_⟩
    exact to_act (s := { s with pc := put s.pc 0 (.act p t) }) (by simp [put]) hr hg
  | none =>
    have hr : s.reg = none := hc
    let s₁ : St := { s with
        heap := s.heap ++ [standard], out := s.out ++ standard.write 3 .created,
        pc := put s.pc 0 (.reg s.heap.length t) }
    have h1 : step s 0 = .ok s₁ := by simp [step, hpc, hr, s₁]
    have hg : s₁.heap[s.heap.length]? = some standard := by simp [s₁]
    let s₂ : St := { s₁ with
        reg := some s.heap.length, out := s₁.out ++ standard.write 3 .registered,
        pc := put s₁.pc 0 (.act s.heap.length t) }
    have h2 : step s₁ 0 = .ok s₂ := by
      have : s₁.pc 0 = .reg s.heap.length t := by simp [s₁, put]
      simp only [step, this, hg, s₂]
      simp [s₁, hr]
    refine ⟨3, To.cons h1 ?_ (To.cons h2 ?_ ?_)⟩
    · simp [s₁, linesOf_append, linesOf_own]
    · simp [s₂, linesOf_append, linesOf_own]
    · exact to_act (s := s₂) (c := fresh) (by simp [s₂, put]) rfl hg

theorem to_op {s : St} {op : Op} {ops : List Op} {c : Conf} (hpc : s.pc 0 = .idle) (hp : s.prog 0 = op :: ops)
    (hc : Has s c) : ∃ k, To s k ops (conf c op) (adds c op) := by
  let s₁ : St := { s with pc := put s.pc 0 (entry op), prog := put s.prog 0 ops }
  have h1 : step s 0 = .ok s₁ := by simp [step, hpc, hp, s₁]
  have hc1 : Has s₁ c := hc
  have hp1 : s₁.prog 0 = ops := by simp [s₁, put]
  have hpc1 : s₁.pc 0 = entry op := by simp [s₁, put]
  have out1 : linesOf 0 s₁.out = linesOf 0 s.out := rfl
  have goal : ∃ k, To s₁ k ops (conf c op) (adds c op) := by
    cases op with
    | logger => simpa [hp1, conf, adds, todoConf, todoAdds] using to_look (t := .nothing) hpc1 hc1
    | setLevel l =>
      by_cases hl : l ≤ 6
      · have : s₁.pc 0 = .look (.setLevel l) := by rw [hpc1]; simp [entry, accepts, hl]
        simpa [hp1, conf, adds, todoConf, todoAdds, hl] using to_look this hc1
      · refine ⟨0, s₁, rfl, ?_, hp1, ?_, ?_⟩
        · rw [hpc1]; simp [entry, accepts, hl]
        · simpa [conf, hl] using hc1
        · simp [adds]
    | disable => simpa [hp1, conf, adds, todoConf, todoAdds] using to_look (t := .setLevel 6) hpc1 hc1
    | write sev n => simpa [hp1, conf, adds, todoConf, todoAdds] using to_look (t := .write sev n) hpc1 hc1
    | note sev n =>
      cases c with
      | none =>
        have hr : s₁.reg = none := hc1
        refine ⟨1, { s₁ with pc := put s₁.pc 0 .idle }, ?_, ?_, hp1, hc1, ?_⟩
        · have : s₁.pc 0 = .qLook sev n := hpc1
          simp [run, step, this, hr, Res.bind]
        · simp [put]
        · simp [adds]
      | some c =>
        obtain ⟨p, hr, hg⟩ := hc1.reg
        have : s₁.pc 0 = .qLook sev n := hpc1
        refine ⟨2, To.cons (s₁ := { s₁ with pc := put s₁.pc 0 (.act p (.write sev n)) })
          (by simp [step, this, hr]) rfl ?_⟩
        simpa [hp1, conf, adds, todoConf, todoAdds] using
          to_act (s := { s₁ with pc := put s₁.pc 0 (.act p (.write sev n)) }) (t := .write sev n) (by simp [put]) hr hg
    | setup ks =>
      cases ks with
      | nil =>
        have hpc2 : s₁.pc 0 = .sEmpty := hpc1
        cases c with
        | none =>
          have hr : s₁.reg = none := hc1
          obtain ⟨k, hk⟩ := to_look (s := { s₁ with pc := put s₁.pc 0 (.look .nothing) }) (t := .nothing)
            (c := none) (by simp [put]) hr
          refine ⟨k + 1, To.cons (s₁ := { s₁ with pc := put s₁.pc 0 (.look .nothing) })
            (by simp [step, hpc2, hr]) rfl ?_⟩
          simpa [hp1, conf, adds, todoConf, todoAdds] using hk
        | some c =>
          obtain ⟨p, hr, hg⟩ := hc1.reg
          refine ⟨1, { s₁ with pc := put s₁.pc 0 .idle }, ?_, ?_, hp1, hc1, ?_⟩
          · simp [run, step, hpc2, hr, Res.bind]
          · simp [put]
          · simp [adds]
      | cons q qs =>
        have hpc2 : s₁.pc 0 = .sLook (q :: qs) := hpc1
        have last : ∀ s₂ : St, s₂.pc 0 = .sReg (q :: qs) → s₂.reg = none → s₂.prog 0 = ops →
            To s₂ 1 ops (conf c (.setup (q :: qs))) (adds c (.setup (q :: qs))) := by
          intro s₂ h2 hr2 hp2
          refine ⟨{ s₂ with
            heap := s₂.heap ++ [⟨0, q :: qs⟩], reg := some s₂.heap.length, pc := put s₂.pc 0 .idle }, ?_, ?_, hp2,
            ⟨s₂.heap.length, rfl, by simp⟩, ?_⟩
          · simp [run, step, h2, hr2, Res.bind]
          · simp [put]
          · simp [adds]
        cases hr : s₁.reg with
        | none =>
          refine ⟨2, To.cons (s₁ := { s₁ with pc := put s₁.pc 0 (.sReg (q :: qs)) })
            (by simp [step, hpc2, hr]) rfl (last _ (by simp [put]) hr hp1)⟩
        | some p =>
          refine ⟨3, To.cons (s₁ := { s₁ with pc := put s₁.pc 0 (.sDrop (q :: qs)) })
            (by simp [step, hpc2, hr]) rfl (To.cons (s₁ := { s₁ with
              reg := none, pc := put (put s₁.pc 0 (.sDrop (q :: qs))) 0 (.sReg (q :: qs)) }) ?_ rfl
              (last _ (by simp [put]) rfl hp1))⟩
          simp [step, put]
  obtain ⟨k, hk⟩ := goal
  exact ⟨k + 1, To.cons h1 out1 hk⟩

theorem to_all {s : St} {ops : List Op} {c : Conf} (hpc : s.pc 0 = .idle) (hp : s.prog 0 = ops) (hc : Has s c) :
    ∃ k, To s k [] (confs c ops) (content c ops) := by
  induction ops generalizing s c with
  | nil => exact ⟨0, s, rfl, hpc, hp, hc, by simp [content]⟩
  | cons op ops ih =>
    obtain ⟨k, s', hr, h1, h2, h3, h4⟩ := to_op hpc hp hc
    obtain ⟨k', s'', hr', g1, g2, g3, g4⟩ := ih h1 h2 h3
    refine ⟨k + k', s'', ?_, g1, g2, by simpa [confs] using g3, ?_⟩
    · rw [List.replicate_add, run_append, hr]; simpa [Res.bind] using hr'
    · rw [g4, h4]; simp [content]

theorem run_done {s : St} (h : Done s 0) (m : ℕ) : run s (List.replicate m 0) = .ok s := by
  induction m with
  | zero => rfl
  | succ m ih => simp [List.replicate_succ, run, step, h.1, h.2, Res.bind, ih]

/-- **C122.** One thread makes any calls, in any order, starting in a program that has not logged yet: no call ever
throws, all calls return, and the texts in all sinks are exactly those the history of configurations asks for, in
order. -/
theorem c122_sequential (prog : ℕ → List Op) :
    (∀ m, ∃ s, run (start prog) (List.replicate m 0) = .ok s) ∧
    ∃ k, ∀ m ≥ k, ∃ s, run (start prog) (List.replicate m 0) = .ok s ∧ Done s 0 ∧
      linesOf 0 s.out = content none (prog 0) := by
  obtain ⟨k, s, hr, h1, h2, -, h4⟩ := to_all (s := start prog) (ops := prog 0) (c := none) rfl rfl rfl
  have fin : ∀ m ≥ k, run (start prog) (List.replicate m 0) = .ok s := by
    intro m hm
    obtain ⟨d, rfl⟩ := Nat.exists_eq_add_of_le hm
    rw [List.replicate_add, run_append, hr]
    exact run_done ⟨h1, h2⟩ d
  refine ⟨fun m => ?_, k, fun m hm => ⟨s, fin m hm, ⟨h1, h2⟩, by simpa [start, linesOf] using h4⟩⟩
  have h := fin (m + k) (by omega)
  rw [List.replicate_add, run_append] at h
  cases hm : run (start prog) (List.replicate m 0) with
  | ok s' => exact ⟨s', rfl⟩
  | throws => rw [hm] at h; cases h
  | ub => rw [hm] at h; cases h

/-- **C122.** `set_level(l)` accepts `l` exactly up to `off`; afterwards, whatever came before and as long as only
texts are written, a text goes to a sink exactly if it is at least as severe as `l` and as the sink's own level. -/
theorem c122_level (c : Conf) (l : ℕ) (between : List Op) (hb : ∀ op ∈ between, op.Plain) (sev n k : ℕ) :
    (accepts l = true ↔ l ≤ 6) ∧
    (l ≤ 6 → ((k, sev, n) ∈ adds (confs c (.setLevel l :: between)) (.write sev n) ↔
      l ≤ sev ∧ ∃ q ∈ (c.getD fresh).2, q.id = k ∧ q.level ≤ sev)) := by
  refine ⟨by simp [accepts], fun hl => ?_⟩
  have keep : ∀ (ops : List Op) (d : ℕ × List Sink), (∀ op ∈ ops, op.Plain) → confs (some d) ops = some d := by
    intro ops
    induction ops with
    | nil => intro d _; rfl
    | cons op ops ih =>
      intro d h
      have h1 : conf (some d) op = some d := by
        have := h op (by simp)
        cases op <;> simp_all [Op.Plain, conf]
      have := ih d (fun o ho => h o (by simp [ho]))
      simpa [confs, h1] using this
  have : confs c (.setLevel l :: between) = some (l, (c.getD fresh).2) := by
    have := keep between (l, (c.getD fresh).2) hb
    simpa [confs, conf, hl] using this
  rw [this]
  simp only [adds, Option.getD_some, dest, List.mem_map, List.mem_filter, decide_eq_true_eq, Prod.mk.injEq]
  constructor
  · rintro ⟨a, ⟨q, ⟨hq, h1, h2⟩, rfl⟩, rfl, _⟩
    exact ⟨h1, q, hq, rfl, h2⟩
  · rintro ⟨h1, q, hq, rfl, h2⟩
    exact ⟨q.id, ⟨q, ⟨hq, h1, h2⟩, rfl⟩, rfl, trivial⟩

/-- **C122.** After `disable()`, until the level is set again or the sinks are replaced, nothing is written. -/
theorem c122_disabled (c : Conf) (rest : List Op) (hr : ∀ op ∈ rest, op.Plain ∨ op = .disable)
    (hs : ∀ op ∈ rest, ∀ sev n, op = .write sev n ∨ op = .note sev n → sev ≤ 5) :
    content (conf c .disable) rest = [] := by
  have : ∀ (ks : List Sink) (rest : List Op), (∀ op ∈ rest, op.Plain ∨ op = .disable) →
      (∀ op ∈ rest, ∀ sev n, op = .write sev n ∨ op = .note sev n → sev ≤ 5) → content (some (6, ks)) rest = [] := by
    intro ks rest
    induction rest with
    | nil => intros; rfl
    | cons op rest ih =>
      intro h1 h2
      have a : adds (some (6, ks)) op = [] := by
        cases op with
        | write sev n =>
          have : sev ≤ 5 := h2 _ (by simp) sev n (Or.inl rfl)
          simp [adds, dest]; intro _ _ h6; omega
        | note sev n =>
          have : sev ≤ 5 := h2 _ (by simp) sev n (Or.inr rfl)
          simp [adds, dest]; intro _ _ h6; omega
        | _ => rfl
      have b : conf (some (6, ks)) op = some (6, ks) := by
        have := h1 op (by simp)
        cases op <;> simp_all [Op.Plain, conf]
      simp only [content, a, b, List.nil_append]
      exact ih (fun o ho => h1 o (by simp [ho])) (fun o ho => h2 o (by simp [ho]))
  exact this _ rest hr hs

/-! ### Any number of threads -/

/-- Positions of threads that run while logger `p` is and stays registered. -/
def Pc.Calm (p : ℕ) : Pc → Prop
  | .idle => True
  | .look _ => True
  | .act q _ => q = p
  | .sEmpty => True
  | .qLook _ _ => True
  | _ => False

/-- The logger is registered, nobody is replacing it and nobody will. -/
structure Calm (s : St) (p : ℕ) : Prop where
  reg : s.reg = some p
  pc : ∀ th, (s.pc th).Calm p
  prog : ∀ th, ∀ op ∈ s.prog th, op.Keeps

theorem calm_pc {s : St} {p : ℕ} (h : Calm s p) (th : ℕ) {q : Pc} (hq : q.Calm p) (x : ℕ) :
    (put s.pc th q x).Calm p := by
  unfold put; split
  · exact hq
  · exact h.pc x

theorem entry_calm {op : Op} (p : ℕ) (h : op.Keeps) : (entry op).Calm p := by
  cases op with
  | setLevel l => simp only [entry]; split <;> trivial
  | setup ks => cases h; trivial
  | _ => trivial

theorem calm_step {s : St} {p : ℕ} (h : Calm s p) (th : ℕ) : ∃ s', step s th = .ok s' ∧ Calm s' p := by
  have hp := h.pc th
  have go : ∀ q : Pc, q.Calm p → Calm { s with pc := put s.pc th q } p :=
    fun q hq => ⟨h.reg, fun x => calm_pc h th hq x, h.prog⟩
  cases hpc : s.pc th with
  | idle =>
    cases hg : s.prog th with
    | nil => exact ⟨s, by simp [step, hpc, hg], h⟩
    | cons op ops =>
      refine ⟨{ s with pc := put s.pc th (entry op), prog := put s.prog th ops }, by simp [step, hpc, hg],
        h.reg, fun x => ?_, fun x => ?_⟩
      · exact calm_pc h th (entry_calm p (h.prog th op (by simp [hg]))) x
      · intro o ho
        by_cases hx : x = th
        · subst hx
          simp only [put_same] at ho
          exact h.prog x o (by simp [hg, ho])
        · simp only [put_other _ _ hx] at ho
          exact h.prog x o ho
  | look t => exact ⟨_, by simp only [step, hpc, h.reg], go (.act p t) rfl⟩
  | act q t =>
    rw [hpc] at hp
    refine ⟨{ perform s th q t with pc := put s.pc th .idle }, by simp only [step, hpc], ?_,
      fun x => calm_pc h th (q := .idle) trivial x, ?_⟩
    · cases t <;> exact h.reg
    · cases t <;> exact h.prog
  | sEmpty => exact ⟨_, by simp only [step, hpc, h.reg], go .idle trivial⟩
  | qLook sev n => exact ⟨_, by simp only [step, hpc, h.reg], go (.act p (.write sev n)) rfl⟩
  | reg q t => rw [hpc] at hp; exact hp.elim
  | sLook ks => rw [hpc] at hp; exact hp.elim
  | sDrop ks => rw [hpc] at hp; exact hp.elim
  | sReg ks => rw [hpc] at hp; exact hp.elim

theorem calm_run {s : St} {p : ℕ} (h : Calm s p) (ths : List ℕ) : ∃ s', run s ths = .ok s' ∧ Calm s' p := by
  induction ths generalizing s with
  | nil => exact ⟨s, rfl, h⟩
  | cons th ths ih =>
    obtain ⟨s₁, h1, hc⟩ := calm_step h th
    obtain ⟨s₂, h2, hc2⟩ := ih hc
    exact ⟨s₂, by simp [run, h1, Res.bind, h2], hc2⟩

theorem Ready.calm {s : St} {p : ℕ} {g : Lg} (h : Ready s p g) (hk : ∀ th, ∀ op ∈ s.prog th, op.Keeps) : Calm s p :=
  ⟨h.1, fun th => by rw [h.2.2 th]; trivial, hk⟩

/-- **C122, threads.** Once the logger exists and as long as nobody hands over new sinks, any number of threads may
make any calls in any interleaving: no call ever throws and the registered logger stays the same object.
Missing: a first use or new sinks while other threads log, see `c122_first_use_fails` and `c122_setup_fails`. -/
theorem c122_threads_partial {s : St} {p : ℕ} {g : Lg} (h : Ready s p g) (hk : ∀ th, ∀ op ∈ s.prog th, op.Keeps)
    (ths : List ℕ) : ∃ s', run s ths = .ok s' ∧ s'.reg = some p := by
  obtain ⟨s', h1, h2⟩ := calm_run (h.calm hk) ths
  exact ⟨s', h1, h2.reg⟩

theorem step_frame {s s' : St} {th x : ℕ} (h : step s th = .ok s') (hx : x ≠ th) :
    s'.pc x = s.pc x ∧ s'.prog x = s.prog x := by
  unfold step at h
  split at h
  · split at h <;> cases h
    · exact ⟨rfl, rfl⟩
    · exact ⟨put_other _ _ hx, put_other _ _ hx⟩
  · split at h <;> cases h <;> exact ⟨put_other _ _ hx, rfl⟩
  · split at h <;> cases h; exact ⟨put_other _ _ hx, rfl⟩
  · cases h
    refine ⟨put_other _ _ hx, ?_⟩
    rename_i t _
    cases t <;> rfl
  · split at h <;> cases h <;> exact ⟨put_other _ _ hx, rfl⟩
  · cases h; exact ⟨put_other _ _ hx, rfl⟩
  · split at h <;> cases h; exact ⟨put_other _ _ hx, rfl⟩
  · split at h <;> cases h <;> exact ⟨put_other _ _ hx, rfl⟩
  · split at h <;> cases h <;> exact ⟨put_other _ _ hx, rfl⟩

theorem run_frame {s s' : St} {k x : ℕ} (h : run s (List.replicate k 0) = .ok s') (hx : x ≠ 0) :
    s'.pc x = s.pc x ∧ s'.prog x = s.prog x := by
  induction k generalizing s with
  | zero => cases h; exact ⟨rfl, rfl⟩
  | succ k ih =>
    simp only [List.replicate_succ, run] at h
    cases hs : step s 0 with
    | ok s₁ =>
      rw [hs] at h
      have := ih h
      have f := step_frame hs hx
      exact ⟨this.1.trans f.1, this.2.trans f.2⟩
    | throws => rw [hs] at h; cases h
    | ub => rw [hs] at h; cases h

/-- **C122, threads.** If the first thread makes all its calls, at least one of which sets up the logger (any call
except the `log_…` functions and a refused `set_level`), before the other threads start, and these do not replace the
sinks, then no call throws under any schedule.
Missing as for `c122_threads_partial`. -/
theorem c122_prepared_partial (prog : ℕ → List Op) (h0 : confs none (prog 0) ≠ none)
    (hk : ∀ th ≠ 0, ∀ op ∈ prog th, op.Keeps) :
    ∃ k, ∀ ths, ∃ s, run (start prog) (List.replicate k 0 ++ ths) = .ok s := by
  obtain ⟨k, s, hr, h1, h2, h3, -⟩ := to_all (s := start prog) (ops := prog 0) (c := none) rfl rfl rfl
  obtain ⟨c, hc⟩ := Option.ne_none_iff_exists'.1 h0
  rw [hc] at h3
  obtain ⟨p, hp, hg⟩ := h3.reg
  have hready : Ready s p ⟨c.1, c.2⟩ := by
    refine ⟨hp, hg, fun th => ?_⟩
    by_cases hx : th = 0
    · rw [hx, h1]
    · rw [(run_frame hr hx).1]; rfl
  refine ⟨k, fun ths => ?_⟩
  have hk' : ∀ th, ∀ op ∈ s.prog th, op.Keeps := by
    intro th op ho
    by_cases hx : th = 0
    · rw [hx, h2] at ho; cases ho
    · rw [(run_frame hr hx).2] at ho; exact hk th hx op ho
  obtain ⟨s', h', -⟩ := c122_threads_partial hready hk' ths
  exact ⟨s', by rw [run_append, hr]; exact h'⟩

/-- The lines the thread's current call and its remaining program still have to write. -/
def owed (g : Lg) : Pc → List (ℕ × ℕ × ℕ)
  | .look (.write sev n) => (dest (g.level, g.sinks) sev).map fun k => (k, sev, n)
  | .act _ (.write sev n) => (dest (g.level, g.sinks) sev).map fun k => (k, sev, n)
  | .qLook sev n => (dest (g.level, g.sinks) sev).map fun k => (k, sev, n)
  | _ => []

/-- All lines a program asks for. -/
def asked (g : Lg) (ops : List Op) : List (ℕ × ℕ × ℕ) :=
  (texts ops).flatMap fun x => (dest (g.level, g.sinks) x.1).map fun k => (k, x.1, x.2)

/-- Positions in which the level is not about to change. -/
def Pc.Mild : Pc → Prop
  | .look (.setLevel _) => False
  | .act _ (.setLevel _) => False
  | _ => True

structure Steady (s : St) (p : ℕ) (g : Lg) : Prop where
  calm : Calm s p
  lg : s.heap[p]? = some g
  mild : ∀ th, (s.pc th).Mild
  plain : ∀ th, ∀ op ∈ s.prog th, op.Plain

theorem mild_put {s : St} (h : ∀ th, (s.pc th).Mild) (th : ℕ) {q : Pc} (hq : q.Mild) (x : ℕ) : (put s.pc th q x).Mild := by
  unfold put; split
  · exact hq
  · exact h x

theorem asked_cons (g : Lg) (op : Op) (ops : List Op) (h : op.Plain) :
    asked g (op :: ops) = owed g (entry op) ++ asked g ops := by
  cases op with
  | setup ks => cases h; simp [asked, texts, owed, entry]
  | setLevel l => exact h.elim
  | disable => exact h.elim
  | logger => simp [asked, texts, owed, entry]
  | write sev n => simp [asked, texts, owed, entry]
  | note sev n => simp [asked, texts, owed, entry]

/-- What one thread has written and still has to write. -/
def total (g : Lg) (s : St) (x : ℕ) : List (ℕ × ℕ × ℕ) :=
  linesOf x s.out ++ (owed g (s.pc x) ++ asked g (s.prog x))

theorem steady_step {s : St} {p : ℕ} {g : Lg} (h : Steady s p g) (th : ℕ) :
    ∃ s', step s th = .ok s' ∧ Steady s' p g ∧ ∀ x, total g s' x = total g s x := by
  obtain ⟨s', hs, hc⟩ := calm_step h.calm th
  refine ⟨s', hs, ?_⟩
  have hp := h.calm.pc th
  have hm := h.mild th
  have move : ∀ q : Pc, q.Mild → owed g q = owed g (s.pc th) → s' = { s with pc := put s.pc th q } →
      Steady s' p g ∧ ∀ x, total g s' x = total g s x := by
    intro q hq ho e
    subst e
    refine ⟨⟨hc, h.lg, mild_put h.mild th hq, h.plain⟩, fun x => ?_⟩
    unfold total
    by_cases hx : x = th
    · subst hx; simp [put, ho]
    · simp [put, hx]
  have red := h.calm.reg
  cases hpc : s.pc th with
  | idle =>
    cases hg : s.prog th with
    | nil =>
      have : s' = s := by simpa [step, hpc, hg] using hs.symm
      subst this
      exact ⟨h, fun _ => rfl⟩
    | cons op ops =>
      have e : s' = { s with pc := put s.pc th (entry op), prog := put s.prog th ops } := by
        simpa [step, hpc, hg] using hs.symm
      subst e
      have hop := h.plain th op (by simp [hg])
      refine ⟨⟨hc, h.lg, ?_, fun x o ho => ?_⟩, fun x => ?_⟩
      · refine mild_put h.mild th ?_
        cases op with
        | setup ks => cases hop; trivial
        | setLevel l => exact hop.elim
        | disable => exact hop.elim
        | _ => trivial
      · by_cases hx : x = th
        · subst hx
          simp only [put_same] at ho
          exact h.plain x o (by simp [hg, ho])
        · simp only [put_other _ _ hx] at ho
          exact h.plain x o ho
      · unfold total
        by_cases hx : x = th
        · subst hx
          simp only [put_same, hpc, hg, asked_cons g op ops hop]
          simp [owed]
        · simp [put, hx]
  | look t =>
    refine move (.act p t) ?_ ?_ (by simpa [step, hpc, red] using hs.symm)
    · rw [hpc] at hm; cases t <;> trivial
    · rw [hpc]; cases t <;> rfl
  | act q t =>
    rw [hpc] at hp hm
    have hq : q = p := hp
    subst hq
    cases t with
    | nothing => exact move .idle trivial (by rw [hpc]; rfl) (by simpa [step, hpc, perform] using hs.symm)
    | setLevel l => exact hm.elim
    | write sev n =>
      have e : s' = { s with out := s.out ++ g.write sev (.text th n), pc := put s.pc th .idle } := by
        simpa [step, hpc, perform, h.lg] using hs.symm
      subst e
      refine ⟨⟨hc, h.lg, mild_put h.mild th trivial, h.plain⟩, fun x => ?_⟩
      unfold total
      by_cases hx : x = th
      · subst hx
        simp [put, hpc, owed, linesOf_append, linesOf_write]
      · simp [put, hx, linesOf_append, linesOf_other g sev n (Ne.symm hx)]
  | sEmpty => exact move .idle trivial (by rw [hpc]; rfl) (by simpa [step, hpc, red] using hs.symm)
  | qLook sev n => exact move (.act p (.write sev n)) trivial (by rw [hpc]; rfl) (by simpa [step, hpc, red] using hs.symm)
  | reg q t => rw [hpc] at hp; exact hp.elim
  | sLook ks => rw [hpc] at hp; exact hp.elim
  | sDrop ks => rw [hpc] at hp; exact hp.elim
  | sReg ks => rw [hpc] at hp; exact hp.elim

theorem steady_run {s : St} {p : ℕ} {g : Lg} (h : Steady s p g) (ths : List ℕ) :
    ∃ s', run s ths = .ok s' ∧ Steady s' p g ∧ ∀ x, total g s' x = total g s x := by
  induction ths generalizing s with
  | nil => exact ⟨s, rfl, h, fun _ => rfl⟩
  | cons th ths ih =>
    obtain ⟨s₁, h1, hc, e1⟩ := steady_step h th
    obtain ⟨s₂, h2, hc2, e2⟩ := ih hc
    exact ⟨s₂, by simp [run, h1, Res.bind, h2], hc2, fun x => (e2 x).trans (e1 x)⟩

/-- **C122, threads.** Once the logger exists, if nobody changes level or sinks, then under every schedule of any
number of threads: when a thread has returned from all its calls, the log holds, in addition to what it held before,
each of its texts exactly once in every sink that admits it, and in program order.
Missing as for `c122_threads_partial`. -/
theorem c122_lines_partial {s : St} {p : ℕ} {g : Lg} (h : Ready s p g) (hk : ∀ th, ∀ op ∈ s.prog th, op.Plain)
    (ths : List ℕ) : ∃ s', run s ths = .ok s' ∧ ∀ th, Done s' th → linesOf th s'.out = linesOf th s.out ++
      (texts (s.prog th)).flatMap fun x => (dest (g.level, g.sinks) x.1).map fun k => (k, x.1, x.2) := by
  have hk' : ∀ th, ∀ op ∈ s.prog th, op.Keeps := by
    intro th op ho
    have := hk th op ho
    cases op <;> trivial
  obtain ⟨s', h1, -, e⟩ := steady_run ⟨h.calm hk', h.2.1, fun th => by rw [h.2.2 th]; trivial, hk⟩ ths
  refine ⟨s', h1, fun th hd => ?_⟩
  have := e th
  unfold total at this
  rw [hd.1, hd.2, h.2.2 th] at this
  simpa [owed, asked, texts] using this

/-- **C122 is false for first uses.** Two threads that both use the log first (for instance by constructing a
handler each): there is a schedule in which one of the calls throws. Whatever else the threads want to do. -/
theorem c122_first_use_fails (prog : ℕ → List Op) {a b : ℕ} (hab : a ≠ b) (opsA opsB : List Op)
    (ha : prog a = .logger :: opsA) (hb : prog b = .logger :: opsB) :
    run (start prog) [a, b, a, b, a, b] = .throws := by
  simp [run, step, start, put, ha, hb, hab, hab.symm, entry, Res.bind]

/-- **C122 is false while sinks are replaced.** The logger exists; one thread hands over new sinks while another
writes: there is a schedule in which `setup_logger` throws, and one in which the write throws. -/
theorem c122_setup_fails {s : St} {p : ℕ} {g : Lg} (h : Ready s p g) {a b : ℕ} (hab : a ≠ b) (q : Sink)
    (qs : List Sink) (sev n : ℕ) (opsA opsB : List Op) (ha : s.prog a = .setup (q :: qs) :: opsA)
    (hb : s.prog b = .write sev n :: opsB) :
    run s [a, a, a, b, b, b, a] = .throws ∧ run s [a, a, a, b, b, a, b] = .throws := by
  obtain ⟨hr, -, hi⟩ := h
  constructor <;>
    simp [run, step, put, ha, hb, hab, hab.symm, entry, Res.bind, hr, hi]

/-! ### Examples -/

/-- A program that writes before there is a log, lowers and raises the level and silences the log. -/
def exampleProg : List Op :=
  [.note 3 0, .write 1 1, .write 4 2, .setLevel 4, .write 3 3, .setLevel 9, .write 5 4, .disable, .write 5 5,
   .setup [⟨7, 2⟩], .note 1 6, .note 2 7]

example : content none exampleProg = [(1, 1, 1), (0, 4, 2), (1, 4, 2), (0, 5, 4), (1, 5, 4), (7, 2, 7)] := by decide

example : ∃ m s, run (start fun th => if th = 0 then exampleProg else []) (List.replicate m 0) = .ok s ∧
    linesOf 0 s.out = [(1, 1, 1), (0, 4, 2), (1, 4, 2), (0, 5, 4), (1, 5, 4), (7, 2, 7)] := by
  obtain ⟨-, k, hk⟩ := c122_sequential fun th => if th = 0 then exampleProg else []
  obtain ⟨s, h1, -, h3⟩ := hk k le_rfl
  exact ⟨k, s, h1, h3.trans (by decide)⟩

/-- Two threads that write concurrently into an existing log. -/
def exampleState : St :=
  ⟨[standard], some 0, [], fun _ => .idle, fun th => if th ≤ 1 then [.write 1 th, .note 3 (10 + th)] else []⟩

example : Ready exampleState 0 standard ∧ (∀ th, ∀ op ∈ exampleState.prog th, op.Plain) := by
  refine ⟨⟨rfl, rfl, fun _ => rfl⟩, fun th op ho => ?_⟩
  simp only [exampleState] at ho
  split at ho
  · simp at ho; rcases ho with rfl | rfl <;> trivial
  · simp at ho

example : ∃ s', run exampleState [0, 1, 1, 0, 1, 0, 0, 0, 1, 1, 1, 0] = .ok s' ∧ Done s' 0 ∧ Done s' 1 ∧
    linesOf 1 s'.out = [(1, 1, 1), (0, 3, 11), (1, 3, 11)] := ⟨_, rfl, ⟨rfl, rfl⟩, ⟨rfl, rfl⟩, by decide⟩

end Ikf.Log
