import Verif.Model.FileSys
import Verif.Props.PathStr

/-! # Properties C98 (directories are created) and C99 (files are opened) -/

namespace Ikf
namespace FileSys

open PathStr

/-! ## Specification -/

/-- A tree: the root is a directory, and whatever exists lies in a directory. -/
structure Tree (e : Env) (fs : FS) : Prop where
  root : fs [] = some .dir
  cwd : fs e.cwd = some .dir
  up : ∀ l, l ≠ [] → fs l ≠ none → fs l.dropLast = some .dir

/-- Every place on the way to `t` (`t` included) can be read and is a directory, or is free and a directory may be made there. -/
def Passable (e : Env) (fs : FS) (t : Loc) : Prop :=
  ∀ k, k <+: t → e.readOk k = true ∧ (fs k = some .dir ∨ (fs k = none ∧ e.mkdirOk k = true))

/-- The tree with directories all the way to `t`. -/
def withDirs (fs : FS) (t : Loc) : FS := fun k => if k <+: t then some .dir else fs k

/-- `fs'` is `fs` with, at most, new directories on the way to `t`. -/
def OnlyDirs (fs fs' : FS) (t : Loc) : Prop := ∀ k, fs' k = fs k ∨ (fs k = none ∧ fs' k = some .dir ∧ k <+: t)

/-! ## Paths -/

theorem pieces_ne (s : Str) : pieces s ≠ [] := by
  cases s with
  | nil => simp [pieces]
  | cons c r =>
    unfold pieces
    split
    · simp
    · split <;> simp

theorem pieces_slash (a b : Str) : pieces (a ++ '/' :: b) = pieces a ++ pieces b := by
  induction a with
  | nil => simp [pieces]
  | cons c a ih =>
    rw [List.cons_append, pieces, pieces, ih]
    split
    · rfl
    · obtain ⟨p, L, h⟩ := List.exists_cons_of_ne_nil (pieces_ne a)
      rw [h]
      rfl

theorem pieces_plain {s : Str} (h : '/' ∉ s) : pieces s = [s] := by
  induction s with
  | nil => rfl
  | cons c s ih =>
    rw [List.mem_cons, not_or] at h
    rw [pieces, if_neg (Ne.symm h.1), ih h.2]

theorem split_pieces (s : Str) : Split ['/'] s (pieces s) := by
  induction h : s.length using Nat.strong_induction_on generalizing s with
  | _ n ih =>
    subst h
    by_cases hm : '/' ∈ s
    · obtain ⟨a, b, rfl, ha⟩ : ∃ a b, s = a ++ '/' :: b ∧ '/' ∉ a := by
        clear ih
        induction s with
        | nil => simp at hm
        | cons c s ih =>
          by_cases hc : c = '/'
          · exact ⟨[], s, by simp [hc], by simp⟩
          · obtain ⟨a, b, rfl, ha⟩ := ih (by simpa [Ne.symm hc] using hm)
            exact ⟨c :: a, b, by simp, by simp [ha, Ne.symm hc]⟩
      rw [pieces_slash, pieces_plain ha]
      have := Split.cons (d := ['/']) a b (pieces b) ?_ (ih b.length (by simp; omega) b rfl)
      · simpa using this
      · intro k hk
        rw [List.append_assoc, List.drop_append_of_le_length (by omega)]
        obtain ⟨x, y, hxy⟩ := List.exists_cons_of_ne_nil (show a.drop k ≠ [] by rw [Ne, List.drop_eq_nil_iff]; omega)
        rw [hxy]
        intro hp
        have : '/' = x := (List.cons_prefix_cons.mp hp).1
        exact ha (List.mem_of_mem_drop (by rw [hxy, this]; simp : '/' ∈ a.drop k))
    · rw [pieces_plain hm]
      refine .last s fun hh => hm ?_
      obtain ⟨a, b, rfl⟩ := hh
      simp

/-- The tokens of a path are its names, `.` among them. -/
theorem tokens_eq {s : Str} {toks : List Str} (h : GetTokens s ['/'] toks) : toks = (pieces s).filter fun p => p ≠ [] := by
  obtain ⟨L, hL, -, hr⟩ := c96_tokens_partial (d := ['/']) (by simp) s
  rw [(hr toks).mp h, split_unique hL (split_pieces s)]

theorem pieces_no_slash {s p : Str} (h : p ∈ pieces s) : '/' ∉ p := by
  induction s generalizing p with
  | nil => simp [pieces] at h; simp [h]
  | cons c s ih =>
    rw [pieces] at h
    split at h
    · rcases List.mem_cons.mp h with rfl | h
      · simp
      · exact ih h
    · rename_i hc
      obtain ⟨q, L, hq⟩ := List.exists_cons_of_ne_nil (pieces_ne s)
      rw [hq] at h
      rcases List.mem_cons.mp h with rfl | h
      · have := ih (p := q) (by rw [hq]; simp)
        simp [this, Ne.symm hc]
      · exact ih (by rw [hq]; simp [h])

/-- A name leads one further down, `.` nowhere. -/
def ext (l : Loc) (node : Str) : Loc := if node = ['.'] then l else l ++ [node]

/-- The string built by the loop stands for the place `l`. -/
def At (e : Env) (path : Str) (l : Loc) : Prop :=
  (path = [] ∧ l = e.cwd) ∨ ∃ q, path = q ++ ['/'] ∧ l = (if isAbsolutePath path then [] else e.cwd) ++ names q

theorem isAbs_append {p : Str} (hp : p ≠ []) (x : Str) : isAbsolutePath (p ++ x) = isAbsolutePath p := by
  cases p with
  | nil => exact absurd rfl hp
  | cons c r => rfl

theorem at_node {e : Env} {path : Str} {l : Loc} (h : At e path l) {node : Str} (hn : node ≠ []) (hs : '/' ∉ node) :
    resolve e (path ++ node) = some (ext l node) ∧ (node ≠ ['.'] → wantsDir (path ++ node) = false) ∧ At e (path ++ node ++ ['/']) (ext l node) := by
  have hne : path ++ node ≠ [] := by simp [hn]
  have habs : isAbsolutePath node = false := by
    cases node with
    | nil => exact absurd rfl hn
    | cons c r =>
      have : c ≠ '/' := fun hc => hs (by simp [hc])
      simpa [isAbsolutePath] using this
  have hnode : names node = if node = ['.'] then [] else [node] := by
    unfold names
    rw [pieces_plain hs]
    by_cases h : node = ['.'] <;> simp [h, hn]
  have key : (if isAbsolutePath (path ++ node) then [] else e.cwd) ++ names (path ++ node) = ext l node ∧
      (pieces (path ++ node)).getLast? = some node := by
    rcases h with ⟨rfl, rfl⟩ | ⟨q, rfl, rfl⟩
    · rw [List.nil_append, habs, hnode, pieces_plain hs]
      unfold ext
      constructor
      · by_cases h : node = ['.'] <;> simp [h]
      · rfl
    · rw [isAbs_append (by simp)]
      have e1 : q ++ ['/'] ++ node = q ++ '/' :: node := by simp
      have e2 : names (q ++ '/' :: node) = names q ++ names node := by
        unfold names
        rw [pieces_slash, List.filter_append]
      rw [e1, e2, hnode, pieces_slash, pieces_plain hs]
      unfold ext
      constructor
      · by_cases h : node = ['.'] <;> simp [h]
      · simp
  refine ⟨?_, ?_, ?_⟩
  · unfold resolve
    rw [if_neg hne, key.1]
  · intro h
    unfold wantsDir
    rw [key.2]
    simp [h, hn]
  · refine Or.inr ⟨path ++ node, rfl, ?_⟩
    rw [isAbs_append hne, key.1]

theorem ext_prefix (l : Loc) (node : Str) : l <+: ext l node := by
  unfold ext
  split
  · exact List.prefix_rfl
  · exact List.prefix_append _ _

theorem foldl_prefix (l : Loc) (ts : List Str) : l <+: ts.foldl ext l := by
  induction ts generalizing l with
  | nil => exact List.prefix_rfl
  | cons t ts ih => exact (ext_prefix l t).trans (ih _)

theorem foldl_names (l : Loc) (ts : List Str) : ts.foldl ext l = l ++ ts.filter (fun p => p ≠ ['.']) := by
  induction ts generalizing l with
  | nil => simp
  | cons t ts ih =>
    rw [List.foldl_cons, ih]
    unfold ext
    by_cases h : t = ['.'] <;> simp [h]

/-! ## The loop -/

theorem exists_node {e : Env} {fs : FS} {path : Str} {l : Loc} (h : At e path l) {node : Str} (hn : node ≠ []) (hs : '/' ∉ node)
    (hx : fileExists e fs (path ++ node) = true) : fs (ext l node) ≠ none := by
  unfold fileExists lookup at hx
  rw [(at_node h hn hs).1] at hx
  intro hc
  simp [hc] at hx

theorem create_node {e : Env} {fs : FS} {path : Str} {l : Loc} (h : At e path l) {node : Str} (hn : node ≠ []) (hs : '/' ∉ node) :
    createDirectory e fs (path ++ node) = if fs (ext l node) = none ∧ fs (ext l node).dropLast = some .dir ∧ e.mkdirOk (ext l node) = true then
      (add fs (ext l node) .dir, true) else (fs, false) := by
  unfold createDirectory
  rw [(at_node h hn hs).1]

theorem Tree.add {e : Env} {fs : FS} (ht : Tree e fs) {l : Loc} (hl : l ≠ []) (hf : fs l = none) (hp : fs l.dropLast = some .dir) (n : Node) :
    Tree e (add fs l n) := by
  have hpl : l.dropLast ≠ l := fun h => by rw [h, hf] at hp; simp at hp
  refine ⟨?_, ?_, ?_⟩
  · unfold FileSys.add; rw [if_neg (Ne.symm hl)]; exact ht.root
  · unfold FileSys.add
    rw [if_neg (fun h => by rw [← h, ht.cwd] at hf; simp at hf)]
    exact ht.cwd
  · intro k hk hne
    unfold FileSys.add at hne ⊢
    have hdk : k.dropLast ≠ l ∨ fs k.dropLast = some .dir := by
      by_cases h : k.dropLast = l
      · right
        by_cases hkl : k = l
        · rw [hkl] at h; exact absurd h hpl
        · rw [if_neg hkl] at hne
          exact ht.up k hk hne
      · exact Or.inl h
    by_cases hkl : k = l
    · rw [hkl, if_neg hpl]; exact hp
    · rw [if_neg hkl] at hne
      have hd := ht.up k hk hne
      split
      · rename_i h; rw [h, hf] at hd; simp at hd
      · exact hd

/-- What the loop does in any case. -/
theorem loop_any {e : Env} (ts : List Str) {path : Str} {l : Loc} (h : At e path l) {fs : FS} (ht : Tree e fs) (hts : ∀ t ∈ ts, t ≠ [] ∧ '/' ∉ t)
    (hl : fs l ≠ none) : OnlyDirs fs (mkLoop e ts path fs).1 (ts.foldl ext l) ∧ Tree e (mkLoop e ts path fs).1 ∧
      ((mkLoop e ts path fs).2 = true → (mkLoop e ts path fs).1 (ts.foldl ext l) ≠ none) := by
  induction ts generalizing path l fs with
  | nil => exact ⟨fun k => Or.inl rfl, ht, fun _ => hl⟩
  | cons t ts ih =>
    obtain ⟨hn, hs⟩ := hts t (by simp)
    have hts' : ∀ u ∈ ts, u ≠ [] ∧ '/' ∉ u := fun u hu => hts u (by simp [hu])
    obtain ⟨-, -, h'⟩ := at_node h hn hs
    unfold mkLoop
    rw [if_pos hn]
    simp only
    by_cases hx : fileExists e fs (path ++ t) = true
    · rw [if_pos hx]
      exact ih h' ht hts' (exists_node h hn hs hx)
    · rw [if_neg hx, create_node h hn hs]
      by_cases hc : fs (ext l t) = none ∧ fs (ext l t).dropLast = some .dir ∧ e.mkdirOk (ext l t) = true
      · rw [if_pos hc]
        simp only [if_true]
        have hne : ext l t ≠ [] := fun h0 => by rw [h0, ht.root] at hc; simp at hc
        obtain ⟨a, b, c⟩ := ih h' (ht.add hne hc.1 hc.2.1 .dir) hts' (by simp [add])
        refine ⟨?_, b, c⟩
        intro k
        rcases a k with hk | ⟨hk1, hk2, hk3⟩
        · rw [hk]
          unfold add
          by_cases hkl : k = ext l t
          · right
            rw [if_pos hkl, hkl]
            exact ⟨hc.1, rfl, foldl_prefix _ ts⟩
          · rw [if_neg hkl]; exact Or.inl rfl
        · right
          refine ⟨?_, hk2, hk3⟩
          unfold add at hk1
          split at hk1
          · simp at hk1
          · exact hk1
      · rw [if_neg hc]
        simp only [Bool.false_eq_true, if_false]
        exact ⟨fun k => Or.inl rfl, ht, fun hh => absurd hh (by simp)⟩

theorem Tree.prefix {e : Env} {fs : FS} (ht : Tree e fs) {k l : Loc} (hl : fs l = some .dir) (hk : k <+: l) : fs k = some .dir := by
  obtain ⟨r, rfl⟩ := hk
  induction r using List.reverseRecOn with
  | nil => simpa using hl
  | append_singleton r x ih =>
    refine ih ?_
    have := ht.up (k ++ (r ++ [x])) (by simp) (by rw [hl]; simp)
    rwa [← List.append_assoc, List.dropLast_concat] at this

theorem ext_ne {l : Loc} {t : Str} (h : ext l t ≠ l) : (ext l t).dropLast = l := by
  unfold ext at h ⊢
  split
  · rename_i h'; simp [h'] at h
  · simp

/-- The loop succeeds. -/
theorem loop_success {e : Env} (ts : List Str) {path : Str} {l : Loc} (h : At e path l) {fs : FS} (ht : Tree e fs) (hts : ∀ t ∈ ts, t ≠ [] ∧ '/' ∉ t)
    (hl : fs l = some .dir) (hp : Passable e fs (ts.foldl ext l)) :
    mkLoop e ts path fs = (withDirs fs (ts.foldl ext l), true) := by
  induction ts generalizing path l fs with
  | nil =>
    rw [List.foldl_nil]
    unfold mkLoop withDirs
    refine Prod.ext (funext fun k => ?_) rfl
    by_cases hk : k <+: l
    · simp only [if_pos hk]; exact ht.prefix hl hk
    · simp only [if_neg hk]
  | cons t ts ih =>
    obtain ⟨hn, hs⟩ := hts t (by simp)
    have hts' : ∀ u ∈ ts, u ≠ [] ∧ '/' ∉ u := fun u hu => hts u (by simp [hu])
    obtain ⟨hr, hw, h'⟩ := at_node h hn hs
    rw [List.foldl_cons] at hp ⊢
    have hpre : ext l t <+: ts.foldl ext (ext l t) := foldl_prefix _ ts
    obtain ⟨hread, hcase⟩ := hp (ext l t) hpre
    unfold mkLoop
    rw [if_pos hn]
    simp only
    rcases hcase with hd | ⟨hnone, hmk⟩
    · have hx : fileExists e fs (path ++ t) = true := by
        unfold fileExists lookup
        rw [hr]
        simp [hd, hread]
      rw [if_pos hx]
      exact ih h' ht hts' hd hp
    · have hx : ¬ fileExists e fs (path ++ t) = true := fun hx => exists_node h hn hs hx hnone
      have hne : ext l t ≠ l := fun h0 => by rw [h0, hl] at hnone; simp at hnone
      have hdl := ext_ne hne
      have hcr : createDirectory e fs (path ++ t) = (FileSys.add fs (ext l t) .dir, true) := by
        rw [create_node h hn hs, if_pos ⟨hnone, by rw [hdl, hl], hmk⟩]
      rw [if_neg hx, hcr]
      simp only [if_true]
      have hne0 : ext l t ≠ [] := fun h0 => by rw [h0, ht.root] at hnone; simp at hnone
      rw [ih h' (ht.add hne0 hnone (by rw [hdl, hl]) .dir) hts' (by simp [add]) ?_]
      · refine Prod.ext (funext fun k => ?_) rfl
        simp only [withDirs, add]
        split
        · rfl
        · rename_i hk
          rw [if_neg]
          rintro rfl
          exact hk hpre
      · intro k hk
        obtain ⟨a, b⟩ := hp k hk
        refine ⟨a, ?_⟩
        unfold add
        split
        · exact Or.inl rfl
        · exact b

/-! ## Directories -/

theorem start_at {e : Env} (s : Str) : At e (if isAbsolutePath s then ['/'] else []) (if isAbsolutePath s then [] else e.cwd) := by
  by_cases h : isAbsolutePath s = true
  · rw [if_pos h, if_pos h]
    exact Or.inr ⟨[], rfl, by simp [isAbsolutePath, names, pieces]⟩
  · rw [if_neg h, if_neg h]
    exact Or.inl ⟨rfl, rfl⟩

theorem tokens_good {s : Str} {toks : List Str} (h : GetTokens s ['/'] toks) : ∀ t ∈ toks, t ≠ [] ∧ '/' ∉ t := by
  rw [tokens_eq h]
  intro t ht
  rw [List.mem_filter] at ht
  exact ⟨by simpa using ht.2, pieces_no_slash ht.1⟩

theorem tokens_target {e : Env} {s : Str} {toks : List Str} (h : GetTokens s ['/'] toks) {t : Loc} (hr : resolve e s = some t) :
    toks.foldl ext (if isAbsolutePath s then [] else e.cwd) = t := by
  rw [foldl_names, tokens_eq h]
  unfold resolve at hr
  split at hr
  · simp at hr
  · rw [← Option.some.inj hr]
    congr 1
    unfold names
    rw [List.filter_filter]
    refine List.filter_congr fun p _ => ?_
    by_cases h1 : p = [] <;> by_cases h2 : p = ['.'] <;> simp [h1, h2]

theorem start_dir {e : Env} {fs : FS} (ht : Tree e fs) (s : Str) : fs (if isAbsolutePath s then [] else e.cwd) = some .dir := by
  split
  · exact ht.root
  · exact ht.cwd

/-- C98. When every place on the way is a directory or can be made one, `createDirectoryRecursive` returns true, all of them are
directories afterwards and nothing else has changed; the path has a name in it. -/
theorem c98_created_partial {e : Env} {fs : FS} (ht : Tree e fs) {s : Str} {toks : List Str} (hk : GetTokens s ['/'] toks) (hne : toks ≠ [])
    {t : Loc} (hr : resolve e s = some t) (hp : Passable e fs t) :
    createDirectoryRecursive e fs toks s = (withDirs fs t, true) := by
  unfold createDirectoryRecursive
  rw [if_neg (by have := List.length_pos_iff.mpr hne; omega)]
  have h := tokens_target hk hr
  rw [loop_success toks (start_at s) ht (tokens_good hk) (start_dir ht s) (by rw [h]; exact hp), h]

/-- C98. Whatever happens, `createDirectoryRecursive` and `createDirectoryFull` only add directories on the way to the one asked for. -/
theorem c98_frame {e : Env} {fs : FS} (ht : Tree e fs) {s : Str} {toks : List Str} (hk : GetTokens s ['/'] toks) {t : Loc}
    (hr : resolve e s = some t) : OnlyDirs fs (createDirectoryRecursive e fs toks s).1 t ∧ OnlyDirs fs (createDirectoryFull e fs toks s).1 t ∧
      Tree e (createDirectoryRecursive e fs toks s).1 ∧ Tree e (createDirectoryFull e fs toks s).1 := by
  have key : OnlyDirs fs (createDirectoryRecursive e fs toks s).1 t ∧ Tree e (createDirectoryRecursive e fs toks s).1 := by
    unfold createDirectoryRecursive
    split
    · exact ⟨fun k => Or.inl rfl, ht⟩
    · have := loop_any toks (start_at (e := e) s) ht (tokens_good hk) (by rw [start_dir ht s]; simp)
      rw [tokens_target hk hr] at this
      exact ⟨this.1, this.2.1⟩
  refine ⟨key.1, ?_, key.2, ?_⟩
  · unfold createDirectoryFull
    split
    · exact fun k => Or.inl rfl
    · exact key.1
  · unfold createDirectoryFull
    split
    · exact ht
    · exact key.2

/-- C98. When `createDirectoryRecursive` returns true, something is at the place asked for, and all places above it are directories. -/
theorem c98_true {e : Env} {fs : FS} (ht : Tree e fs) {s : Str} {toks : List Str} (hk : GetTokens s ['/'] toks) {t : Loc}
    (hr : resolve e s = some t) (h : (createDirectoryRecursive e fs toks s).2 = true) :
    (createDirectoryRecursive e fs toks s).1 t ≠ none ∧
    ∀ k, k <+: t → k ≠ t → (createDirectoryRecursive e fs toks s).1 k = some .dir := by
  have hx : (createDirectoryRecursive e fs toks s).1 t ≠ none := by
    unfold createDirectoryRecursive at h ⊢
    split at h
    · simp at h
    · rename_i hn
      rw [if_neg hn]
      have := loop_any toks (start_at (e := e) s) ht (tokens_good hk) (by rw [start_dir ht s]; simp)
      rw [tokens_target hk hr] at this
      exact this.2.2 h
  refine ⟨hx, fun k hkt hne => ?_⟩
  have ht' := (c98_frame ht hk hr).2.2.1
  have htne : t ≠ [] := fun h0 => by subst h0; exact hne (List.prefix_nil.mp hkt)
  refine ht'.prefix (ht'.up t htne hx) ?_
  obtain ⟨r, rfl⟩ := hkt
  rcases List.eq_nil_or_concat r with rfl | ⟨r', x, rfl⟩
  · simp at hne
  · rw [List.concat_eq_append, ← List.append_assoc, List.dropLast_concat]
    exact List.prefix_append _ _

/-- C98. `createDirectoryFull` returns true exactly when afterwards there is a directory at the place that can be read; this is so when every
place on the way is a directory or can be made one. -/
theorem c98_full {e : Env} {fs : FS} (ht : Tree e fs) {s : Str} {toks : List Str} (hk : GetTokens s ['/'] toks) {t : Loc}
    (hr : resolve e s = some t) :
    ((createDirectoryFull e fs toks s).2 = true ↔ (createDirectoryFull e fs toks s).1 t = some .dir ∧ e.readOk t = true) ∧
    (Passable e fs t → createDirectoryFull e fs toks s = (withDirs fs t, true)) := by
  have dx : ∀ fs : FS, dirExist e fs s = true ↔ fs t = some .dir ∧ e.readOk t = true := by
    intro fs
    unfold dirExist lookup
    rw [hr]
    simp only
    cases h : fs t with
    | none => simp
    | some n =>
      cases n with
      | dir => simp
      | file => by_cases hw : wantsDir s <;> simp [hw]
  have hstay : fs t = some .dir → withDirs fs t = fs := by
    intro h
    funext k
    unfold withDirs
    split
    · rename_i hkt; exact (ht.prefix h hkt).symm
    · rfl
  constructor
  · unfold createDirectoryFull
    by_cases h : dirExist e fs s = true
    · rw [if_pos h]; simpa using (dx fs).mp h
    · rw [if_neg h]; exact dx _
  · intro hp
    unfold createDirectoryFull
    by_cases h : dirExist e fs s = true
    · rw [if_pos h, hstay ((dx fs).mp h).1]
    · rw [if_neg h]
      have hne : toks ≠ [] := by
        rintro rfl
        have : t = (if isAbsolutePath s then [] else e.cwd) := (tokens_target hk hr).symm
        exact h ((dx fs).mpr ⟨by rw [this]; exact start_dir ht s, (hp t List.prefix_rfl).1⟩)
      rw [c98_created_partial ht hk hne hr hp]
      simp only [Prod.mk.injEq, true_and]
      exact (dx _).mpr ⟨by simp [withDirs], (hp t List.prefix_rfl).1⟩

theorem loop_file {e : Env} {fs : FS} (ht : Tree e fs) (us : List Str) {name : Str} (hn : name ≠ []) (hs : '/' ∉ name) (hdot : name ≠ ['.'])
    {path : Str} {l : Loc} (h : At e path l) (hus : ∀ t ∈ us, t ≠ [] ∧ '/' ∉ t) (hf : fs ((us.foldl ext l) ++ [name]) = some .file)
    (hread : ∀ k, k <+: (us.foldl ext l) ++ [name] → e.readOk k = true) : mkLoop e (us ++ [name]) path fs = (fs, true) := by
  induction us generalizing path l with
  | nil =>
    rw [List.nil_append]
    obtain ⟨hr, hw, -⟩ := at_node h hn hs
    have hx : fileExists e fs (path ++ name) = true := by
      unfold fileExists lookup
      rw [hr]
      have : ext l name = l ++ [name] := by unfold ext; rw [if_neg hdot]
      rw [List.foldl_nil] at hf hread
      simp only [this, hf, hw hdot]
      exact hread _ List.prefix_rfl
    simp [mkLoop, hn, hx]
  | cons t us ih =>
    obtain ⟨hn', hs'⟩ := hus t (by simp)
    obtain ⟨hr, -, h'⟩ := at_node h hn' hs'
    rw [List.foldl_cons] at hf hread
    have hpre : ext l t <+: us.foldl ext (ext l t) := foldl_prefix _ us
    have hd : fs (ext l t) = some .dir := by
      refine ht.prefix ?_ hpre
      have := ht.up (us.foldl ext (ext l t) ++ [name]) (by simp) (by rw [hf]; simp)
      rwa [List.dropLast_concat] at this
    have hx : fileExists e fs (path ++ t) = true := by
      unfold fileExists lookup
      rw [hr]
      simp only [hd]
      exact hread _ (hpre.trans (List.prefix_append _ _))
    rw [List.cons_append, mkLoop, if_pos hn']
    simp only
    rw [if_pos hx]
    exact ih h' (fun u hu => hus u (by simp [hu])) hf hread

theorem pieces_last {dir name : Str} (hs : '/' ∉ name) : pieces (dir ++ '/' :: name) = pieces dir ++ [name] := by
  rw [pieces_slash, pieces_plain hs]

/-- C98 in full is false, first: `createDirectoryRecursive` also returns true when a regular file has the name, and nothing is created. -/
theorem c98_file_fails {e : Env} {fs : FS} (ht : Tree e fs) {dir name : Str} {toks : List Str} {d : Loc}
    (hk : GetTokens (dir ++ '/' :: name) ['/'] toks) (hn : name ≠ []) (hdot : name ≠ ['.']) (hs : '/' ∉ name)
    (hr : resolve e dir = some d) (hf : fs (d ++ [name]) = some .file) (hread : ∀ k, k <+: d ++ [name] → e.readOk k = true) :
    createDirectoryRecursive e fs toks (dir ++ '/' :: name) = (fs, true) := by
  have hd : dir ≠ [] := by rintro rfl; simp [resolve] at hr
  have e1 : toks = (pieces dir).filter (fun p => p ≠ []) ++ [name] := by
    rw [tokens_eq hk, pieces_last hs, List.filter_append]
    simp [hn]
  have hg := tokens_good hk
  rw [e1] at hg ⊢
  unfold createDirectoryRecursive
  rw [if_neg (by simp)]
  have ha : isAbsolutePath (dir ++ '/' :: name) = isAbsolutePath dir := isAbs_append hd _
  have hdk : GetTokens dir ['/'] ((pieces dir).filter fun p => p ≠ []) := by
    obtain ⟨L, hL, -, hr⟩ := c96_tokens_partial (d := ['/']) (by simp) dir
    exact (hr _).mpr (by rw [split_unique hL (split_pieces dir)])
  have ht' := tokens_target hdk hr
  refine loop_file ht _ hn hs hdot (start_at _) (fun t h => hg t (List.mem_append_left _ h)) ?_ ?_
  · rw [ha, ht']; exact hf
  · rw [ha, ht']; exact hread

/-- C98 in full is false, second: for a directory that exists but cannot be read, `createDirectoryRecursive` returns false. -/
theorem c98_unreadable_fails {e : Env} {fs : FS} {name : Str} {toks : List Str} (hn : name ≠ []) (hdot : name ≠ ['.']) (hs : '/' ∉ name)
    (hk : GetTokens ('/' :: name) ['/'] toks) (hd : fs [name] = some .dir) (hread : e.readOk [name] = false) :
    createDirectoryRecursive e fs toks ('/' :: name) = (fs, false) := by
  have e1 : toks = [name] := by
    rw [tokens_eq hk, show '/' :: name = [] ++ '/' :: name from rfl, pieces_last hs]
    simp [pieces, hn]
  have h : At e ['/'] [] := Or.inr ⟨[], rfl, by simp [isAbsolutePath, names, pieces]⟩
  obtain ⟨hr, -, -⟩ := at_node h hn hs
  have hext : ext [] name = [name] := by unfold ext; rw [if_neg hdot]; rfl
  rw [hext] at hr
  have hx : fileExists e fs (['/'] ++ name) = false := by
    unfold fileExists lookup
    rw [hr]
    simp [hd, hread]
  have hc : createDirectory e fs (['/'] ++ name) = (fs, false) := by
    unfold createDirectory
    rw [hr]
    simp [hd]
  unfold createDirectoryRecursive
  rw [e1]
  have ha : isAbsolutePath ('/' :: name) = true := rfl
  rw [if_neg (by simp), ha, if_pos rfl, mkLoop, if_pos hn]
  simp only [hx, hc]
  simp

/-- C98 in full is false, third: for the root, which always exists, `createDirectoryRecursive` returns false. -/
theorem c98_root_fails (e : Env) (fs : FS) {toks : List Str} (hk : GetTokens ['/'] ['/'] toks) :
    createDirectoryRecursive e fs toks ['/'] = (fs, false) := by
  have : toks = [] := by rw [tokens_eq hk]; rfl
  rw [this]
  rfl

/-! ## Files -/

theorem resolve_file {e : Env} {dir name : Str} {d : Loc} (hn : name ≠ []) (hdot : name ≠ ['.']) (hs : '/' ∉ name)
    (hr : resolve e dir = some d) : resolve e (dir ++ '/' :: name) = some (d ++ [name]) ∧ wantsDir (dir ++ '/' :: name) = false ∧
      getFileDir (dir ++ '/' :: name) = dir := by
  have hd : dir ≠ [] := by rintro rfl; simp [resolve] at hr
  refine ⟨?_, ?_, ?_⟩
  · unfold resolve at hr ⊢
    rw [if_neg hd] at hr
    rw [if_neg (by simp), isAbs_append hd, ← Option.some.inj hr, List.append_assoc]
    congr 2
    unfold names
    rw [pieces_last hs, List.filter_append]
    simp [hn, hdot]
  · unfold wantsDir
    rw [pieces_last hs]
    simp [hn, hdot]
  · unfold getFileDir
    rw [rfind_at hs]
    simp

theorem dirExist_iff {e : Env} {s : Str} {t : Loc} (hr : resolve e s = some t) (fs : FS) :
    dirExist e fs s = true ↔ fs t = some .dir ∧ e.readOk t = true := by
  unfold dirExist lookup
  rw [hr]
  simp only
  cases h : fs t with
  | none => simp
  | some n =>
    cases n with
    | dir => simp
    | file => by_cases hw : wantsDir s <;> simp [hw]

theorem withDirs_self {e : Env} {fs : FS} (ht : Tree e fs) {t : Loc} (h : fs t = some .dir) : withDirs fs t = fs := by
  funext k
  unfold withDirs
  split
  · rename_i hkt; exact (ht.prefix h hkt).symm
  · rfl

/-- C99. A file in a directory that exists or can be made, not itself a directory and writable, is opened: afterwards the directories and the
file exist and nothing else has changed. -/
theorem c99_open_partial {e : Env} {fs : FS} (ht : Tree e fs) {dir name : Str} {toks : List Str} {d : Loc} (hk : GetTokens dir ['/'] toks)
    (hn : name ≠ []) (hdot : name ≠ ['.']) (hs : '/' ∉ name) (hr : resolve e dir = some d) (hp : Passable e fs d)
    (hfile : fs (d ++ [name]) ≠ some .dir) (hw : e.writeOk (d ++ [name]) = true) :
    openFile e fs toks (dir ++ '/' :: name) = (add (withDirs fs d) (d ++ [name]) .file, true) := by
  obtain ⟨r1, r2, r3⟩ := resolve_file (e := e) hn hdot hs hr
  have hd : dir ≠ [] := by rintro rfl; simp [resolve] at hr
  have hself : ¬ d ++ [name] <+: d := fun h => by have := h.length_le; simp at this
  -- opening once the directory is there
  have ho : openOut e (withDirs fs d) (dir ++ '/' :: name) = (add (withDirs fs d) (d ++ [name]) .file, true) := by
    unfold openOut
    rw [r1]
    simp only [r2]
    have hsame : withDirs fs d (d ++ [name]) = fs (d ++ [name]) := by unfold withDirs; rw [if_neg hself]
    rw [hsame]
    cases h : fs (d ++ [name]) with
    | none =>
      have : withDirs fs d d = some .dir := by simp [withDirs]
      simp [this, hw]
    | some n =>
      cases n with
      | dir => exact absurd h hfile
      | file =>
        refine Prod.ext (funext fun k => ?_) hw
        show withDirs fs d k = _
        unfold add
        by_cases hk' : k = d ++ [name]
        · simp only [if_pos hk']; rw [hk', hsame, h]
        · simp only [if_neg hk']
  have hdir : fs d = some .dir → openOut e fs (dir ++ '/' :: name) = (add (withDirs fs d) (d ++ [name]) .file, true) := by
    intro h
    rw [← ho, withDirs_self ht h]
  unfold openFile
  by_cases hx : fileExists e fs (dir ++ '/' :: name) = true
  · rw [if_pos hx]
    refine hdir ?_
    have : fs (d ++ [name]) ≠ none := by
      intro h
      unfold fileExists lookup at hx
      rw [r1] at hx
      simp [h] at hx
    have := ht.up _ (by simp) this
    rwa [List.dropLast_concat] at this
  · rw [if_neg hx, r3, if_neg hd]
    by_cases hde : dirExist e fs dir = true
    · rw [if_pos hde]
      exact hdir ((dirExist_iff hr fs).mp hde).1
    · rw [if_neg hde]
      have hne : toks ≠ [] := by
        rintro rfl
        have : d = (if isAbsolutePath dir then [] else e.cwd) := (tokens_target hk hr).symm
        exact hde ((dirExist_iff hr fs).mpr ⟨by rw [this]; exact start_dir ht dir, (hp d List.prefix_rfl).1⟩)
      rw [c98_created_partial ht hk hne hr hp]
      simp only
      rw [if_pos ((dirExist_iff hr _).mpr ⟨by simp [withDirs], (hp d List.prefix_rfl).1⟩), ho]

theorem openOut_true {e : Env} {fs : FS} {s : Str} (h : (openOut e fs s).2 = true) : ∃ l, resolve e s = some l ∧
    (openOut e fs s).1 l = some .file ∧ e.writeOk l = true ∧ ∀ k, k ≠ l → (openOut e fs s).1 k = fs k := by
  unfold openOut at h ⊢
  cases hr : resolve e s with
  | none => rw [hr] at h; simp at h
  | some l =>
    rw [hr] at h
    simp only at h ⊢
    refine ⟨l, rfl, ?_⟩
    by_cases hw : wantsDir s = true
    · simp [hw] at h
    · rw [if_neg hw] at h ⊢
      cases hf : fs l with
      | none =>
        rw [hf] at h
        simp only at h ⊢
        by_cases hc : fs l.dropLast = some .dir ∧ e.writeOk l = true
        · rw [if_pos hc]
          refine ⟨by simp [add], hc.2, fun k hk => ?_⟩
          simp [add, hk]
        · simp [hc] at h
      | some n =>
        cases n with
        | dir => rw [hf] at h; simp at h
        | file =>
          rw [hf] at h
          exact ⟨hf, h, fun k _ => rfl⟩

/-- C99. Whenever `openFile` returns true, there is a writable regular file at the path, and at most directories above it and the file
itself are new. -/
theorem c99_true {e : Env} {fs : FS} (ht : Tree e fs) {s : Str} {toks : List Str} (hk : GetTokens (getFileDir s) ['/'] toks)
    (h : (openFile e fs toks s).2 = true) : ∃ l, resolve e s = some l ∧ (openFile e fs toks s).1 l = some .file ∧ e.writeOk l = true ∧
      ∀ k, k ≠ l → (openFile e fs toks s).1 k = fs k ∨ (fs k = none ∧ (openFile e fs toks s).1 k = some .dir ∧ k <+: l) := by
  have plain : (openOut e fs s).2 = true → ∃ l, resolve e s = some l ∧ (openOut e fs s).1 l = some .file ∧ e.writeOk l = true ∧
      ∀ k, k ≠ l → (openOut e fs s).1 k = fs k ∨ (fs k = none ∧ (openOut e fs s).1 k = some .dir ∧ k <+: l) := by
    intro ho
    obtain ⟨l, a, b, c, d⟩ := openOut_true ho
    exact ⟨l, a, b, c, fun k hkl => Or.inl (d k hkl)⟩
  unfold openFile at h ⊢
  by_cases hx : fileExists e fs s = true
  · rw [if_pos hx] at h ⊢
    exact plain h
  rw [if_neg hx] at h ⊢
  by_cases hd : getFileDir s = []
  · rw [if_pos hd] at h; simp at h
  rw [if_neg hd] at h ⊢
  by_cases hde : dirExist e fs (getFileDir s) = true
  · rw [if_pos hde] at h ⊢
    exact plain h
  rw [if_neg hde] at h ⊢
  simp only at h ⊢
  by_cases hde2 : dirExist e (createDirectoryRecursive e fs toks (getFileDir s)).1 (getFileDir s) = true
  · rw [if_pos hde2] at h ⊢
    obtain ⟨l, a, b, c, d⟩ := openOut_true h
    refine ⟨l, a, b, c, fun k hkl => ?_⟩
    rw [d k hkl]
    obtain ⟨t, hrt⟩ : ∃ t, resolve e (getFileDir s) = some t := by
      unfold resolve; rw [if_neg hd]; exact ⟨_, rfl⟩
    rcases (c98_frame ht hk hrt).1 k with h1 | ⟨h1, h2, h3⟩
    · exact Or.inl h1
    · refine Or.inr ⟨h1, h2, h3.trans ?_⟩
      -- the directory lies above the file
      cases hrf : rfind '/' s with
      | none => unfold getFileDir at hd; rw [hrf] at hd; simp at hd
      | some i =>
        obtain ⟨dir, nm, rfl, -, hnm⟩ := rfind_some.mp hrf
        have hg : getFileDir (dir ++ '/' :: nm) = dir := by
          unfold getFileDir; rw [rfind_at hnm]; simp
        rw [hg] at hrt hd
        unfold resolve at hrt a
        rw [if_neg hd] at hrt
        rw [if_neg (by simp), isAbs_append hd] at a
        rw [← Option.some.inj hrt, ← Option.some.inj a]
        unfold names
        rw [pieces_slash, List.filter_append, ← List.append_assoc]
        exact List.prefix_append _ _
  · rw [if_neg hde2] at h; simp at h

/-- C99 in full is false: a new file named without a directory (it would be made in the working directory), or directly below the root, is
never opened, even where everything is allowed. -/
theorem c99_open_fails (e : Env) (fs : FS) (toks : List Str) {name : Str} (hn : name ≠ []) (hdot : name ≠ ['.']) (hs : '/' ∉ name) :
    (fs (e.cwd ++ [name]) = none → openFile e fs toks name = (fs, false)) ∧
    (fs [name] = none → openFile e fs toks ('/' :: name) = (fs, false)) := by
  constructor
  · intro hf
    obtain ⟨hr, -, -⟩ := at_node (e := e) (Or.inl ⟨rfl, rfl⟩) hn hs
    have hext : ext e.cwd name = e.cwd ++ [name] := by unfold ext; rw [if_neg hdot]
    rw [List.nil_append, hext] at hr
    have hx : fileExists e fs name = false := by unfold fileExists lookup; rw [hr]; simp [hf]
    have hg : getFileDir name = [] := by unfold getFileDir; rw [rfind_none.mpr hs]
    unfold openFile
    simp [hx, hg]
  · intro hf
    have h : At e ['/'] [] := Or.inr ⟨[], rfl, by simp [isAbsolutePath, names, pieces]⟩
    obtain ⟨hr, -, -⟩ := at_node h hn hs
    have hext : ext [] name = [name] := by unfold ext; rw [if_neg hdot]; rfl
    rw [hext] at hr
    have hx : fileExists e fs ('/' :: name) = false := by
      unfold fileExists lookup
      rw [show '/' :: name = ['/'] ++ name from rfl, hr]
      simp [hf]
    have hg : getFileDir ('/' :: name) = [] := by
      unfold getFileDir
      rw [show '/' :: name = [] ++ '/' :: name from rfl, rfind_at hs]
      rfl
    unfold openFile
    simp [hx, hg]

/-! ## Witnesses -/

/-- A tree with `/home` only, where everything is allowed. -/
def exEnv : Env := ⟨["home".toList], fun _ => true, fun _ => true, fun _ => true⟩

def exFs : FS := fun l => if l = [] ∨ l = ["home".toList] then some .dir else none

theorem exTree : Tree exEnv exFs := by
  refine ⟨by simp [exFs], by simp [exFs, exEnv], ?_⟩
  intro l hl h
  have : l = ["home".toList] := by
    by_contra hne
    simp only [exFs, hl, hne, or_self, if_false] at h
    exact h rfl
  subst this
  simp [exFs]

/-- A relative path of two new directories meets the premises of C98 … -/
example : ∃ toks, GetTokens "run//1/".toList ['/'] toks ∧ toks ≠ [] ∧
    resolve exEnv "run//1/".toList = some ["home".toList, "run".toList, "1".toList] ∧
    Passable exEnv exFs ["home".toList, "run".toList, "1".toList] ∧ withDirs exFs ["home".toList, "run".toList, "1".toList] ["home".toList, "run".toList] = some .dir ∧
    exFs ["home".toList, "run".toList] = none := by
  refine ⟨["run".toList, "1".toList], ⟨10, rfl⟩, by simp, rfl, ?_, rfl, rfl⟩
  intro k hk
  refine ⟨rfl, ?_⟩
  by_cases h : k = [] ∨ k = ["home".toList]
  · exact Or.inl (if_pos h)
  · exact Or.inr ⟨if_neg h, rfl⟩

/-- … and a file in it those of C99. -/
example : ∃ d, resolve exEnv "run//1/".toList = some d ∧ exFs (d ++ ["x.csv".toList]) ≠ some .dir ∧ exEnv.writeOk (d ++ ["x.csv".toList]) = true ∧
    '/' ∉ "x.csv".toList := ⟨_, rfl, by decide, rfl, by decide⟩

/-- A regular file meets the premises of the counterexample to C98. -/
example : ∃ (e : Env) (fs : FS) (d : Loc), Tree e fs ∧ resolve e "/home".toList = some d ∧ fs (d ++ ["f".toList]) = some .file := by
  refine ⟨exEnv, add exFs ["home".toList, "f".toList] .file, _, exTree.add (by simp) rfl rfl .file, rfl, rfl⟩

end FileSys
end Ikf
