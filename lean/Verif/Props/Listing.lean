import Verif.Spec.Listing
import Verif.Props.FileSys
import Mathlib.Data.Nat.Bitwise
import Mathlib.Data.List.TakeWhile
import Mathlib.Tactic.IntervalCases

/-!
# C124–C126: listing and removing directories, reading text
-/

namespace Ikf
namespace Listing

open PathStr Spec
open Classical

theorem isDirectory_iff (m : ℕ) : isDirectory m = (m / 4096 % 16).testBit 2 := by
  unfold isDirectory
  have h1 : (0x4000 : ℕ) = 2 ^ 14 := by norm_num
  have h2 : (m / 4096 % 16).testBit 2 = m.testBit 14 := by
    have e1 : (4096 : ℕ) = 2 ^ 12 := by norm_num
    have e2 : (16 : ℕ) = 2 ^ 4 := by norm_num
    rw [e1, e2, Nat.testBit_mod_two_pow, Nat.testBit_div_two_pow]
    simp
  rw [h2, h1]
  rw [Nat.and_two_pow]
  cases m.testBit 14 <;> simp

/-- The kinds taken for directories. -/
theorem isDirectory_kind {m : ℕ} :
    (kindOf m = .directory ∨ kindOf m = .block ∨ kindOf m = .socket → isDirectory m = true) ∧
    (kindOf m = .fifo ∨ kindOf m = .char ∨ kindOf m = .regular ∨ kindOf m = .link → isDirectory m = false) := by
  rw [isDirectory_iff]
  unfold kindOf
  have : m / 4096 % 16 < 16 := Nat.mod_lt _ (by norm_num)
  generalize m / 4096 % 16 = k at this
  interval_cases k <;> simp [Nat.testBit]

theorem filesLoop_eq (dir ext : Str) (L : List Entry) (out : List Str) :
    filesLoop dir ext L out = out ++ (L.filter fun e => (e.name.head? ≠ some '.') ∧ (∃ m, e.mode = some m ∧ isDirectory m = false) ∧
      (ext = [] ∨ getFileExtension e.name = ext)).map fun e => dir ++ '/' :: e.name := by
  induction L generalizing out with
  | nil => simp [filesLoop]
  | cons e r ih =>
    unfold filesLoop
    by_cases h1 : e.name.head? = some '.'
    · simp [h1, ih]
    · rw [if_neg h1]
      cases hm : e.mode with
      | none => simp [hm, ih]
      | some m =>
        simp only
        by_cases h2 : isDirectory m = true
        · simp [h2, hm, ih]
        · rw [if_neg h2]
          by_cases h3 : ext ≠ [] ∧ getFileExtension e.name ≠ ext
          · rw [if_pos h3, ih, List.filter_cons_of_neg]
            simp only [decide_eq_true_eq, not_and]
            intro _ _ h
            exact h.elim h3.1 h3.2
          · rw [if_neg h3, ih, List.filter_cons_of_pos]
            · simp [full]
            · simp only [decide_eq_true_eq]
              refine ⟨h1, ⟨m, hm, by simpa using h2⟩, ?_⟩
              by_contra hc
              push Not at hc
              exact h3 hc

theorem dirsLoop_eq (dir : Str) (L : List Entry) (out : List Str) :
    dirsLoop dir L out = out ++ (L.filter fun e => (e.name.head? ≠ some '.') ∧ ∃ m, e.mode = some m ∧ isDirectory m = true).map
      fun e => dir ++ '/' :: e.name := by
  induction L generalizing out with
  | nil => simp [dirsLoop]
  | cons e r ih =>
    unfold dirsLoop
    by_cases h1 : e.name.head? = some '.'
    · simp [h1, ih]
    · rw [if_neg h1]
      cases hm : e.mode with
      | none => simp [hm, ih]
      | some m =>
        simp only
        by_cases h2 : isDirectory m = true
        · rw [if_pos h2, ih, List.filter_cons_of_pos]
          · simp [full]
          · simp only [decide_eq_true_eq]
            exact ⟨h1, m, hm, h2⟩
        · rw [if_neg h2, ih, List.filter_cons_of_neg]
          simp only [decide_eq_true_eq, not_and]
          rintro _ ⟨m', h, h'⟩
          rw [hm] at h
          cases h
          exact h2 h'

theorem head_dot {s : Str} : s.head? ≠ some '.' ↔ ¬ ∃ r, s = '.' :: r := by
  cases s with
  | nil => simp
  | cons c r => simp

theorem extension_iff {ext name : Str} (he : ext ≠ []) : getFileExtension name = ext ↔ HasExtension ext name := by
  unfold getFileExtension HasExtension
  constructor
  · intro h
    cases hr : rfind '.' name with
    | none => rw [hr] at h; exact absurd h.symm he
    | some i =>
      rw [hr] at h
      obtain ⟨a, b, rfl, rfl, hb⟩ := rfind_some.mp hr
      simp only at h
      rw [show (a ++ '.' :: b).drop (a.length + 1) = b by simp] at h
      subst h
      exact ⟨hb, a, rfl⟩
  · rintro ⟨hd, a, rfl⟩
    rw [rfind_at hd]
    simp

/-- Nothing unusual lies in the directory: only regular files, directories, character devices and named pipes. -/
def Usual (L : List Entry) : Prop :=
  ∀ e ∈ L, ∀ m, e.mode = some m → kindOf m = .regular ∨ kindOf m = .directory ∨ kindOf m = .char ∨ kindOf m = .fifo

/-- C124: in a directory without sockets and block devices `getFilesInDirectory` returns, in the order of the system, the full names of
exactly the visible entries that are no directories and, if an extension is asked for, have it. -/
theorem c124_files_partial {d : Dir} {L : List Entry} (hp : d.probe = true) (hs : d.scan = some L) (hu : Usual L) (dir ext : Str) :
    getFiles d dir ext = .ok ((L.filter fun e => Shown e ∧ ¬ Is e .directory ∧ (ext = [] ∨ HasExtension ext e.name)).map
      fun e => dir ++ '/' :: e.name) := by
  unfold getFiles
  rw [if_pos hp, hs]
  simp only
  rw [filesLoop_eq, List.nil_append]
  congr 2
  apply List.filter_congr
  intro e he
  congr 1
  apply propext
  unfold Shown Is
  rw [head_dot]
  have hx : (ext = [] ∨ getFileExtension e.name = ext) ↔ (ext = [] ∨ HasExtension ext e.name) := by
    by_cases h : ext = []
    · simp [h]
    · simp only [h, false_or]; exact extension_iff h
  rw [hx]
  constructor
  · rintro ⟨h1, ⟨m, hm, hd⟩, h3⟩
    refine ⟨⟨h1, m, hm⟩, ?_, h3⟩
    rintro ⟨m', hm', hk⟩
    rw [hm] at hm'
    cases hm'
    rw [isDirectory_kind.1 (.inl hk)] at hd
    cases hd
  · rintro ⟨⟨h1, m, hm⟩, h2, h3⟩
    refine ⟨h1, ⟨m, hm, isDirectory_kind.2 ?_⟩, h3⟩
    rcases hu e he m hm with h | h | h | h
    · exact .inr (.inr (.inl h))
    · exact absurd ⟨m, hm, h⟩ h2
    · exact .inr (.inl h)
    · exact .inl h

/-- C124: and `getDirsInDirectory` returns exactly the visible directories. -/
theorem c124_dirs_partial {d : Dir} {L : List Entry} (hp : d.probe = true) (hs : d.scan = some L) (hu : Usual L) (dir : Str) :
    getDirs d dir = .ok ((L.filter fun e => Shown e ∧ Is e .directory).map fun e => dir ++ '/' :: e.name) := by
  unfold getDirs
  rw [if_pos hp, hs]
  simp only
  rw [dirsLoop_eq, List.nil_append]
  congr 2
  apply List.filter_congr
  intro e he
  congr 1
  apply propext
  unfold Shown Is
  rw [head_dot]
  constructor
  · rintro ⟨h1, m, hm, hd⟩
    refine ⟨⟨h1, m, hm⟩, m, hm, ?_⟩
    rcases hu e he m hm with h | h | h | h
    · rw [isDirectory_kind.2 (.inr (.inr (.inl h)))] at hd; cases hd
    · exact h
    · rw [isDirectory_kind.2 (.inr (.inl h))] at hd; cases hd
    · rw [isDirectory_kind.2 (.inl h)] at hd; cases hd
  · rintro ⟨⟨h1, m, hm⟩, m', hm', hk⟩
    exact ⟨h1, m', hm', isDirectory_kind.1 (.inl hk)⟩

/-- C124: whatever lies in the directory, the two calls share its visible entries among them: if the names differ, the full name of an entry
is in exactly one of the two lists if it is shown, and in none if it is not. -/
theorem c124_split {d : Dir} {L : List Entry} (hp : d.probe = true) (hs : d.scan = some L) (hn : (L.map (·.name)).Nodup) (dir : Str) :
    ∃ F D, getFiles d dir [] = .ok F ∧ getDirs d dir = .ok D ∧ (F ++ D).Nodup ∧
      ∀ e ∈ L, (dir ++ '/' :: e.name ∈ F ++ D ↔ Shown e) := by
  have hinj : ∀ e ∈ L, ∀ e' ∈ L, e.name = e'.name → e = e' := fun e he e' he' h => List.inj_on_of_nodup_map hn he he' h
  have hL : L.Nodup := List.Nodup.of_map _ hn
  have hfull : Function.Injective fun n : Str => dir ++ '/' :: n := by
    intro a b h
    simpa using h
  refine ⟨filesLoop dir [] L [], dirsLoop dir L [], by unfold getFiles; rw [if_pos hp, hs], by unfold getDirs; rw [if_pos hp, hs], ?_⟩
  rw [filesLoop_eq, dirsLoop_eq, List.nil_append, List.nil_append]
  refine ⟨?_, ?_⟩
  · refine List.Nodup.append ?_ ?_ ?_
    · refine List.Nodup.map_on ?_ (hL.filter _)
      intro x hx y hy h
      exact hinj x (List.mem_of_mem_filter hx) y (List.mem_of_mem_filter hy) (hfull h)
    · refine List.Nodup.map_on ?_ (hL.filter _)
      intro x hx y hy h
      exact hinj x (List.mem_of_mem_filter hx) y (List.mem_of_mem_filter hy) (hfull h)
    · intro p h1 h2
      obtain ⟨x, hx, rfl⟩ := List.mem_map.mp h1
      obtain ⟨y, hy, h⟩ := List.mem_map.mp h2
      obtain rfl := hinj y (List.mem_of_mem_filter hy) x (List.mem_of_mem_filter hx) (hfull h)
      have a := (List.mem_filter.mp hx).2
      have b := (List.mem_filter.mp hy).2
      simp only [decide_eq_true_eq] at a b
      obtain ⟨_, ⟨m, hm, hd⟩, _⟩ := a
      obtain ⟨_, m', hm', hd'⟩ := b
      rw [hm] at hm'
      cases hm'
      rw [hd] at hd'
      cases hd'
  · intro e he
    rw [List.mem_append, List.mem_map, List.mem_map]
    unfold Shown
    rw [← head_dot]
    constructor
    · rintro (⟨x, hx, h⟩ | ⟨x, hx, h⟩)
      · obtain rfl := hinj x (List.mem_of_mem_filter hx) e he (hfull h)
        have a := (List.mem_filter.mp hx).2
        simp only [decide_eq_true_eq] at a
        obtain ⟨h1, ⟨m, hm, _⟩, _⟩ := a
        exact ⟨h1, m, hm⟩
      · obtain rfl := hinj x (List.mem_of_mem_filter hx) e he (hfull h)
        have a := (List.mem_filter.mp hx).2
        simp only [decide_eq_true_eq] at a
        obtain ⟨h1, m, hm, _⟩ := a
        exact ⟨h1, m, hm⟩
    · rintro ⟨h1, m, hm⟩
      cases hd : isDirectory m with
      | false => exact .inl ⟨e, List.mem_filter.mpr ⟨he, by simpa using ⟨h1, m, hm, hd⟩⟩, rfl⟩
      | true => exact .inr ⟨e, List.mem_filter.mpr ⟨he, by simpa using ⟨h1, m, hm, hd⟩⟩, rfl⟩

/-- C124: every name returned, by either call, leads back to the directory asked for: its directory part is the one given and its last
part is the name of an entry. -/
theorem c124_names {d : Dir} {L : List Entry} (hp : d.probe = true) (hs : d.scan = some L) (hn : ∀ e ∈ L, '/' ∉ e.name) (dir ext : Str) :
    ∃ F D, getFiles d dir ext = .ok F ∧ getDirs d dir = .ok D ∧
      ∀ p ∈ F ++ D, getFileDir p = dir ∧ ∃ e ∈ L, p = dir ++ '/' :: e.name ∧ Shown e := by
  refine ⟨filesLoop dir ext L [], dirsLoop dir L [], by unfold getFiles; rw [if_pos hp, hs], by unfold getDirs; rw [if_pos hp, hs], ?_⟩
  rw [filesLoop_eq, dirsLoop_eq, List.nil_append, List.nil_append]
  intro p h
  have key : ∀ e ∈ L, getFileDir (dir ++ '/' :: e.name) = dir := by
    intro e he
    unfold getFileDir
    rw [rfind_at (hn e he)]
    simp
  rcases List.mem_append.mp h with h | h
  · obtain ⟨x, hx, rfl⟩ := List.mem_map.mp h
    have a := (List.mem_filter.mp hx).2
    simp only [decide_eq_true_eq] at a
    obtain ⟨h1, ⟨m, hm, _⟩, _⟩ := a
    have hx := List.mem_of_mem_filter hx
    exact ⟨key x hx, x, hx, rfl, head_dot.mp h1, m, hm⟩
  · obtain ⟨x, hx, rfl⟩ := List.mem_map.mp h
    have a := (List.mem_filter.mp hx).2
    simp only [decide_eq_true_eq] at a
    obtain ⟨h1, m, hm, _⟩ := a
    have hx := List.mem_of_mem_filter hx
    exact ⟨key x hx, x, hx, rfl, head_dot.mp h1, m, hm⟩

/-- C124, a directory that cannot be read: both return nothing. -/
theorem c124_unreadable {d : Dir} (hp : d.probe = false) (dir ext : Str) : getFiles d dir ext = .ok [] ∧ getDirs d dir = .ok [] := by
  unfold getFiles getDirs
  rw [hp]
  exact ⟨rfl, rfl⟩

/-- C124, what fails: a socket or a block device is listed as a directory and never as a file. -/
theorem c124_special_fails {d : Dir} {L : List Entry} (hp : d.probe = true) (hs : d.scan = some L) (hn : (L.map (·.name)).Nodup)
    {e : Entry} (he : e ∈ L) (hv : Shown e) (hk : Is e .socket ∨ Is e .block) (dir : Str) :
    ∃ F D, getFiles d dir [] = .ok F ∧ getDirs d dir = .ok D ∧ dir ++ '/' :: e.name ∈ D ∧ dir ++ '/' :: e.name ∉ F := by
  obtain ⟨F, D, hF, hD, hnd, hm⟩ := c124_split hp hs hn dir
  have hin : dir ++ '/' :: e.name ∈ D := by
    unfold getDirs at hD
    rw [if_pos hp, hs] at hD
    simp only [dirsLoop_eq, List.nil_append, Res.ok.injEq] at hD
    rw [← hD, List.mem_map]
    refine ⟨e, List.mem_filter.mpr ⟨he, ?_⟩, rfl⟩
    simp only [decide_eq_true_eq]
    refine ⟨head_dot.mpr hv.1, ?_⟩
    rcases hk with ⟨m, h, k⟩ | ⟨m, h, k⟩
    · exact ⟨m, h, isDirectory_kind.1 (.inr (.inr k))⟩
    · exact ⟨m, h, isDirectory_kind.1 (.inr (.inl k))⟩
  refine ⟨F, D, hF, hD, hin, ?_⟩
  intro h
  exact (List.disjoint_of_nodup_append hnd) h hin

/-- C124, what fails: if the directory goes away between the test and the scan, the call reads through a null pointer. -/
theorem c124_race_fails {d : Dir} (hp : d.probe = true) (hs : d.scan = none) (dir ext : Str) :
    getFiles d dir ext = .ub ∧ getDirs d dir = .ub := by
  unfold getFiles getDirs
  rw [hp, hs]
  exact ⟨rfl, rfl⟩

namespace Example

/-- A directory as the system lists it: itself, its parent, two logs, notes, a directory, a hidden file, a dangling link and a pipe. -/
def home : List Entry :=
  [⟨".".toList, some 0o040755⟩, ⟨"run1.csv".toList, some 0o100644⟩, ⟨"..".toList, some 0o040755⟩, ⟨"old".toList, some 0o040755⟩,
    ⟨"notes.txt".toList, some 0o100600⟩, ⟨".cfg.csv".toList, some 0o100644⟩, ⟨"gone.csv".toList, none⟩, ⟨"p".toList, some 0o010644⟩,
    ⟨"run2.csv".toList, some 0o100644⟩]

example : getFiles ⟨true, some home⟩ "/d".toList "csv".toList = .ok ["/d/run1.csv".toList, "/d/run2.csv".toList] ∧
    getFiles ⟨true, some home⟩ "/d".toList [] =
      .ok ["/d/run1.csv".toList, "/d/notes.txt".toList, "/d/p".toList, "/d/run2.csv".toList] ∧
    getDirs ⟨true, some home⟩ "/d".toList = .ok ["/d/old".toList] := by decide +kernel

example : Usual home ∧ (home.map (·.name)).Nodup ∧ (∀ e ∈ home, '/' ∉ e.name) ∧
    Shown ⟨"sock".toList, some 0o140777⟩ ∧ Is ⟨"sock".toList, some 0o140777⟩ .socket := by
  refine ⟨?_, by decide +kernel, by decide +kernel, ⟨by simp, _, rfl⟩, _, rfl, by decide⟩
  intro e he m hm
  simp only [home, List.mem_cons, List.not_mem_nil, or_false] at he
  rcases he with rfl | rfl | rfl | rfl | rfl | rfl | rfl | rfl | rfl <;> cases hm <;> decide

end Example

/-! ## Lines -/

theorem readLines_nil : readLines [] = [] := by
  rw [readLines]
  simp [getline]

theorem readLines_cons (c : Char) (r : Str) :
    readLines (c :: r) = (c :: r).takeWhile (· ≠ '\n') :: readLines (((c :: r).dropWhile (· ≠ '\n')).drop 1) := by
  rw [readLines]
  simp [getline]

theorem readLines_line {l r : Str} (hl : '\n' ∉ l) : readLines (l ++ '\n' :: r) = l :: readLines r := by
  have ht : (l ++ '\n' :: r).takeWhile (· ≠ '\n') = l := by
    rw [List.takeWhile_append_of_pos (by intro a ha; simpa using fun h : a = '\n' => hl (h ▸ ha))]
    simp
  have hd : ((l ++ '\n' :: r).dropWhile (· ≠ '\n')).drop 1 = r := by
    rw [List.dropWhile_append_of_pos (by intro a ha; simpa using fun h : a = '\n' => hl (h ▸ ha))]
    simp
  cases hs : l ++ '\n' :: r with
  | nil => simp at hs
  | cons c s => rw [readLines_cons, ← hs, ht, hd]

theorem readLines_last {l : Str} (hl : '\n' ∉ l) (hn : l ≠ []) : readLines l = [l] := by
  cases hs : l with
  | nil => exact absurd hs hn
  | cons c s =>
    rw [readLines_cons, ← hs]
    have ht : l.takeWhile (· ≠ '\n') = l := by
      rw [List.takeWhile_eq_self_iff]
      intro a ha
      simpa using fun h : a = '\n' => hl (h ▸ ha)
    have hd : l.dropWhile (· ≠ '\n') = [] := by
      rw [List.dropWhile_eq_nil_iff]
      intro a ha
      simpa using fun h : a = '\n' => hl (h ▸ ha)
    rw [ht, hd]
    simp [readLines_nil]

theorem readLines_append {L : List Str} (hL : ∀ l ∈ L, '\n' ∉ l) (r : Str) :
    readLines (L.flatMap (· ++ ['\n']) ++ r) = L ++ readLines r := by
  induction L with
  | nil => simp
  | cons l L ih =>
    have : List.flatMap (· ++ ['\n']) (l :: L) ++ r = l ++ '\n' :: (L.flatMap (· ++ ['\n']) ++ r) := by simp
    rw [this, readLines_line (hL l (by simp)), ih fun x hx => hL x (by simp [hx])]
    rfl

theorem readLines_isLines (n : ℕ) : ∀ s : Str, s.length ≤ n → IsLines s (readLines s) := by
  induction n with
  | zero =>
    intro s hs
    obtain rfl := List.length_eq_zero_iff.mp (Nat.le_zero.mp hs)
    rw [readLines_nil]
    exact ⟨by simp, .inl rfl⟩
  | succ n ih =>
    intro s hs
    by_cases h : '\n' ∈ s
    · obtain ⟨a, b, rfl, ha⟩ := List.eq_append_cons_of_mem h
      rw [readLines_line ha]
      have hb : b.length ≤ n := by simp at hs; omega
      obtain ⟨h1, h2⟩ := ih b hb
      refine ⟨?_, ?_⟩
      · intro l hl
        rcases List.mem_cons.mp hl with rfl | hl
        · exact ha
        · exact h1 l hl
      · rcases h2 with h2 | ⟨i, w, e, hw, h2⟩
        · left
          rw [h2] at *
          simp [h2.symm]
        · right
          refine ⟨a :: i, w, by rw [e]; rfl, hw, ?_⟩
          rw [h2]
          simp
    · cases s with
      | nil => rw [readLines_nil]; exact ⟨by simp, .inl rfl⟩
      | cons c r =>
        rw [readLines_last h (by simp)]
        exact ⟨by simpa using h, .inr ⟨[], c :: r, rfl, by simp, by simp⟩⟩

/-- C125: `getLinesFromFile` returns the lines of the file: the one list of texts without newline that, each followed by a newline (the last
possibly not), make up the file. -/
theorem c125_lines (s : Str) (L : List Str) : getLines (some s) = L ↔ IsLines s L := by
  constructor
  · rintro rfl
    exact readLines_isLines _ s le_rfl
  · rintro ⟨h1, rfl | ⟨i, w, rfl, hw, rfl⟩⟩
    · have := readLines_append h1 []
      rw [List.append_nil, readLines_nil, List.append_nil] at this
      exact this
    · have := readLines_append (fun l hl => h1 l (by simp [hl])) w (L := i)
      rw [readLines_last (h1 w (by simp)) hw] at this
      exact this

/-- C125: nothing of a file that cannot be opened. -/
theorem c125_unopened : getLines none = [] := rfl

/-- C125: `getAbsPathsFromFile` keeps the paths handed in and puts after them, for each line of the list file, the line itself if it begins
with a slash and else the line below the directory of the list file. -/
theorem c125_paths {dir name s : Str} {L : List Str} (hn : '/' ∉ name) (hL : IsLines s L) (out : List Str) :
    getAbsPaths (dir ++ '/' :: name) (some s) out =
      out ++ L.map fun l => if l.head? = some '/' then l else dir ++ '/' :: l := by
  unfold getAbsPaths
  rw [(c125_lines s L).mpr hL]
  unfold absPaths
  rw [if_neg (by simp)]
  congr 1
  apply List.map_congr_left
  intro l _
  have : getFileDir (dir ++ '/' :: name) = dir := by
    unfold getFileDir
    rw [rfind_at hn]
    simp
  rw [this]
  by_cases h : l.head? = some '/'
  · simp [isAbsolutePath, h]
  · simp [isAbsolutePath, h]

/-- C125, what fails: of a file with carriage return and newline at the end of each line every line returned ends with a carriage return, and so
does every path. -/
theorem c125_crlf_fails {L : List Str} (h1 : ∀ l ∈ L, '\n' ∉ l) :
    getLines (some (L.flatMap (· ++ ['\r', '\n']))) = L.map (· ++ ['\r']) := by
  rw [c125_lines]
  refine ⟨?_, .inl ?_⟩
  · intro l hl
    obtain ⟨x, hx, rfl⟩ := List.mem_map.mp hl
    simpa using h1 x hx
  · rw [List.flatMap_map]
    congr 1
    funext l
    simp

/-- C125, what fails: a list file that itself has no directory in its name (it lies in the working directory) gives paths below the root. -/
theorem c125_bare_fails {name s : Str} (hn : '/' ∉ name) (hne : name ≠ []) {L : List Str} (hL : IsLines s L) {l : Str} (hl : l ∈ L)
    (ha : l.head? ≠ some '/') : ('/' :: l) ∈ getAbsPaths name (some s) [] := by
  unfold getAbsPaths
  rw [(c125_lines s L).mpr hL]
  unfold absPaths
  rw [if_neg hne, List.nil_append, List.mem_map]
  refine ⟨l, hl, ?_⟩
  have : getFileDir name = [] := by unfold getFileDir; rw [rfind_none.mpr hn]
  rw [this]
  simp [isAbsolutePath, ha]

/-! ## Words -/

theorem isSpace_iff (c : Char) : isSpace c = true ↔ White c := by
  unfold isSpace White
  have key : ∀ n : ℕ, (Char.ofNat n).toNat = n → (c.toNat = n ↔ c = Char.ofNat n) := by
    intro n hn
    constructor
    · rintro rfl; simp
    · rintro rfl; exact hn
  have h32 := key 32 (by decide)
  have h9 := key 9 (by decide)
  have h10 := key 10 (by decide)
  have h11 := key 11 (by decide)
  have h12 := key 12 (by decide)
  have h13 := key 13 (by decide)
  have e32 : Char.ofNat 32 = ' ' := by decide
  have e9 : Char.ofNat 9 = '\t' := by decide
  have e10 : Char.ofNat 10 = '\n' := by decide
  have e13 : Char.ofNat 13 = '\r' := by decide
  rw [e32] at h32; rw [e9] at h9; rw [e10] at h10; rw [e13] at h13
  simp only [List.mem_cons, List.not_mem_nil, or_false, ← h32, ← h9, ← h10, ← h11, ← h12, ← h13, Bool.or_eq_true, Bool.and_eq_true,
    beq_iff_eq, decide_eq_true_eq]
  omega

theorem extract_none {b : Str} (hb : ∀ c ∈ b, White c) : extract b = none := by
  unfold extract
  rw [List.dropWhile_eq_nil_iff.mpr fun c hc => (isSpace_iff c).mpr (hb c hc)]

theorem extract_word {b w r : Str} (hb : ∀ c ∈ b, White c) (hw : IsWord w) (hr : r = [] ∨ ∃ c r', r = c :: r' ∧ White c) :
    extract (b ++ w ++ r) = some (w, r) := by
  unfold extract
  have h1 : (b ++ w ++ r).dropWhile isSpace = w ++ r := by
    rw [List.append_assoc, List.dropWhile_append_of_pos fun c hc => (isSpace_iff c).mpr (hb c hc)]
    cases w with
    | nil => exact absurd rfl hw.1
    | cons c w =>
      have : isSpace c = false := by
        rw [Bool.eq_false_iff, Ne, isSpace_iff]
        exact hw.2 c (by simp)
      simp [this]
  have hn : ∀ a ∈ w, (!isSpace a) = true := by
    intro a ha
    have : isSpace a = false := by rw [Bool.eq_false_iff, Ne, isSpace_iff]; exact hw.2 a ha
    simp [this]
  have h2 : (w ++ r).takeWhile (!isSpace ·) = w := by
    rw [List.takeWhile_append_of_pos hn]
    rcases hr with rfl | ⟨c, r', rfl, hc⟩
    · simp
    · simp [(isSpace_iff c).mpr hc]
  have h3 : (w ++ r).dropWhile (!isSpace ·) = r := by
    rw [List.dropWhile_append_of_pos hn]
    rcases hr with rfl | ⟨c, r', rfl, hc⟩
    · simp
    · simp [(isSpace_iff c).mpr hc]
  rw [h1]
  cases hs : w ++ r with
  | nil => exact absurd (List.append_eq_nil_iff.mp hs).1 hw.1
  | cons c s => simp only; rw [← hs, h2, h3]

theorem tokens_none {s : Str} (h : extract s = none) : tokens s = [] := by
  rw [tokens]
  split
  · rfl
  · rename_i h'; rw [h] at h'; cases h'

theorem tokens_some {s t r : Str} (h : extract s = some (t, r)) : tokens s = t :: tokens r := by
  rw [tokens]
  split
  · rename_i h'; rw [h] at h'; cases h'
  · rename_i h'; rw [h] at h'; cases h'; rfl

/-- Any text is white space, or white space, a word, and nothing or a text that begins with white space. -/
theorem word_cases (s : Str) : (∀ c ∈ s, White c) ∨ ∃ b w r, s = b ++ w ++ r ∧ (∀ c ∈ b, White c) ∧ IsWord w ∧
    (r = [] ∨ ∃ c r', r = c :: r' ∧ White c) := by
  by_cases h : ∀ c ∈ s, White c
  · exact .inl h
  · right
    refine ⟨s.takeWhile isSpace, (s.dropWhile isSpace).takeWhile (!isSpace ·), (s.dropWhile isSpace).dropWhile (!isSpace ·), ?_, ?_, ⟨?_, ?_⟩, ?_⟩
    · rw [List.append_assoc, List.takeWhile_append_dropWhile, List.takeWhile_append_dropWhile]
    · intro c hc
      exact (isSpace_iff c).mp (List.mem_takeWhile_imp hc)
    · intro he
      have hne : s.dropWhile isSpace ≠ [] := by
        intro h0
        exact h fun c hc => (isSpace_iff c).mp (List.dropWhile_eq_nil_iff.mp h0 c hc)
      cases hd : s.dropWhile isSpace with
      | nil => exact hne hd
      | cons c r =>
        have hc : isSpace c = false := by
          have := List.head?_dropWhile_not isSpace s
          rw [hd] at this
          simpa using this
        rw [hd] at he
        simp [hc] at he
    · intro c hc
      have := List.mem_takeWhile_imp hc
      rw [← isSpace_iff]
      simpa using this
    · cases hd : (s.dropWhile isSpace).dropWhile (!isSpace ·) with
      | nil => exact .inl rfl
      | cons c r =>
        right
        refine ⟨c, r, rfl, ?_⟩
        have := List.head?_dropWhile_not (!isSpace ·) (s.dropWhile isSpace)
        rw [hd] at this
        rw [← isSpace_iff]
        simpa using this

theorem tokens_isWords (n : ℕ) : ∀ s : Str, s.length ≤ n → IsWords s (tokens s) := by
  induction n with
  | zero =>
    intro s hs
    obtain rfl := List.length_eq_zero_iff.mp (Nat.le_zero.mp hs)
    rw [tokens_none (extract_none (by simp))]
    exact .none (by simp)
  | succ n ih =>
    intro s hs
    rcases word_cases s with h | ⟨b, w, r, rfl, hb, hw, hr⟩
    · rw [tokens_none (extract_none h)]
      exact .none h
    · rw [tokens_some (extract_word hb hw hr)]
      rcases hr with rfl | ⟨c, r, rfl, hc⟩
      · rw [tokens_none (extract_none (by simp)), List.append_nil]
        exact .last hb hw
      · refine .more hb hw hc (ih _ ?_)
        have := List.length_pos_iff.mpr hw.1
        simp at hs ⊢
        omega

/-- C125: `getTokens(str)` returns the words of the text: the one list of words that, with white space around and between them, make up the
text. -/
theorem c125_words (s : Str) (L : List Str) : tokens s = L ↔ IsWords s L := by
  constructor
  · rintro rfl
    exact tokens_isWords _ s le_rfl
  · intro h
    induction h with
    | none hb => exact tokens_none (extract_none hb)
    | last hb hw =>
      have := tokens_some (extract_word hb hw (.inl rfl))
      rw [List.append_nil, tokens_none (extract_none (b := []) (by simp))] at this
      exact this
    | more hb hw hc _ ih =>
      rw [tokens_some (extract_word hb hw (.inr ⟨_, _, rfl, hc⟩)), ih]

/-- C125: `getFirstTokenAndReset` on a good stream within the first two gigabytes returns the next word and leaves the stream as it was. -/
theorem c125_peek_partial {s : Stream} (hg : s.eof = false ∧ s.fail = false) (hp : s.pos < 2 ^ 31) {w : Str} {L : List Str}
    (h : IsWords (s.text.drop s.pos) (w :: L)) (delim : Str) : firstTokenAndReset s delim = (w, s) := by
  have hx : ∃ r, extract (s.text.drop s.pos) = some (w, r) := by
    generalize s.text.drop s.pos = t at h
    cases h with
    | last hb hw => have := extract_word hb hw (.inl rfl); rw [List.append_nil] at this; exact ⟨_, this⟩
    | more hb hw hc _ => exact ⟨_, extract_word hb hw (.inr ⟨_, _, rfl, hc⟩)⟩
  obtain ⟨r, hx⟩ := hx
  have hi : toInt s.pos = s.pos := by
    unfold toInt
    omega
  unfold firstTokenAndReset
  rw [hg.1, hg.2, hi, hx]
  simp only [Bool.or_false, Bool.false_eq_true, if_false]
  rw [if_neg (by omega)]
  obtain ⟨text, pos, eof, fail⟩ := s
  obtain ⟨rfl, rfl⟩ := hg
  simp

/-- C125, what fails: the delimiter is not looked at. -/
theorem c125_delim_fails (s : Stream) (d d' : Str) : firstTokenAndReset s d = firstTokenAndReset s d' := rfl

/-- C125, what fails: a look at a stream with only white space left, or none, breaks it: nothing is returned and the stream has failed, and from
then on every look at it returns nothing. -/
theorem c125_end_fails {s : Stream} (hp : s.pos < 2 ^ 31) (h : ∀ c ∈ s.text.drop s.pos, White c) (d : Str) :
    (firstTokenAndReset s d).1 = [] ∧ (firstTokenAndReset s d).2.fail = true ∧
      ∀ d', firstTokenAndReset (firstTokenAndReset s d).2 d' = ([], (firstTokenAndReset s d).2) := by
  have hi : toInt s.pos = s.pos := by
    unfold toInt
    omega
  have key : (firstTokenAndReset s d).1 = [] ∧ (firstTokenAndReset s d).2.fail = true := by
    unfold firstTokenAndReset
    rw [extract_none h, hi]
    split
    · exact ⟨rfl, rfl⟩
    · simp only
      rw [if_neg (by omega)]
      exact ⟨rfl, rfl⟩
  refine ⟨key.1, key.2, fun d' => ?_⟩
  generalize firstTokenAndReset s d = x at key
  obtain ⟨t, text, pos, eof, fail⟩ := x
  obtain ⟨rfl, h2⟩ := key
  simp only at h2
  subst h2
  simp [firstTokenAndReset]

/-- C125, what fails: a stream that has come to its end (of which the last word may have been read just before) is broken by a look at it. -/
theorem c125_ended_fails {s : Stream} (h : s.eof = true ∨ s.fail = true) (d : Str) : firstTokenAndReset s d = ([], { s with fail := true }) := by
  unfold firstTokenAndReset
  rcases h with h | h <;> simp [h]

/-- C125, what fails: in the third and fourth gigabyte of a file nothing is returned, and after the fourth the stream is set back by four gigabytes. -/
theorem c125_far_fails {s : Stream} (hg : s.eof = false ∧ s.fail = false) (d : Str) :
    (2 ^ 31 ≤ s.pos → s.pos < 2 ^ 32 → firstTokenAndReset s d = ([], s)) ∧
    (∀ q, s.pos = 2 ^ 32 + q → q < 2 ^ 31 → ∀ {w : Str} {L : List Str}, IsWords (s.text.drop s.pos) (w :: L) →
      firstTokenAndReset s d = (w, { s with pos := q })) := by
  refine ⟨fun h1 h2 => ?_, fun q h1 h2 w L h => ?_⟩
  · have hi : toInt s.pos < 0 := by unfold toInt; omega
    unfold firstTokenAndReset
    rw [hg.1, hg.2]
    simp only [Bool.or_false, Bool.false_eq_true, if_false]
    rw [if_pos hi]
  · have hi : toInt s.pos = (q : ℤ) := by unfold toInt; omega
    have hx : ∃ r, extract (s.text.drop s.pos) = some (w, r) := by
      generalize s.text.drop s.pos = t at h
      cases h with
      | last hb hw => have := extract_word hb hw (.inl rfl); rw [List.append_nil] at this; exact ⟨_, this⟩
      | more hb hw hc _ => exact ⟨_, extract_word hb hw (.inr ⟨_, _, rfl, hc⟩)⟩
    obtain ⟨r, hx⟩ := hx
    unfold firstTokenAndReset
    rw [hg.1, hg.2, hx, hi]
    simp only [Bool.or_false, Bool.false_eq_true, if_false]
    rw [if_neg (by omega), Int.toNat_natCast]

namespace Example

example : getLines (some "a,b\n\n1,2".toList) = ["a,b".toList, [], "1,2".toList] ∧
    getAbsPaths "/cfg/list.txt".toList (some "x.csv\n/y.csv\n".toList) ["z".toList] =
      ["z".toList, "/cfg/x.csv".toList, "/y.csv".toList] ∧
    tokens " 1  2\t33\n".toList = ["1".toList, "2".toList, "33".toList] ∧
    firstTokenAndReset ⟨"a bc d".toList, 1, false, false⟩ [] = ("bc".toList, ⟨"a bc d".toList, 1, false, false⟩) := by
  refine ⟨(c125_lines _ _).mpr ⟨by decide, .inr ⟨["a,b".toList, []], "1,2".toList, rfl, by decide, by decide⟩⟩, ?_, ?_, ?_⟩
  · exact c125_paths (dir := "/cfg".toList) (name := "list.txt".toList) (s := "x.csv\n/y.csv\n".toList)
      (L := ["x.csv".toList, "/y.csv".toList]) (by decide) ⟨by decide, .inl (by decide)⟩ ["z".toList]
  · rw [c125_words]
    have w : ∀ c : Char, isSpace c = true → White c := fun c => (isSpace_iff c).mp
    have nw : ∀ s : Str, s ≠ [] → (∀ c ∈ s, isSpace c = false) → IsWord s := fun s h h' =>
      ⟨h, fun c hc hw => by rw [← isSpace_iff, h' c hc] at hw; cases hw⟩
    exact .more (b := [' ']) (w := ['1']) (fun c hc => w c (by simp at hc; subst hc; rfl)) (nw _ (by simp) (by decide)) (w ' ' rfl)
      (.more (b := "  ".toList) (w := ['2']) (fun c hc => w c (by simp at hc; subst hc; rfl)) (nw _ (by simp) (by decide)) (w '\t' rfl)
        (.more (b := ['\t']) (w := "33".toList) (fun c hc => w c (by simp at hc; subst hc; rfl)) (nw _ (by simp) (by decide)) (w '\n' rfl)
          (.none (fun c hc => w c (by simp at hc; subst hc; rfl)))))
  · apply c125_peek_partial ⟨rfl, rfl⟩ (by norm_num) (L := ["d".toList])
    rw [← c125_words]
    have w : ∀ c : Char, isSpace c = true → White c := fun c => (isSpace_iff c).mp
    have nw : ∀ s : Str, s ≠ [] → (∀ c ∈ s, isSpace c = false) → IsWord s := fun s h h' =>
      ⟨h, fun c hc hw => by rw [← isSpace_iff, h' c hc] at hw; cases hw⟩
    rw [c125_words]
    exact .more (b := [' ']) (w := "bc".toList) (fun c hc => w c (by simp at hc; subst hc; rfl)) (nw _ (by simp) (by decide)) (w ' ' rfl)
      (.last (b := [' ']) (w := ['d']) (fun c hc => w c (by simp at hc; subst hc; rfl)) (nw _ (by simp) (by decide)))

end Example

/-! ## Removing a directory -/

open FileSys

theorem plain_special {s : Str} (hp : Plain s) : s.any (special.contains ·) = false := by
  rw [List.any_eq_false]
  intro c hc h
  refine hp.2.2 c hc ?_
  unfold special at h
  have : c ∈ ['\n', ';', '&', '|', '<', '>', '(', ')', '$', '`', '\\', '"', '\'', '*', '?', '[', ']', '#', '~', '=', '%', '!', '{', '}'] := by
    simpa only [List.contains_iff_mem] using h
  exact List.mem_cons_of_mem _ (List.mem_cons_of_mem _ this)

theorem plain_blank {s : Str} (hp : Plain s) : ∀ c ∈ s, (decide (c = ' ') || decide (c = '\t')) = false := by
  intro c hc
  have := hp.2.2 c hc
  rw [Bool.or_eq_false_iff, decide_eq_false_iff_not, decide_eq_false_iff_not]
  constructor
  · rintro rfl; exact this (by simp)
  · rintro rfl; exact this (by simp)

theorem words_single {s : Str} (hp : Plain s) : shellWords s = [s] := by
  unfold shellWords
  rw [List.splitOnP_eq_singleton (plain_blank hp)]
  simp [hp.1]

theorem words_pair {a b : Str} (ha : Plain a) (hb : Plain b) : shellWords (a ++ ' ' :: b) = [a, b] := by
  unfold shellWords
  rw [List.splitOnP_append_cons _ _ (by decide), List.splitOnP_eq_singleton (plain_blank ha), List.splitOnP_eq_singleton (plain_blank hb)]
  simp [ha.1, hb.1]

theorem remove_single {e : Env} {fs : FS} {s : Str} (hp : Plain s) : removeDirectory e fs s = some (rmWord e fs s) := by
  unfold removeDirectory
  rw [plain_special hp, words_single hp]
  simp [hp.2.1, rmWords]

theorem lookup_dir {e : Env} {fs : FS} {s : Str} {l : Loc} (hr : resolve e s = some l) (hd : fs l = some .dir) :
    FileSys.lookup e fs s = some (l, .dir) := by
  unfold FileSys.lookup
  rw [hr]
  simp only
  rw [hd]

/-- C126: for a name the shell takes as it is, of a directory other than the root and not ending in `.` or `..`, `removeDirectory` returns true and
removes the directory with all below it and nothing else. -/
theorem c126_removed_partial {e : Env} {fs : FS} {s : Str} {l : Loc} (hp : Plain s) (hr : resolve e s = some l) (hd : fs l = some .dir)
    (h0 : l ≠ []) (hdot : (pieces s).getLast? ≠ some ['.'] ∧ (pieces s).getLast? ≠ some ['.', '.']) :
    ∃ fs', removeDirectory e fs s = some (fs', true) ∧ (∀ below, fs' (l ++ below) = none) ∧ ∀ k, (¬ ∃ below, k = l ++ below) → fs' k = fs k := by
  refine ⟨fun k => if l <+: k then none else fs k, ?_, ?_, ?_⟩
  · rw [remove_single hp]
    unfold rmWord
    rw [lookup_dir hr hd]
    simp only
    rw [if_neg (by simp [h0, hdot.1, hdot.2])]
  · intro below
    exact if_pos (List.prefix_append _ _)
  · intro k hk
    refine if_neg ?_
    rintro ⟨b, rfl⟩
    exact hk ⟨b, rfl⟩

/-- C126: where nothing is it returns false and changes nothing. -/
theorem c126_missing_partial {e : Env} {fs : FS} {s : Str} {l : Loc} (hp : Plain s) (hr : resolve e s = some l) (hd : fs l = none) :
    removeDirectory e fs s = some (fs, false) := by
  rw [remove_single hp]
  unfold rmWord FileSys.lookup
  rw [hr]
  simp only
  rw [hd]

/-- C126: the root directory, and a name with last part `.` or `..`, is refused: false, and nothing changes. -/
theorem c126_refused {e : Env} {fs : FS} {s : Str} {l : Loc} (hp : Plain s) (hr : resolve e s = some l)
    (h : l = [] ∨ (pieces s).getLast? = some ['.'] ∨ (pieces s).getLast? = some ['.', '.']) : removeDirectory e fs s = some (fs, false) := by
  rw [remove_single hp]
  unfold rmWord
  cases hl : FileSys.lookup e fs s with
  | none => rfl
  | some x =>
    obtain ⟨l', n⟩ := x
    have hll : l' = l := by
      unfold FileSys.lookup at hl
      rw [hr] at hl
      simp only at hl
      cases hf : fs l with
      | none => rw [hf] at hl; cases hl
      | some y =>
        rw [hf] at hl
        cases y with
        | dir => exact (Prod.mk.inj (Option.some.inj hl)).1.symm
        | file =>
          simp only at hl
          split at hl
          · cases hl
          · exact (Prod.mk.inj (Option.some.inj hl)).1.symm
    subst hll
    simp only
    rw [if_pos h]

/-- C126: a name of blanks only is no name: false, and nothing changes. -/
theorem c126_blank {e : Env} {fs : FS} {s : Str} (h : ∀ c ∈ s, c = ' ' ∨ c = '\t') : removeDirectory e fs s = some (fs, false) := by
  have hs : s.any (special.contains ·) = false := by
    rw [List.any_eq_false]
    intro c hc
    rcases h c hc with rfl | rfl <;> decide
  have hw : shellWords s = [] := by
    unfold shellWords
    rw [List.filter_eq_nil_iff]
    intro w hwm
    induction s generalizing w with
    | nil => simp at hwm; simp [hwm]
    | cons c r ih =>
      have hc : (decide (c = ' ') || decide (c = '\t')) = true := by rcases h c List.mem_cons_self with rfl | rfl <;> rfl
      rw [List.splitOnP_cons_eq_if_modifyHead, if_pos hc] at hwm
      rcases List.mem_cons.mp hwm with rfl | hwm
      · simp
      · exact ih (fun c hc => h c (List.mem_cons_of_mem _ hc)) (by rw [List.any_cons] at hs; exact (Bool.or_eq_false_iff.mp hs).2) w hwm
  unfold removeDirectory
  rw [hs, hw]
  simp

theorem rmWord_frame {e : Env} {fs : FS} {w : Str} {l : Loc} (hr : resolve e w = some l) (k : Loc) :
    (rmWord e fs w).1 k = fs k ∨ ((rmWord e fs w).1 k = none ∧ l <+: k) := by
  unfold rmWord FileSys.lookup
  rw [hr]
  simp only
  cases fs l with
  | none => exact .inl rfl
  | some n =>
    cases n with
    | dir =>
      simp only
      split
      · exact .inl rfl
      · simp only
        split
        · rename_i h; exact .inr ⟨rfl, h⟩
        · exact .inl rfl
    | file =>
      simp only
      split
      · exact .inl rfl
      · rename_i heq
        split at heq
        · cases heq
        · cases heq
          split
          · exact .inl rfl
          · simp only
            split
            · rename_i h; exact .inr ⟨rfl, h⟩
            · exact .inl rfl

/-- C126, what fails: of a name with a space in it the parts are removed, not the directory: with `a b` everything at and below `a` goes, and
the directory called `a b`, like all that is not below `a` or `b`, stays. -/
theorem c126_space_fails {e : Env} {fs : FS} {a b : Str} {la lb l : Loc} (ha : Plain a) (hb : Plain b) (hra : resolve e a = some la)
    (hrb : resolve e b = some lb) (hda : fs la = some .dir) (h0 : la ≠ []) (hdot : (pieces a).getLast? ≠ some ['.'] ∧ (pieces a).getLast? ≠ some ['.', '.'])
    (hd : fs l = some .dir) (hna : ¬ la <+: l) (hnb : ¬ lb <+: l) :
    ∃ fs' ok, removeDirectory e fs (a ++ ' ' :: b) = some (fs', ok) ∧ (∀ below, fs' (la ++ below) = none) ∧ fs' l = some .dir := by
  refine ⟨(rmWords e [a, b] fs true).1, (rmWords e [a, b] fs true).2, ?_, ?_, ?_⟩
  · unfold removeDirectory
    rw [words_pair ha hb]
    have hs : (a ++ ' ' :: b).any (special.contains ·) = false := by
      rw [List.any_append, List.any_cons, plain_special ha, plain_special hb]
      decide
    rw [hs]
    simp [ha.2.1, hb.2.1]
  · intro below
    simp only [rmWords]
    have h1 : (rmWord e fs a).1 (la ++ below) = none := by
      unfold rmWord
      rw [lookup_dir hra hda]
      simp only
      rw [if_neg (by simp [h0, hdot.1, hdot.2])]
      exact if_pos (List.prefix_append _ _)
    rcases rmWord_frame (fs := (rmWord e fs a).1) hrb (la ++ below) with h | h
    · rw [h, h1]
    · exact h.1
  · simp only [rmWords]
    rcases rmWord_frame (fs := (rmWord e fs a).1) hrb l with h | h
    · rw [h]
      rcases rmWord_frame (fs := fs) hra l with h' | h'
      · rw [h', hd]
      · exact absurd h'.2 hna
    · exact absurd h.2 hnb

namespace Example

/-- The working directory is the root. -/
def env : Env := ⟨[], fun _ => true, fun _ => true, fun _ => true⟩

/-- Directories `log`, `log/a`, `my log` and `my`. -/
def tree : FS := fun k =>
  if k = [] ∨ k = ["log".toList] ∨ k = ["log".toList, "a".toList] ∨ k = ["my log".toList] ∨ k = ["my".toList] then some .dir else none

example : (∃ fs', removeDirectory env tree "log".toList = some (fs', true) ∧ (∀ below, fs' (["log".toList] ++ below) = none) ∧
      ∀ k, (¬ ∃ below, k = ["log".toList] ++ below) → fs' k = tree k) ∧
    (∃ fs' ok, removeDirectory env tree "my log".toList = some (fs', ok) ∧ (∀ below, fs' (["my".toList] ++ below) = none) ∧
      fs' ["my log".toList] = some .dir) := by
  have p1 : Plain "log".toList := ⟨by decide, by decide, by decide⟩
  have p2 : Plain "my".toList := ⟨by decide, by decide, by decide⟩
  refine ⟨c126_removed_partial p1 (by decide) (by decide) (by decide) (by decide), ?_⟩
  exact c126_space_fails (a := "my".toList) (b := "log".toList) p2 p1 (lb := ["log".toList]) (by decide) (by decide) (by decide) (by decide) (by decide)
    (by decide) (by decide) (by decide)

/-- A directory by a name ending in `.`, the root, and a name of two blanks. -/
example : removeDirectory env tree "log/.".toList = some (tree, false) ∧ removeDirectory env tree "/".toList = some (tree, false) ∧ removeDirectory env tree "  ".toList = some (tree, false) :=
  ⟨c126_refused (l := ["log".toList]) ⟨by decide, by decide, by decide⟩ (by decide) (.inr (.inl (by decide))),
    c126_refused (l := []) ⟨by decide, by decide, by decide⟩ (by decide) (.inl rfl), c126_blank (by decide)⟩

example : firstTokenAndReset ⟨"a b".toList, 3, true, false⟩ [] = ([], ⟨"a b".toList, 3, true, true⟩) := c125_ended_fails (.inl rfl) []

end Example

end Listing
end Ikf
