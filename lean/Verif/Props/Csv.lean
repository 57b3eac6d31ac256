import Verif.Model.Csv
import Verif.Lemmas.Mat
import Mathlib.Tactic.Common
import Mathlib.Data.List.GetD
import Mathlib.Data.List.Basic

/-! # C52 (reading CSV files), C61 (what is written can be read) -/

namespace Ikf
namespace Csv
variable {V : Type _}

/-! ## Specification -/

/-- A row with as many tokens as the header. -/
def Good (delim : Char) (n : ℕ) (l : Line) : Bool := (tokens delim l).length = n

/-- The number in column `k` of a row, if there is one. -/
def cell (dbl : Line → Option V) (delim : Char) (k : ℕ) (l : Line) : Option V := (tokens delim l)[k]?.bind dbl

/-- What a column contains after reading: rows with the right number of tokens contribute their number; if that is not a
number, the last number seen in that column of the *skipped* rows since the previous contributing one (`p`), or 0. -/
def column (dbl : Line → Option V) (zero : V) (delim : Char) (n k : ℕ) : V → List Line → List V
  | _, [] => []
  | p, l :: ls =>
    if Good delim n l then (cell dbl delim k l).getD p :: column dbl zero delim n k zero ls
    else column dbl zero delim n k (if k < n then (cell dbl delim k l).getD p else p) ls

/-! ## Rows -/

/-- Write if there is something to write. -/
def upd (l : List V) (i : ℕ) (o : Option V) : List V := match o with | some v => l.set i v | none => l

@[simp] theorem upd_length (l : List V) (i : ℕ) (o : Option V) : (upd l i o).length = l.length := by
  cases o <;> simp [upd]

theorem getD_inj {names : List Line} (hn : names.Nodup) {j k : ℕ} (hj : j < names.length) (hk : k < names.length)
    (h : names.getD j [] = names.getD k []) : j = k := by
  rw [List.getD_eq_getElem _ _ hj, List.getD_eq_getElem _ _ hk] at h
  exact (List.Nodup.getElem_inj_iff hn).mp h

theorem getD_mem' {names : List Line} {k : ℕ} (hk : k < names.length) : names.getD k [] ∈ names := by
  rw [List.getD_eq_getElem _ _ hk]; exact List.getElem_mem hk

theorem readRow_spec (dbl : Line → Option V) {names : List Line} (hn : names.Nodup) (i : ℕ) (ts : List Line) (c : ℕ) (d : Data V)
    (L : ℕ → List V) (hc : c ≤ names.length) (hd : ∀ k < names.length, d (names.getD k []) = some (L k))
    (hi : ∀ k < names.length, i < (L k).length) :
    ∃ d', readRow dbl names i c ts d = .ok (if c + ts.length ≤ names.length then c + ts.length else names.length + 1, d') ∧
      (∀ k < names.length, d' (names.getD k []) = some (if c ≤ k then upd (L k) i (ts[k - c]?.bind dbl) else L k)) ∧
      ∀ m, m ∉ names → d' m = d m := by
  induction ts generalizing c d L with
  | nil =>
    refine ⟨d, by simp [readRow, hc], fun k hk => ?_, fun _ _ => rfl⟩
    rw [hd k hk]; split <;> simp [upd]
  | cons t ts ih =>
    rw [readRow]
    by_cases hlt : names.length ≤ c
    · have : c = names.length := by omega
      subst this
      refine ⟨d, by simp, fun k hk => ?_, fun _ _ => rfl⟩
      rw [hd k hk, if_neg (by omega)]
    · rw [if_neg hlt]
      have hcl : c < names.length := by omega
      have hlen : (if c + 1 + ts.length ≤ names.length then c + 1 + ts.length else names.length + 1) =
          (if c + (t :: ts).length ≤ names.length then c + (t :: ts).length else names.length + 1) := by
        simp only [List.length_cons]; split <;> split <;> omega
      cases ht : dbl t with
      | none =>
        obtain ⟨d', h1, h2, h3⟩ := ih (c + 1) d L (by omega) hd hi
        rw [hlen] at h1
        refine ⟨d', h1, fun k hk => ?_, h3⟩
        rw [h2 k hk]
        rcases lt_trichotomy c k with h | h | h
        · rw [if_pos (by omega), if_pos (by omega)]
          obtain ⟨e, rfl⟩ : ∃ e, k = c + 1 + e := ⟨k - (c + 1), by omega⟩
          rw [show c + 1 + e - (c + 1) = e by omega, show c + 1 + e - c = e + 1 by omega]; simp
        · subst h; rw [if_neg (by omega), if_pos (by omega)]; simp [ht, upd]
        · rw [if_neg (by omega), if_neg (by omega)]
      | some v =>
        have hset : setCell d (names.getD c []) i v =
            .ok (fun m => if m = names.getD c [] then some ((L c).set i v) else d m) := by
          unfold setCell; rw [hd c hcl]; simp only; rw [if_pos (hi c hcl)]
        simp only [hset, Res.bind]
        obtain ⟨d', h1, h2, h3⟩ := ih (c + 1) (fun m => if m = names.getD c [] then some ((L c).set i v) else d m)
          (fun k => if k = c then (L c).set i v else L k) (by omega)
          (by
            intro k hk
            by_cases hkc : k = c
            · subst hkc; simp
            · have : names.getD k [] ≠ names.getD c [] := fun h => hkc (getD_inj hn hk hcl h)
              simp only [if_neg this, if_neg hkc, hd k hk])
          (by intro k hk; by_cases hkc : k = c
              · subst hkc; simpa using hi k hk
              · simpa [hkc] using hi k hk)
        rw [hlen] at h1
        refine ⟨d', h1, fun k hk => ?_, fun m hm => ?_⟩
        · rw [h2 k hk]
          rcases lt_trichotomy c k with h | h | h
          · obtain ⟨e, rfl⟩ : ∃ e, k = c + 1 + e := ⟨k - (c + 1), by omega⟩
            simp only [if_pos (show c + 1 ≤ c + 1 + e by omega), if_pos (show c ≤ c + 1 + e by omega),
              if_neg (show ¬ c + 1 + e = c by omega)]
            rw [show c + 1 + e - (c + 1) = e by omega, show c + 1 + e - c = e + 1 by omega]; simp
          · subst h
            simp only [if_neg (show ¬ c + 1 ≤ c by omega), if_true, le_refl]; simp [ht, upd]
          · simp only [if_neg (show ¬ c + 1 ≤ k by omega), if_neg (show ¬ k = c by omega), if_neg (show ¬ c ≤ k by omega)]
        · have hmc : m ≠ names.getD c [] := fun h => hm (by rw [h]; exact getD_mem' hcl)
          rw [h3 m hm]; simp only [if_neg hmc]

theorem upd_take (l : List V) (i : ℕ) (o : Option V) : (upd l i o).take i = l.take i := by
  cases o with
  | none => rfl
  | some v => simp [upd, List.take_set_of_le]

theorem upd_get_ne (l : List V) (i j : ℕ) (o : Option V) (h : i ≠ j) : (upd l i o)[j]? = l[j]? := by
  cases o <;> simp [upd, h]

theorem upd_get (l : List V) (i : ℕ) (o : Option V) (p : V) (h : l[i]? = some p) : (upd l i o)[i]? = some (o.getD p) := by
  cases o with
  | none => simp [upd, h]
  | some v =>
    have hi : i < l.length := by
      by_contra hc; rw [List.getElem?_eq_none (by omega)] at h; cases h
    simp [upd, hi]

theorem readRows_spec (dbl : Line → Option V) (zero : V) (delim : Char) {names : List Line} (hn : names.Nodup) (M : ℕ) (ls : List Line)
    (i : ℕ) (d : Data V) (L : ℕ → List V) (p : ℕ → V) (hM : i + ls.length ≤ M)
    (hd : ∀ k < names.length, d (names.getD k []) = some (L k)) (hlen : ∀ k < names.length, (L k).length = M)
    (hp : ∀ k < names.length, i < M → (L k)[i]? = some (p k))
    (hz : ∀ k < names.length, ∀ j, i < j → j < M → (L k)[j]? = some zero) :
    ∃ x, readRows dbl delim names i ls d = .ok x ∧ x.1 = i + (ls.filter (Good delim names.length)).length ∧
      (∀ k < names.length, ∃ L', x.2 (names.getD k []) = some L' ∧ L'.length = M ∧
        L'.take x.1 = (L k).take i ++ column dbl zero delim names.length k (p k) ls) ∧
      ∀ m, m ∉ names → x.2 m = d m := by
  induction ls generalizing i d L p with
  | nil =>
    refine ⟨(i, d), rfl, by simp, fun k hk => ⟨L k, hd k hk, hlen k hk, by simp [column]⟩, fun _ _ => rfl⟩
  | cons l ls ih =>
    rw [List.length_cons] at hM
    obtain ⟨d', h1, h2, h3⟩ := readRow_spec dbl hn i (tokens delim l) 0 d L (by omega) hd
      (fun k hk => by rw [hlen k hk]; omega)
    simp only [Nat.zero_add, Nat.zero_le, if_true, Nat.sub_zero] at h1 h2
    rw [readRows, h1]
    simp only [Res.bind]
    by_cases hg : (tokens delim l).length = names.length
    · have hgood : Good delim names.length l = true := by simp [Good, hg]
      have hcnt : (if (tokens delim l).length ≤ names.length then (tokens delim l).length else names.length + 1) = names.length := by
        rw [if_pos (by omega)]; exact hg
      simp only [hcnt, ne_eq, not_true_eq_false, if_false]
      obtain ⟨x, e1, e2, e3, e4⟩ := ih (i + 1) d' (fun k => upd (L k) i (cell dbl delim k l)) (fun _ => zero) (by omega) h2
        (fun k hk => by simp [hlen k hk])
        (fun k hk hi => by rw [upd_get_ne _ _ _ _ (by omega)]; exact hz k hk _ (by omega) hi)
        (fun k hk j hj hjM => by rw [upd_get_ne _ _ _ _ (by omega)]; exact hz k hk _ (by omega) hjM)
      refine ⟨x, e1, ?_, fun k hk => ?_, fun m hm => by rw [e4 m hm, h3 m hm]⟩
      · rw [e2, List.filter_cons_of_pos hgood]; simp; omega
      · obtain ⟨L', f1, f2, f3⟩ := e3 k hk
        refine ⟨L', f1, f2, ?_⟩
        rw [f3, column, if_pos hgood, List.take_succ, upd_take, upd_get _ _ _ _ (hp k hk (by omega))]
        simp
    · have hgood : Good delim names.length l = false := by simp [Good, hg]
      have hne : (if (tokens delim l).length ≤ names.length then (tokens delim l).length else names.length + 1) ≠ names.length := by
        split <;> omega
      rw [if_pos hne]
      obtain ⟨x, e1, e2, e3, e4⟩ := ih i d' (fun k => upd (L k) i (cell dbl delim k l)) (fun k => (cell dbl delim k l).getD (p k))
        (by omega) h2 (fun k hk => by simp [hlen k hk])
        (fun k hk hi => upd_get _ _ _ _ (hp k hk hi))
        (fun k hk j hj hjM => by rw [upd_get_ne _ _ _ _ (by omega)]; exact hz k hk _ (by omega) hjM)
      refine ⟨x, e1, ?_, fun k hk => ?_, fun m hm => by rw [e4 m hm, h3 m hm]⟩
      · rw [e2, List.filter_cons_of_neg (by simp [hgood])]
      · obtain ⟨L', f1, f2, f3⟩ := e3 k hk
        refine ⟨L', f1, f2, ?_⟩
        rw [f3, column, if_neg (by simp [hgood]), if_pos hk, upd_take]

/-! ## Header -/

/-- A line whose first visible character exists and does not look like a number. -/
def IsHeader (l : Line) : Prop := ∃ c, firstChar l = .ok c ∧ isNum c = false
/-- A line that looks like a row of numbers. -/
def IsData (l : Line) : Prop := ∃ c, firstChar l = .ok c ∧ isNum c = true

theorem checkHeader_spec (hs : List Line) (rows : List Line) (n : ℕ) (hh : ∀ l ∈ hs, IsHeader l)
    (hr : ∀ l, rows.head? = some l → IsData l) : checkHeader (hs ++ rows) n = .ok (n + hs.length) := by
  induction hs generalizing n with
  | nil =>
    cases rows with
    | nil => rfl
    | cons l r =>
      obtain ⟨c, h1, h2⟩ := hr l rfl
      simp [checkHeader, h1, h2]
  | cons l hs ih =>
    obtain ⟨c, h1, h2⟩ := hh l (by simp)
    rw [List.cons_append, checkHeader, h1, Res.bind_ok, h2]
    simp only [Bool.false_eq_true, if_false]
    rw [ih (n + 1) (fun l hl => hh l (by simp [hl]))]
    simp; omega

/-! ## C52 -/

/-- C52. For every file that consists of comment and header lines, none of them blank or starting like a number, with
distinct column names in the last of them, followed by any rows at all (corrupted, too short, too long, not numbers),
the first of which looks like a number: `read_csv` succeeds, writes outside no buffer, and each column is exactly
`column` of the rows (one entry for each row with the right number of tokens). -/
theorem c52_read (dbl : Line → Option V) (zero : V) (delim : Char) (hs : List Line) (h : Line) (rows : List Line)
    (hh : ∀ l ∈ hs ++ [h], IsHeader l) (hr : ∀ l, rows.head? = some l → IsData l) (hn : (getHeader h).Nodup) :
    ∃ D, readCsv dbl zero delim (hs ++ [h] ++ rows) = .ok (some D) ∧
      (∀ k, (hk : k < (getHeader h).length) → D (getHeader h)[k] =
        some (column dbl zero delim (getHeader h).length k zero rows)) ∧
      ∀ m, m ∉ getHeader h → D m = none := by
  unfold readCsv
  rw [checkHeader_spec (hs ++ [h]) rows 0 hh hr]
  simp only [Res.bind, Nat.zero_add, List.length_append, List.length_singleton, Nat.add_sub_cancel]
  rw [if_neg (by omega)]
  have hget : (hs ++ [h] ++ rows).getD hs.length [] = h := by simp [List.getD]
  have hdrop : (hs ++ [h] ++ rows).drop (hs.length + 1) = rows := by
    have := List.drop_left (l₁ := hs ++ [h]) (l₂ := rows); simpa using this
  rw [hget, hdrop]
  set names := getHeader h with hnames
  set M := hs.length + 1 + rows.length - 1 with hM
  have key := readRows_spec dbl zero delim hn M rows 0
    (fun n => if n ∈ names then some (List.replicate M zero) else none) (fun _ => List.replicate M zero) (fun _ => zero) (by omega)
    (fun k hk => by simp only [if_pos (getD_mem' hk)]) (fun k hk => by simp)
    (fun k hk hi => by simp [hi]) (fun k hk j hj hjM => by simp [hjM])
  obtain ⟨x, e1, e2, e3, e4⟩ := key
  rw [e1]
  refine ⟨_, rfl, fun k hk => ?_, fun m hm => ?_⟩
  · obtain ⟨L', f1, f2, f3⟩ := e3 k hk
    rw [List.getD_eq_getElem _ _ hk] at f1
    have hx : x.1 ≤ M := by
      have := List.length_filter_le (Good delim names.length) rows; omega
    simp only [if_pos (List.getElem_mem hk), f1, Option.map_some, resize, f2]
    rw [f3, show x.1 - M = 0 by omega]
    simp
  · simp only [if_neg hm]
    rw [e4 m hm, if_neg hm]

/-- C52. If every token of the rows with the right number of tokens is a number, each column has exactly the values of
these rows, in order; the skipped rows leave no trace. (Missing from the full claim: tokens that are no numbers, see
the finding below.) -/
theorem c52_clean_partial (dbl : Line → Option V) (zero : V) (delim : Char) (hs : List Line) (h : Line) (rows : List Line)
    (hh : ∀ l ∈ hs ++ [h], IsHeader l) (hr : ∀ l, rows.head? = some l → IsData l) (hn : (getHeader h).Nodup)
    (val : Line → ℕ → V)
    (hv : ∀ l ∈ rows, Good delim (getHeader h).length l = true → ∀ k < (getHeader h).length, cell dbl delim k l = some (val l k)) :
    ∃ D, readCsv dbl zero delim (hs ++ [h] ++ rows) = .ok (some D) ∧
      ∀ k, (hk : k < (getHeader h).length) → D (getHeader h)[k] =
        some ((rows.filter (Good delim (getHeader h).length)).map (fun l => val l k)) := by
  obtain ⟨D, h1, h2, -⟩ := c52_read dbl zero delim hs h rows hh hr hn
  refine ⟨D, h1, fun k hk => ?_⟩
  rw [h2 k hk]
  congr 1
  clear h1 h2 hr
  generalize hp : zero = p
  have : ∀ p, column dbl zero delim (getHeader h).length k p rows =
      (rows.filter (Good delim (getHeader h).length)).map (fun l => val l k) := by
    induction rows with
    | nil => intro p; rfl
    | cons l ls ih =>
      intro p
      rw [column]
      by_cases hg : Good delim (getHeader h).length l = true
      · rw [if_pos hg, List.filter_cons_of_pos hg, List.map_cons, hv l (by simp) hg k hk,
          ih (fun l hl => hv l (by simp [hl])) zero]
        rfl
      · rw [if_neg hg, List.filter_cons_of_neg hg, ih (fun l hl => hv l (by simp [hl]))]
  subst hp
  exact this zero

/-- The hypotheses of `c52_clean_partial` are met by a file with a comment, a header, a good row, a short row and a row
that is too long. -/
example : ∃ D, readCsv (fun l => some l.length) 0 ',' ["# x".toList, "a, b".toList, "1,22".toList, ['7'], "3,3,3".toList, "-5,6".toList] =
      .ok (some D) ∧ ∀ k, (hk : k < (getHeader "a, b".toList).length) → D (getHeader "a, b".toList)[k] =
        some (([("1,22".toList : Line), ['7'], "3,3,3".toList, "-5,6".toList].filter (Good ',' (getHeader "a, b".toList).length)).map
          (fun l => if k = 0 then l.length - 2 - (if l = "1,22".toList then 1 else 0) else if l = "1,22".toList then 2 else 1)) :=
  c52_clean_partial (fun l => some l.length) 0 ',' ["# x".toList] "a, b".toList ["1,22".toList, ['7'], "3,3,3".toList, "-5,6".toList]
    (by intro l hl
        have : l = "# x".toList ∨ l = "a, b".toList := by simpa using hl
        rcases this with rfl | rfl
        · exact ⟨'#', by decide, by decide⟩
        · exact ⟨'a', by decide, by decide⟩)
    (by intro l hl; cases hl; exact ⟨'1', by decide, by decide⟩) (by decide)
    (fun l k => if k = 0 then l.length - 2 - (if l = "1,22".toList then 1 else 0) else if l = "1,22".toList then 2 else 1) (by decide)

/-- C52, finding. A token that is no number takes the value of a *skipped* row: reading the columns a, b of the rows
`7` (too short, skipped) and `x,2` gives a = [7], although no accepted row contains 7 in column a. -/
theorem c52_leak_fails (dbl : Line → Option V) (zero v7 v2 : V) (h7 : dbl ['7'] = some v7) (h2 : dbl ['2'] = some v2)
    (hx : dbl ['x'] = none) :
    ∃ D, readCsv dbl zero ',' ["a,b".toList, ['7'], "x,2".toList] = .ok (some D) ∧ D ['a'] = some [v7] ∧ D ['b'] = some [v2] := by
  have hg : getHeader "a,b".toList = [['a'], ['b']] := by decide
  obtain ⟨D, e1, e2, -⟩ := c52_read dbl zero ',' [] "a,b".toList [['7'], "x,2".toList]
    (by intro l hl; simp at hl; subst hl; exact ⟨'a', by decide, by decide⟩)
    (by intro l hl; simp at hl; subst hl; exact ⟨'7', by decide, by decide⟩)
    (by rw [hg]; decide)
  have k0 := e2 0 (by rw [hg]; decide)
  have k1 := e2 1 (by rw [hg]; decide)
  simp only [hg] at k0 k1
  have t1 : tokens ',' ['7'] = [['7']] := by decide
  have t2 : tokens ',' ['x', ',', '2'] = [['x'], ['2']] := by decide
  refine ⟨D, e1, ?_, ?_⟩
  · have : [['a'], ['b']][0] = ['a'] := rfl
    rw [this] at k0
    rw [k0]; simp [column, Good, cell, t1, t2, h7, hx]
  · have : [['a'], ['b']][1] = ['b'] := rfl
    rw [this] at k1
    rw [k1]; simp [column, Good, cell, t1, t2, h2]

/-- C52, finding. A blank line before the first row of numbers is undefined behaviour. -/
theorem c52_blank_fails (dbl : Line → Option V) (zero : V) (delim : Char) (hs : List Line) (b : Line) (rest : List Line)
    (hh : ∀ l ∈ hs, IsHeader l) (hb : ∀ c ∈ b, c = ' ' ∨ c = '\t') : readCsv dbl zero delim (hs ++ b :: rest) = .ub := by
  have hc : ∀ n, checkHeader (hs ++ b :: rest) n = .ub := by
    induction hs with
    | nil =>
      intro n
      have : b.dropWhile (fun c => c = ' ' || c = '\t') = [] := by
        clear hh
        induction b with
        | nil => rfl
        | cons x b ih =>
          rw [List.dropWhile_cons_of_pos (by simpa using hb x (by simp)), ih (fun c hc => hb c (by simp [hc]))]
      simp [checkHeader, firstChar, this]
    | cons l hs ih =>
      intro n
      obtain ⟨c, h1, h2⟩ := hh l (by simp)
      rw [List.cons_append, checkHeader, h1, Res.bind_ok, h2]
      simp only [Bool.false_eq_true, if_false]
      exact ih (fun l hl => hh l (by simp [hl])) _
  unfold readCsv; rw [hc]; rfl

/-- C52. A file whose first line looks like a number has no header and is refused, as is an empty file. -/
theorem c52_no_header (dbl : Line → Option V) (zero : V) (delim : Char) (file : List Line) (h : ∀ l, file.head? = some l → IsData l) :
    readCsv dbl zero delim file = .ok none := by
  have := checkHeader_spec [] file 0 (by simp) h
  unfold readCsv
  rw [List.nil_append] at this
  rw [this]; rfl

/-! ## C61 -/

theorem toks_append (d : Char) (t r cur : Line) (h : d ∉ t) : toks d cur (t ++ r) = toks d (cur ++ t) r := by
  induction t generalizing cur with
  | nil => simp
  | cons c t ih =>
    simp only [List.mem_cons, not_or] at h
    rw [List.cons_append, toks, if_neg (fun hc => h.1 hc.symm), ih _ h.2]; simp

theorem tokens_join (d : Char) (ts : List Line) (h : ∀ t ∈ ts, d ∉ t ∧ t ≠ []) : tokens d (join d ts) = ts := by
  induction ts with
  | nil => rfl
  | cons a r ih =>
    cases r with
    | nil =>
      have ha := h a (by simp)
      have := toks_append d a [] [] ha.1
      simp only [List.append_nil, List.nil_append] at this
      simp only [tokens, join]
      rw [this, toks]; simp [ha.2]
    | cons b r =>
      have ha := h a (by simp)
      have e := ih (fun t ht => h t (by simp [ht]))
      unfold tokens at e ⊢
      rw [join, toks_append d a _ [] ha.1, toks]
      simp only [List.nil_append, if_true]
      rw [e]

theorem rowOf_ok (fmt : V → Line) (cols : List (Line × List V)) (r N : ℕ) (h : ∀ c ∈ cols, c.2.length = N) (hr : r < N) (z : V) :
    rowOf fmt cols r = .ok (cols.map (fun c => fmt (c.2.getD r z))) := by
  induction cols with
  | nil => rfl
  | cons c cs ih =>
    have hc : r < c.2.length := by rw [h c (by simp)]; exact hr
    rw [rowOf, List.getElem?_eq_getElem hc]
    simp only
    rw [ih (fun c hc => h c (by simp [hc]))]
    simp [Res.bind, List.getElem?_eq_getElem hc]

theorem rowsOf_ok (fmt : V → Line) (d : Char) (cols : List (Line × List V)) (N : ℕ) (h : ∀ c ∈ cols, c.2.length = N) (z : V) (n r : ℕ)
    (hr : r + n ≤ N) :
    rowsOf fmt d cols n r = .ok ((List.range' r n).map (fun i => join d (cols.map (fun c => fmt (c.2.getD i z))))) := by
  induction n generalizing r with
  | zero => rfl
  | succ n ih =>
    rw [rowsOf, rowOf_ok fmt cols r N h (by omega) z]
    simp only [Res.bind]
    rw [ih (r + 1) (by omega)]
    simp [List.range'_succ]

theorem filter_noSpace (l : Line) (h : ∀ c ∈ l, isSpace c = false) : l.filter (fun c => !isSpace c) = l := by
  rw [List.filter_eq_self]; intro c hc; simp [h c hc]

theorem firstChar_cons (c : Char) (r : Line) (h : isSpace c = false) : firstChar (c :: r) = .ok c := by
  have : (c = ' ' || c = '\t' : Bool) = false := by
    simp only [isSpace, Bool.or_eq_false_iff] at h ⊢
    exact h.1.1.1.1
  unfold firstChar
  rw [List.dropWhile_cons, this]
  rfl

theorem join_head (d : Char) (a : Line) (r : List Line) (c : Char) (s : Line) (h : a = c :: s) : ∃ s', join d (a :: r) = c :: s' := by
  cases r with
  | nil => exact ⟨s, h⟩
  | cons b r => exact ⟨s ++ d :: join d (b :: r), by rw [join, h]; rfl⟩

/-- Names that `write_csv`/`read_csv` can transport: non-empty, without spaces and without the comma. -/
def NameOk (n : Line) : Prop := n ≠ [] ∧ ',' ∉ n ∧ ∀ c ∈ n, isSpace c = false

/-- C61. For every non-empty table with distinct transportable names (the first not starting like a number) and columns
of equal length, whose numbers are printed without the comma, not empty, the first column's starting with a digit or a
sign: what `write_csv` writes with the default delimiter is read back by `read_csv` with every column at its name, every
value as its printed text reads (`rt`). -/
theorem c61_roundtrip (fmt : V → Line) (dbl : Line → Option V) (rt : V → V) (zero : V) (cols : List (Line × List V)) (c0 : Line × List V)
    (cs : List (Line × List V)) (hcols : cols = c0 :: cs) (hnames : ∀ c ∈ cols, NameOk c.1) (hnd : (cols.map (·.1)).Nodup)
    (hfirst : ∀ c, c0.1.head? = some c → isNum c = false) (N : ℕ) (hN : ∀ c ∈ cols, c.2.length = N)
    (hfmt : ∀ v, fmt v ≠ [] ∧ ',' ∉ fmt v) (hdbl : ∀ v, dbl (fmt v) = some (rt v))
    (hnum : ∀ v ∈ c0.2, ∃ c, (fmt v).head? = some c ∧ isNum c = true) :
    ∃ file D, writeCsv fmt ',' cols = .ok file ∧ readCsv dbl zero ',' file = .ok (some D) ∧
      (∀ c ∈ cols, D c.1 = some (c.2.map rt)) ∧ ∀ m, m ∉ cols.map (·.1) → D m = none := by
  have hw : writeCsv fmt ',' cols = .ok (join ',' (cols.map (·.1)) ::
      (List.range' 0 N).map (fun i => join ',' (cols.map (fun c => fmt (c.2.getD i zero))))) := by
    subst hcols
    rw [writeCsv, rowsOf_ok fmt ',' (c0 :: cs) N hN zero _ 0 (by rw [hN c0 (by simp)]; omega), hN c0 (by simp)]
    rfl
  set rows := (List.range' 0 N).map (fun i => join ',' (cols.map (fun c => fmt (c.2.getD i zero)))) with hrows
  have hhead : getHeader (join ',' (cols.map (·.1))) = cols.map (·.1) := by
    unfold getHeader
    rw [tokens_join]
    · rw [List.map_map]
      apply List.map_congr_left
      intro c hc
      exact filter_noSpace _ (hnames c hc).2.2
    · intro t ht
      obtain ⟨c, hc, rfl⟩ := List.mem_map.mp ht
      exact ⟨(hnames c hc).2.1, (hnames c hc).1⟩
  have hisH : IsHeader (join ',' (cols.map (·.1))) := by
    have h0 := hnames c0 (by simp [hcols])
    obtain ⟨ch, s, hs⟩ := List.exists_cons_of_ne_nil h0.1
    subst hcols
    obtain ⟨s', e⟩ := join_head ',' c0.1 (cs.map (·.1)) ch s hs
    refine ⟨ch, ?_, hfirst ch (by rw [hs]; rfl)⟩
    rw [List.map_cons, e]
    exact firstChar_cons _ _ (h0.2.2 ch (by rw [hs]; simp))
  have hisD : ∀ l, rows.head? = some l → IsData l := by
    intro l hl
    have hmem : l ∈ rows := by
      cases hr' : rows with
      | nil => rw [hr'] at hl; cases hl
      | cons a b => rw [hr'] at hl; cases hl; simp
    obtain ⟨i, hi, rfl⟩ := List.mem_map.mp hmem
    simp only [List.mem_range', Nat.one_mul] at hi
    obtain ⟨i', hi', rfl⟩ := hi
    have hlt : 0 + i' < c0.2.length := by rw [hN c0 (by simp [hcols])]; omega
    obtain ⟨ch, h1, h2⟩ := hnum (c0.2.getD (0 + i') zero) (by rw [List.getD_eq_getElem _ _ hlt]; exact List.getElem_mem hlt)
    obtain ⟨s, hs⟩ : ∃ s, fmt (c0.2.getD (0 + i') zero) = ch :: s := by
      cases hf : fmt (c0.2.getD (0 + i') zero) with
      | nil => rw [hf] at h1; cases h1
      | cons a b => rw [hf] at h1; cases h1; exact ⟨b, rfl⟩
    subst hcols
    obtain ⟨s', e⟩ := join_head ',' _ (cs.map (fun c => fmt (c.2.getD (0 + i') zero))) ch s hs
    refine ⟨ch, ?_, h2⟩
    rw [List.map_cons, e]
    apply firstChar_cons
    by_contra hsp
    simp only [Bool.not_eq_false] at hsp
    simp only [isSpace, Bool.or_eq_true, decide_eq_true_eq] at hsp
    rcases hsp with ((((h | h) | h) | h) | h) | h <;> (subst h; revert h2; decide)
  obtain ⟨D, e1, e2, e3⟩ := c52_read dbl zero ',' [] (join ',' (cols.map (·.1))) rows
    (by intro l hl; simp at hl; subst hl; exact hisH) hisD (by rw [hhead]; exact hnd)
  refine ⟨_, D, hw, e1, fun c hc => ?_, fun m hm => e3 m (by rw [hhead]; exact hm)⟩
  obtain ⟨k, hk, hck⟩ := List.getElem_of_mem hc
  have hk' : k < (getHeader (join ',' (cols.map (·.1)))).length := by rw [hhead]; simpa using hk
  have := e2 k hk'
  simp only [hhead, List.getElem_map, hck, List.length_map] at this
  rw [this]
  congr 1
  -- the column
  have htok : ∀ i, tokens ',' (join ',' (cols.map (fun c => fmt (c.2.getD i zero)))) = cols.map (fun c => fmt (c.2.getD i zero)) := by
    intro i
    apply tokens_join
    intro t ht
    obtain ⟨c, -, rfl⟩ := List.mem_map.mp ht
    exact ⟨(hfmt _).2, (hfmt _).1⟩
  have hcol : ∀ (n r : ℕ) (p : V), column dbl zero ',' cols.length k p
      ((List.range' r n).map (fun i => join ',' (cols.map (fun c => fmt (c.2.getD i zero))))) =
      (List.range' r n).map (fun i => rt (c.2.getD i zero)) := by
    intro n
    induction n with
    | zero => intro r p; rfl
    | succ n ih =>
      intro r p
      rw [List.range'_succ, List.map_cons, column, if_pos (by unfold Good; rw [htok]; simp), List.map_cons, ih]
      congr 1
      unfold cell; rw [htok]; simp [hk, hck, hdbl]
  rw [hrows, hcol]
  apply List.ext_getElem
  · simp [hN c hc]
  · intro i h1 h2
    have hi : i < c.2.length := by simpa using h2
    simp [hi]

/-- The hypotheses of `c61_roundtrip` are met by a table with two columns and two rows; every value comes back. -/
example : ∃ file D, writeCsv (fun b : Bool => if b then ['1'] else ['-', '0']) ',' [(['t'], [true, false]), (['x'], [false, true])] = .ok file ∧
    readCsv (fun l => if l = ['1'] then some true else if l = ['-', '0'] then some false else none) false ',' file = .ok (some D) ∧
    (∀ c ∈ [(['t'], [true, false]), (['x'], [false, true])], D c.1 = some (c.2.map id)) ∧
    ∀ m, m ∉ [(['t'], [true, false]), (['x'], [false, true])].map (·.1) → D m = none :=
  c61_roundtrip _ _ id false _ _ _ rfl
    (by intro c hc; simp at hc; rcases hc with rfl | rfl <;> exact ⟨by decide, by decide, by decide⟩) (by decide)
    (by intro c hc; simp at hc; subst hc; decide) 2 (by intro c hc; simp at hc; rcases hc with rfl | rfl <;> rfl)
    (by decide) (by decide) (by intro v _; cases v <;> exact ⟨_, rfl, by decide⟩)

/-- **C61 for a single row**: every value is read back under its name, as the only one. -/
theorem c61_row (fmt : V → Line) (dbl : Line → Option V) (rt : V → V) (zero : V) (c0 : Line × V) (cs : List (Line × V))
    (hnames : ∀ c ∈ c0 :: cs, NameOk c.1) (hnd : ((c0 :: cs).map (·.1)).Nodup)
    (hfirst : ∀ c, c0.1.head? = some c → isNum c = false)
    (hfmt : ∀ v, fmt v ≠ [] ∧ ',' ∉ fmt v) (hdbl : ∀ v, dbl (fmt v) = some (rt v))
    (hnum : ∃ c, (fmt c0.2).head? = some c ∧ isNum c = true) :
    ∃ file D, writeRow fmt ',' (c0 :: cs) = .ok file ∧ readCsv dbl zero ',' file = .ok (some D) ∧
      (∀ c ∈ c0 :: cs, D c.1 = some [rt c.2]) ∧ ∀ m, m ∉ (c0 :: cs).map (·.1) → D m = none := by
  obtain ⟨file, D, h1, h2, h3, h4⟩ := c61_roundtrip fmt dbl rt zero ((c0 :: cs).map fun x => (x.1, [x.2])) (c0.1, [c0.2])
    (cs.map fun x => (x.1, [x.2])) rfl
    (by intro c hc; obtain ⟨x, hx, rfl⟩ := List.mem_map.1 hc; exact hnames x hx)
    (by rw [List.map_map]; exact hnd) hfirst 1
    (by intro c hc; obtain ⟨x, hx, rfl⟩ := List.mem_map.1 hc; rfl) hfmt hdbl
    (by intro v hv; simp only [List.mem_singleton] at hv; subst hv; exact hnum)
  refine ⟨file, D, h1, h2, fun c hc => ?_, fun m hm => h4 m (by rw [List.map_map]; exact hm)⟩
  exact h3 (c.1, [c.2]) (List.mem_map.2 ⟨c, hc, rfl⟩)

/-- C61, finding. With a delimiter other than the comma `read_csv` does not find the columns `write_csv` wrote: the header
is always split at commas. Two columns `a`, `b`, any delimiter that is neither a comma nor a space nor occurs in the
names: the result has one empty column named `a` delim `b`. -/
theorem c61_delim_fails (fmt : V → Line) (dbl : Line → Option V) (zero : V) (d : Char) (hd : d ≠ ',') (hs : isSpace d = false)
    (hda : d ≠ 'a') (va vb : V) (hf : ∀ v, fmt v ≠ [] ∧ d ∉ fmt v) (hnum : ∃ c, (fmt va).head? = some c ∧ isNum c = true) :
    ∃ file D, writeCsv fmt d [(['a'], [va]), (['b'], [vb])] = .ok file ∧ readCsv dbl zero d file = .ok (some D) ∧
      D ['a'] = none ∧ D ['b'] = none ∧ D ['a', d, 'b'] = some [] := by
  obtain ⟨ch, h1, h2⟩ := hnum
  obtain ⟨s, hs'⟩ : ∃ s, fmt va = ch :: s := by
    cases hfa : fmt va with
    | nil => rw [hfa] at h1; cases h1
    | cons a b => rw [hfa] at h1; cases h1; exact ⟨b, rfl⟩
  have hw : writeCsv fmt d [(['a'], [va]), (['b'], [vb])] = .ok [['a', d, 'b'], fmt va ++ d :: fmt vb] := by
    simp [writeCsv, rowsOf, rowOf, Res.bind, join]
  have hh : getHeader ['a', d, 'b'] = [['a', d, 'b']] := by
    have ha : isSpace 'a' = false := by decide
    have hb : isSpace 'b' = false := by decide
    simp [getHeader, tokens, toks, hd, hs, ha, hb]
  have hsp : isSpace ch = false := by
    by_contra hsp
    simp only [Bool.not_eq_false] at hsp
    simp only [isSpace, Bool.or_eq_true, decide_eq_true_eq] at hsp
    rcases hsp with ((((h | h) | h) | h) | h) | h <;> (subst h; revert h2; decide)
  obtain ⟨D, e1, e2, e3⟩ := c52_read dbl zero d [] ['a', d, 'b'] [fmt va ++ d :: fmt vb]
    (by intro l hl; simp at hl; subst hl; exact ⟨'a', firstChar_cons _ _ (by decide), by decide⟩)
    (by intro l hl; simp at hl; subst hl; refine ⟨ch, ?_, h2⟩; rw [hs']; exact firstChar_cons _ _ hsp)
    (by rw [hh]; simp)
  refine ⟨_, D, hw, e1, e3 _ (by rw [hh]; simp), e3 _ (by rw [hh]; simp), ?_⟩
  have k0 := e2 0 (by rw [hh]; simp)
  simp only [hh, List.getElem_cons_zero] at k0
  rw [k0]
  have ht : tokens d (fmt va ++ d :: fmt vb) = [fmt va, fmt vb] := by
    have := tokens_join d [fmt va, fmt vb] (by intro t ht; simp at ht; rcases ht with rfl | rfl <;> exact ⟨(hf _).2, (hf _).1⟩)
    simpa [join] using this
  simp [column, Good, ht]

/-- C61, finding. A first value whose text starts with a letter (`nan`, `inf`) makes its row part of the header: the
column name is lost. -/
theorem c61_nan_fails (fmt : V → Line) (dbl : Line → Option V) (zero vnan : V) (hf : fmt vnan = "nan".toList) :
    ∃ file D, writeCsv fmt ',' [("t".toList, [vnan])] = .ok file ∧ readCsv dbl zero ',' file = .ok (some D) ∧
      D "t".toList = none ∧ D "nan".toList = some [] := by
  have hw : writeCsv fmt ',' [("t".toList, [vnan])] = .ok ["t".toList, "nan".toList] := by
    simp [writeCsv, rowsOf, rowOf, Res.bind, join, hf]
  have hh : getHeader "nan".toList = ["nan".toList] := by decide
  obtain ⟨D, e1, e2, e3⟩ := c52_read dbl zero ',' ["t".toList] "nan".toList []
    (by intro l hl
        have : l = "t".toList ∨ l = "nan".toList := by simpa using hl
        rcases this with rfl | rfl
        · exact ⟨'t', by decide, by decide⟩
        · exact ⟨'n', by decide, by decide⟩)
    (by simp) (by rw [hh]; simp)
  refine ⟨_, D, hw, e1, e3 _ (by rw [hh]; decide), ?_⟩
  have k0 := e2 0 (by rw [hh]; simp)
  simp only [hh, List.getElem_cons_zero] at k0
  rw [k0]; rfl

/-- C61, finding. A column shorter than the first one is undefined behaviour. -/
theorem c61_ragged_fails (fmt : V → Line) (d : Char) (na nb : Line) (v : V) : writeCsv fmt d [(na, [v]), (nb, [])] = .ub := by
  simp [writeCsv, rowsOf, rowOf, Res.bind]

end Csv
end Ikf
