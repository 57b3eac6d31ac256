import Verif.Model.PathStr
import Mathlib.Data.List.Infix
import Mathlib.Tactic.Linarith

/-! # Properties C96 (splitting strings, cleaning paths) and C97 (parts of a path) -/

namespace Ikf
namespace PathStr

/-! ## Specification -/

/-- The pieces of a string between the delimiters, found from the left. -/
inductive Split (d : Str) : Str → List Str → Prop
  | last (s : Str) : ¬ d <:+: s → Split d s [s]
  | cons (p r : Str) (L : List Str) : (∀ k < p.length, ¬ d <+: (p ++ d ++ r).drop k) → Split d r L → Split d (p ++ d ++ r) (p :: L)

/-- The string with every slash left out that follows another. -/
def collapse : Str → Str
  | [] => []
  | [c] => [c]
  | c :: e :: r => if c = '/' ∧ e = '/' then collapse (e :: r) else c :: collapse (e :: r)

/-! ## Searching -/

theorem find_some {d s : Str} {prev p : ℕ} : find d s prev = some p ↔
    prev ≤ p ∧ p ≤ s.length ∧ d <+: s.drop p ∧ ∀ q, prev ≤ q → q < p → ¬ d <+: s.drop q := by
  unfold find
  rw [List.find?_range_eq_some]
  simp only [List.mem_range, Bool.and_eq_true, decide_eq_true_eq, List.isPrefixOf_iff_prefix]
  constructor
  · rintro ⟨⟨h1, h2⟩, h3, h4⟩
    refine ⟨h1, by omega, h2, ?_⟩
    intro q hq1 hq2 hq3
    have := h4 q hq2
    rw [List.isPrefixOf_iff_prefix.mpr hq3] at this
    simp [hq1] at this
  · rintro ⟨h1, h2, h3, h4⟩
    refine ⟨⟨h1, h3⟩, by omega, ?_⟩
    intro q hq
    by_cases hp : prev ≤ q
    · have := h4 q hp hq
      rw [← List.isPrefixOf_iff_prefix, Bool.not_eq_true] at this
      simp [this]
    · simp [hp]

theorem find_none {d s : Str} {prev : ℕ} : find d s prev = none ↔ ∀ q, prev ≤ q → q ≤ s.length → ¬ d <+: s.drop q := by
  unfold find
  rw [List.find?_range_eq_none]
  constructor
  · intro h q h1 h2 h3
    have := h q (by omega)
    rw [List.isPrefixOf_iff_prefix.mpr h3] at this
    simp [h1] at this
  · intro h q h1
    by_cases hp : prev ≤ q
    · have := h q hp (by omega)
      rw [← List.isPrefixOf_iff_prefix, Bool.not_eq_true] at this
      simp [this]
    · simp [hp]

theorem infix_iff_drop {d s : Str} : d <:+: s ↔ ∃ q ≤ s.length, d <+: s.drop q := by
  constructor
  · rintro ⟨a, b, rfl⟩
    exact ⟨a.length, by simp, ⟨b, by simp⟩⟩
  · rintro ⟨q, -, h⟩
    exact h.isInfix.trans (List.drop_suffix q s).isInfix

/-! ## Tokens -/

theorem Split.ne_nil {d s : Str} {L : List Str} (h : Split d s L) : L ≠ [] := by
  cases h <;> simp

/-- The pieces exist. -/
theorem split_exists {d : Str} (hd : d ≠ []) (s : Str) : ∃ L, Split d s L := by
  induction h : s.length using Nat.strong_induction_on generalizing s with
  | _ n ih =>
    subst h
    cases hf : find d s 0 with
    | none =>
      refine ⟨_, .last s ?_⟩
      rw [infix_iff_drop]
      rintro ⟨q, h1, h2⟩
      exact find_none.mp hf q (Nat.zero_le _) h1 h2
    | some p =>
      obtain ⟨-, hp, ⟨r, hr⟩, hmin⟩ := find_some.mp hf
      have hs : s = s.take p ++ d ++ r := by rw [List.append_assoc, hr, List.take_append_drop]
      have hl : r.length < s.length := by
        have := congrArg List.length hs
        simp at this
        have := List.length_pos_iff.mpr hd
        omega
      obtain ⟨L, hL⟩ := ih r.length hl r rfl
      refine ⟨s.take p :: L, ?_⟩
      have := Split.cons (d := d) (s.take p) r L ?_ hL
      · rwa [← hs] at this
      · intro k hk
        rw [← hs]
        have : k < p := by simp at hk; omega
        exact hmin k (Nat.zero_le _) this

/-- The pieces are determined. -/
theorem split_unique {d : Str} {s : Str} {L M : List Str} (hL : Split d s L) (hM : Split d s M) : L = M := by
  induction hL generalizing M with
  | last s h =>
    cases hM with
    | last => rfl
    | cons p r L h1 h2 => exact absurd ⟨p, r, rfl⟩ h
  | cons p r L h1 h2 ih =>
    generalize hs : p ++ d ++ r = s at hM
    cases hM with
    | last _ h => exact absurd ⟨p, r, hs⟩ h
    | cons p' r' L' h1' h2' =>
      have hlen : p.length = p'.length := by
        rcases lt_trichotomy p.length p'.length with h | h | h
        · refine absurd ?_ (h1' p.length h)
          rw [← hs]
          exact ⟨r, by simp⟩
        · exact h
        · refine absurd ?_ (h1 p'.length h)
          rw [hs]
          exact ⟨r', by simp⟩
      rw [List.append_assoc, List.append_assoc] at hs
      obtain ⟨e1, e2⟩ := List.append_inj hs hlen
      obtain ⟨-, e3⟩ := List.append_inj e2 rfl
      subst e3
      rw [e1, ih h2']

theorem loop_split {d : Str} (hd : d ≠ []) (s : Str) (prev : ℕ) (hp : prev ≤ s.length) (L : List Str) (hL : Split d (s.drop prev) L) (acc : List Str)
    (fuel : ℕ) (hf : s.length - prev < fuel) : tokLoop d s fuel prev acc = some (acc ++ L.filter (fun t => !t.isEmpty)) := by
  induction fuel generalizing prev L acc with
  | zero => omega
  | succ fuel ih =>
    have hdl := List.length_pos_iff.mpr hd
    have happ : ∀ t : Str, (if t = [] then acc else acc ++ [t]) = acc ++ [t].filter (fun t => !t.isEmpty) := by
      intro t
      by_cases ht : t = []
      · simp [ht]
      · simp [ht]
    unfold tokLoop
    cases hfd : find d s prev with
    | none =>
      have hno : ¬ d <:+: s.drop prev := by
        rw [infix_iff_drop]
        rintro ⟨q, h1, h2⟩
        rw [List.drop_drop] at h2
        exact find_none.mp hfd (prev + q) (by omega) (by simp at h1; omega) h2
      have e : L = [s.drop prev] := split_unique hL (.last _ hno)
      have hpos : tokPos d s prev = s.length := by unfold tokPos; rw [hfd]
      simp only [hpos, lt_irrefl, false_and, if_false]
      rw [happ, e, List.take_of_length_le (by simp)]
    | some p =>
      obtain ⟨h1, h2, ⟨r, hr⟩, hmin⟩ := find_some.mp hfd
      have hp0 : ¬ (p = 0 ∧ prev ≠ 0) := by omega
      have hdrop : r = s.drop (p + d.length) := by
        rw [← List.drop_drop, ← hr]; simp
      have hlt : p + d.length ≤ s.length := by
        have := congrArg List.length hr
        simp at this
        omega
      have hs : s.drop prev = (s.drop prev).take (p - prev) ++ d ++ r := by
        have e1 : (s.drop prev).drop (p - prev) = s.drop p := by rw [List.drop_drop]; congr 1; omega
        rw [List.append_assoc, hr, ← e1, List.take_append_drop]
      obtain ⟨M, hM⟩ := split_exists hd r
      have hc : Split d (s.drop prev) ((s.drop prev).take (p - prev) :: M) := by
        have := Split.cons (d := d) ((s.drop prev).take (p - prev)) r M ?_ hM
        · rwa [← hs] at this
        · intro k hk
          rw [← hs, List.drop_drop]
          exact hmin (prev + k) (by omega) (by simp at hk; omega)
      have e : L = (s.drop prev).take (p - prev) :: M := split_unique hL hc
      have hpos : tokPos d s prev = p := by unfold tokPos; rw [hfd]; exact if_neg hp0
      simp only [hpos]
      rw [happ, e]
      by_cases hend : p + d.length < s.length
      · rw [if_pos ⟨by omega, hend⟩, ih (p + d.length) hlt M (by rw [← hdrop]; exact hM) _ (by omega)]
        rw [List.append_assoc, ← List.filter_append, List.singleton_append]
      · rw [if_neg (by omega)]
        have hr0 : r = [] := by rw [hdrop, List.drop_eq_nil_iff]; omega
        have hM0 : M = [[]] := by
          rw [hr0] at hM
          exact split_unique hM (.last [] fun hh => hd (List.infix_nil.mp hh))
        rw [hM0, List.filter_cons (xs := [[]]), List.filter_cons (xs := [])]
        simp

theorem tokLoop_mono {d s : Str} {n k prev : ℕ} {acc r : List Str} (h : tokLoop d s n prev acc = some r) (hk : n ≤ k) : tokLoop d s k prev acc = some r := by
  induction n generalizing k prev acc with
  | zero => simp [tokLoop] at h
  | succ n ih =>
    obtain ⟨k, rfl⟩ : ∃ j, k = j + 1 := ⟨k - 1, by omega⟩
    rw [tokLoop] at h ⊢
    split at h
    · rename_i hc
      rw [if_pos hc]
      exact ih h (by omega)
    · rename_i hc
      rw [if_neg hc]
      exact h

theorem getTokens_unique {s d : Str} {r r' : List Str} (h : GetTokens s d r) (h' : GetTokens s d r') : r = r' := by
  obtain ⟨n, hn⟩ := h
  obtain ⟨k, hk⟩ := h'
  have := tokLoop_mono hn (Nat.le_max_left n k)
  rw [tokLoop_mono hk (Nat.le_max_right n k)] at this
  exact (Option.some.inj this).symm

/-- C96. With a delimiter that is not empty, `getTokens` ends for every string and returns exactly the pieces between the delimiters that are
not empty, in their order. -/
theorem c96_tokens_partial {d : Str} (hd : d ≠ []) (s : Str) : ∃ L, Split d s L ∧ (∀ M, Split d s M → M = L) ∧
    ∀ r, GetTokens s d r ↔ r = L.filter (fun t => t ≠ []) := by
  obtain ⟨L, hL⟩ := split_exists hd s
  have h := loop_split hd s 0 (Nat.zero_le _) L (by simpa using hL) [] (s.length + 1) (by omega)
  have e : L.filter (fun t => !t.isEmpty) = L.filter (fun t => t ≠ []) := by
    refine List.filter_congr fun t _ => ?_
    cases t <;> simp
  rw [List.nil_append, e] at h
  refine ⟨L, hL, fun M hM => split_unique hM hL, fun r => ⟨fun hr => getTokens_unique hr ⟨_, h⟩, ?_⟩⟩
  rintro rfl
  exact ⟨_, h⟩

/-- C96 in full is false: with an empty delimiter and a string that is not empty `getTokens` never returns. -/
theorem c96_tokens_fails {s : Str} (hs : s ≠ []) : ¬ ∃ r, GetTokens s [] r := by
  rintro ⟨r, n, h⟩
  have key : ∀ n acc, tokLoop [] s n 0 acc = none := by
    intro n
    induction n with
    | zero => intro _; rfl
    | succ n ih =>
      intro acc
      have hf : find [] s 0 = some 0 := find_some.mpr ⟨le_rfl, Nat.zero_le _, by simp, by omega⟩
      unfold tokLoop
      have hpos : tokPos [] s 0 = 0 := by unfold tokPos; rw [hf]; simp
      have := List.length_pos_iff.mpr hs
      simp [hpos, this, ih]
  rw [key] at h
  exact absurd h (by simp)

/-- C96. For one character as delimiter: the tokens are not empty, none contains the delimiter, and together they are the string without
its delimiters. -/
theorem c96_tokens_char (c : Char) (s : Str) : ∃ r, GetTokens s [c] r ∧ (∀ t ∈ r, t ≠ [] ∧ c ∉ t) ∧ r.flatten = s.filter (· ≠ c) := by
  obtain ⟨L, hL, -, hr⟩ := c96_tokens_partial (d := [c]) (by simp) s
  refine ⟨_, (hr _).mpr rfl, ?_⟩
  have key : (∀ t ∈ L, c ∉ t) ∧ L.flatten = s.filter (· ≠ c) := by
    clear hr
    induction hL with
    | last s h =>
      have hc : c ∉ s := fun hm => h (by
        obtain ⟨a, b, rfl⟩ := List.append_of_mem hm
        exact ⟨a, b, by simp⟩)
      refine ⟨by simpa using hc, ?_⟩
      rw [List.flatten_singleton]
      exact (List.filter_eq_self.mpr fun x hx => by simpa using fun (e : x = c) => hc (e ▸ hx)).symm
    | cons p r L h1 h2 ih =>
      have hc : c ∉ p := by
        intro hm
        obtain ⟨a, b, rfl⟩ := List.append_of_mem hm
        exact h1 a.length (by simp) ⟨b ++ [c] ++ r, by simp⟩
      refine ⟨?_, ?_⟩
      · intro t ht
        rcases List.mem_cons.mp ht with rfl | ht
        · exact hc
        · exact ih.1 t ht
      · rw [List.flatten_cons, ih.2]
        have : p.filter (· ≠ c) = p := List.filter_eq_self.mpr fun x hx => by simpa using fun (e : x = c) => hc (e ▸ hx)
        rw [List.filter_append, List.filter_append, this]
        simp
  constructor
  · intro t ht
    rw [List.mem_filter] at ht
    exact ⟨by simpa using ht.2, key.1 t ht.1⟩
  · rw [← key.2]
    clear hL hr key
    induction L with
    | nil => rfl
    | cons t L ih =>
      rw [List.filter_cons]
      by_cases ht : t = []
      · simp [ht]; simpa using ih
      · simp [ht]; simpa using ih

/-- C96. `getFirstToken` is the string up to the first delimiter, or all of it. -/
theorem c96_first {d : Str} (hd : d ≠ []) (s : Str) : ∃ L, Split d s L ∧ L.head? = some (getFirstToken s d) := by
  obtain ⟨L, hL⟩ := split_exists hd s
  refine ⟨L, hL, ?_⟩
  unfold getFirstToken
  cases hf : find d s 0 with
  | none =>
    have : L = [s] := split_unique hL (.last _ (by
      rw [infix_iff_drop]
      rintro ⟨q, h1, h2⟩
      exact find_none.mp hf q (Nat.zero_le _) h1 h2))
    simp [this]
  | some p =>
    obtain ⟨-, hp, ⟨r, hr⟩, hmin⟩ := find_some.mp hf
    have hs : s = s.take p ++ d ++ r := by rw [List.append_assoc, hr, List.take_append_drop]
    obtain ⟨M, hM⟩ := split_exists hd r
    have hc := Split.cons (d := d) (s.take p) r M (by
      intro k hk
      rw [← hs]
      exact hmin k (Nat.zero_le _) (by simp at hk; omega)) hM
    rw [← hs] at hc
    rw [split_unique hL hc]
    rfl

/-! ## Cleaning a path -/

theorem collapse_of_no {s : Str} (h : ¬ ['/', '/'] <:+: s) : collapse s = s := by
  induction s with
  | nil => rfl
  | cons c s ih =>
    cases s with
    | nil => rfl
    | cons e r =>
      have h1 : ¬ (c = '/' ∧ e = '/') := by
        rintro ⟨rfl, rfl⟩
        exact h ⟨[], r, rfl⟩
      rw [collapse, if_neg h1, ih (fun hh => h (hh.trans (List.suffix_cons c _).isInfix))]

theorem collapse_step (a b : Str) : collapse (a ++ '/' :: '/' :: b) = collapse (a ++ '/' :: b) := by
  induction a with
  | nil => simp [collapse]
  | cons c a ih =>
    cases a with
    | nil =>
      by_cases hc : c = '/' <;> simp [collapse, hc]
    | cons e r =>
      simp only [List.cons_append] at ih ⊢
      rw [collapse, ih, collapse]

theorem collapse_no (s : Str) : ¬ ['/', '/'] <:+: collapse s := by
  induction s with
  | nil => simp [collapse]
  | cons c s ih =>
    cases s with
    | nil =>
      intro h
      have := h.length_le
      simp [collapse] at this
    | cons e r =>
      rw [collapse]
      split
      · exact ih
      · rename_i h
        intro hh
        rcases List.infix_cons_iff.mp hh with hp | hi
        · have hc : c = '/' := (List.cons_prefix_cons.mp hp).1.symm
          have hp2 := (List.cons_prefix_cons.mp hp).2
          have hhead : (collapse (e :: r)).head? = some e := by
            clear hh hp hp2 ih h
            induction r generalizing e with
            | nil => rfl
            | cons f r ih =>
              rw [collapse]
              split
              · rename_i h; rw [ih f, h.1, h.2]
              · rfl
          cases hcol : collapse (e :: r) with
          | nil => rw [hcol] at hhead; simp at hhead
          | cons x y =>
            rw [hcol] at hhead hp2
            have : x = e := by simpa using hhead
            have : '/' = x := (List.cons_prefix_cons.mp hp2).1
            exact h ⟨hc, by rw [← ‹x = e›, ← this]⟩
        · exact ih hi

theorem collapse_chars (s : Str) : (collapse s).filter (· ≠ '/') = s.filter (· ≠ '/') := by
  induction s with
  | nil => rfl
  | cons c s ih =>
    cases s with
    | nil => rfl
    | cons e r =>
      rw [collapse]
      split
      · rename_i h; rw [ih, h.1]; simp
      · rw [List.filter_cons, ih, List.filter_cons (x := c)]

/-- C96. `checkPathString` ends for every string; the result is the string with every slash left out that follows another: it contains no
double slash, and no other character is lost. -/
theorem c96_check_path (s : Str) : (∀ r, CheckPathString s r ↔ r = collapse s) ∧ ¬ ['/', '/'] <:+: collapse s ∧
    (collapse s).filter (· ≠ '/') = s.filter (· ≠ '/') := by
  refine ⟨?_, collapse_no s, collapse_chars s⟩
  have ends : ∃ n, checkLoop n s = some (collapse s) := by
    induction h : s.length using Nat.strong_induction_on generalizing s with
    | _ n ih =>
      subst h
      cases hf : find ['/', '/'] s 0 with
      | none =>
        refine ⟨1, ?_⟩
        have : ¬ ['/', '/'] <:+: s := by
          rw [infix_iff_drop]
          rintro ⟨q, h1, h2⟩
          exact find_none.mp hf q (Nat.zero_le _) h1 h2
        simp [checkLoop, hf, collapse_of_no this]
      | some p =>
        obtain ⟨-, hp, ⟨r, hr⟩, -⟩ := find_some.mp hf
        have hs : s = s.take p ++ '/' :: '/' :: r := by
          conv_lhs => rw [← List.take_append_drop p s, ← hr]
          simp
        have hd : s.drop (p + 2) = r := by rw [← List.drop_drop, ← hr]; rfl
        have hl : (s.take p ++ ['/'] ++ r).length < s.length := by
          have := congrArg List.length hs
          simp at this ⊢
          omega
        obtain ⟨k, hk⟩ := ih _ hl (s.take p ++ ['/'] ++ r) rfl
        refine ⟨k + 1, ?_⟩
        rw [checkLoop, hf]
        simp only
        rw [hd, hk]
        congr 1
        conv_rhs => rw [hs, collapse_step]
        simp
  have mono : ∀ n k s r, checkLoop n s = some r → n ≤ k → checkLoop k s = some r := by
    intro n
    induction n with
    | zero => intro k s r h; simp [checkLoop] at h
    | succ n ih =>
      intro k s r h hk
      obtain ⟨k, rfl⟩ : ∃ j, k = j + 1 := ⟨k - 1, by omega⟩
      rw [checkLoop] at h ⊢
      cases hf : find ['/', '/'] s 0 with
      | none => rw [hf] at h; exact h
      | some p => rw [hf] at h; exact ih k _ r h (by omega)
  obtain ⟨n, hn⟩ := ends
  intro r
  constructor
  · rintro ⟨k, hk⟩
    have h1 := mono n (max n k) s _ hn (Nat.le_max_left _ _)
    rw [mono k (max n k) s _ hk (Nat.le_max_right _ _)] at h1
    exact Option.some.inj h1
  · rintro rfl
    exact ⟨n, hn⟩

/-! ## Parts of a path -/

theorem rfind_some {c : Char} {s : Str} {p : ℕ} : rfind c s = some p ↔ ∃ a b, s = a ++ c :: b ∧ a.length = p ∧ c ∉ b := by
  unfold rfind
  induction s using List.reverseRecOn with
  | nil => simp
  | append_singleton s x ih =>
    rw [List.length_append, List.length_singleton, List.range_succ, List.reverse_append, List.reverse_singleton, List.singleton_append,
      List.find?_cons]
    have hx : (s ++ [x])[s.length]? = some x := by simp
    rw [hx]
    by_cases hc : x = c
    · subst hc
      simp only [beq_self_eq_true]
      constructor
      · intro h
        exact ⟨s, [], by simp, by simpa using h, by simp⟩
      · rintro ⟨a, b, h1, h2, h3⟩
        rcases List.eq_nil_or_concat b with rfl | ⟨b', y, rfl⟩
        · have := List.append_inj_left' h1 rfl
          rw [← h2, this]
        · rw [List.concat_eq_append] at h1 h3
          rw [← List.cons_append, ← List.append_assoc] at h1
          have := List.append_inj_right' h1 rfl
          simp at this h3
          exact absurd this h3.2
    · have hb : (some x == some c) = false := by simpa using hc
      rw [hb]
      simp only
      have e : ((List.range s.length).reverse.find? fun p => (s ++ [x])[p]? == some c) = (List.range s.length).reverse.find? fun p => s[p]? == some c := by
        have : ∀ l : List ℕ, (∀ q ∈ l, q < s.length) → (l.find? fun p => (s ++ [x])[p]? == some c) = l.find? fun p => s[p]? == some c := by
          intro l hl
          induction l with
          | nil => rfl
          | cons q l ih2 =>
            rw [List.find?_cons, List.find?_cons, List.getElem?_append_left (hl q (by simp)), ih2 (fun q hq => hl q (by simp [hq]))]
        exact this _ (by simp)
      rw [e, ih]
      constructor
      · rintro ⟨a, b, rfl, h2, h3⟩
        exact ⟨a, b ++ [x], by simp, h2, by simp [h3, Ne.symm hc]⟩
      · rintro ⟨a, b, h1, h2, h3⟩
        rcases List.eq_nil_or_concat b with rfl | ⟨b', y, rfl⟩
        · have := List.append_inj_right' h1 rfl
          simp at this
          exact absurd this hc
        · rw [List.concat_eq_append] at h1 h3
          rw [← List.cons_append, ← List.append_assoc] at h1
          have h4 := List.append_inj_left' h1 rfl
          exact ⟨a, b', h4, h2, fun hh => h3 (by simp [hh])⟩

theorem rfind_none {c : Char} {s : Str} : rfind c s = none ↔ c ∉ s := by
  constructor
  · intro h hm
    have : ∃ a b, s = a ++ c :: b ∧ c ∉ b := by
      clear h
      induction s with
      | nil => simp at hm
      | cons x s ih =>
        by_cases hs : c ∈ s
        · obtain ⟨a, b, rfl, hb⟩ := ih hs
          exact ⟨x :: a, b, by simp, hb⟩
        · have : c = x := by simpa [hs] using hm
          exact ⟨[], s, by simp [this], hs⟩
    obtain ⟨a, b, hs, hb⟩ := this
    rw [rfind_some.mpr ⟨a, b, hs, rfl, hb⟩] at h
    simp at h
  · intro h
    cases hf : rfind c s with
    | none => rfl
    | some p =>
      obtain ⟨a, b, rfl, -, -⟩ := rfind_some.mp hf
      simp at h

theorem rfind_at {c : Char} {a b : Str} (hb : c ∉ b) : rfind c (a ++ c :: b) = some a.length := rfind_some.mpr ⟨a, b, rfl, rfl, hb⟩

/-- C97. A path made of a directory, a name and an extension (the name may contain dots, the directory anything) is taken apart into these. -/
theorem c97_parts_partial (dir name ext : Str) (h1 : '/' ∉ name) (h2 : '/' ∉ ext) (h3 : '.' ∉ ext) :
    getFileDir (dir ++ '/' :: (name ++ '.' :: ext)) = dir ∧ getFileName (dir ++ '/' :: (name ++ '.' :: ext)) = name ∧
    getFileExtension (dir ++ '/' :: (name ++ '.' :: ext)) = ext ∧
    getFileDir (name ++ '.' :: ext) = [] ∧ getFileName (name ++ '.' :: ext) = name ∧ getFileExtension (name ++ '.' :: ext) = ext := by
  have s1 : rfind '/' (dir ++ '/' :: (name ++ '.' :: ext)) = some dir.length := rfind_at (by simp [h1, h2])
  have s2 : rfind '.' (dir ++ '/' :: (name ++ '.' :: ext)) = some (dir.length + 1 + name.length) := by
    refine rfind_some.mpr ⟨dir ++ '/' :: name, ext, by simp, by simp; omega, h3⟩
  have s3 : rfind '/' (name ++ '.' :: ext) = none := rfind_none.mpr (by simp [h1, h2])
  have s4 : rfind '.' (name ++ '.' :: ext) = some name.length := rfind_at h3
  have d1 : (dir ++ '/' :: (name ++ '.' :: ext)).drop (dir.length + 1) = name ++ '.' :: ext := by
    rw [← List.drop_drop]; simp
  refine ⟨?_, ?_, ?_, ?_, ?_, ?_⟩
  · unfold getFileDir; rw [s1]; simp
  · unfold getFileName; rw [s1, s2]
    simp only
    rw [if_neg (by omega), d1]
    have : dir.length + 1 + name.length - (dir.length + 1) = name.length := by omega
    rw [this]; simp
  · unfold getFileExtension; rw [s2]
    simp only
    have : dir ++ '/' :: (name ++ '.' :: ext) = (dir ++ '/' :: (name ++ ['.'])) ++ ext := by simp
    rw [this, List.drop_left' (by simp; omega)]
  · unfold getFileDir; rw [s3]
  · unfold getFileName; rw [s3, s4]; simp
  · unfold getFileExtension; rw [s4]
    simp only
    have : name ++ '.' :: ext = (name ++ ['.']) ++ ext := by simp
    rw [this, List.drop_left' (by simp)]

/-- C97 in full is false. A file without an extension has no name, with or without a directory (unless there is a dot in the directory); with
a dot in its directory it has an extension. -/
theorem c97_parts_fails (dir name : Str) (hn : '/' ∉ name) (hd : '.' ∉ name) :
    ('.' ∉ dir → getFileName (dir ++ '/' :: name) = []) ∧ getFileName name = [] ∧
    ('.' ∈ dir → getFileName (dir ++ '/' :: name) = name ∧ '/' ∈ getFileExtension (dir ++ '/' :: name)) := by
  have s1 : rfind '/' (dir ++ '/' :: name) = some dir.length := rfind_at hn
  refine ⟨?_, ?_, ?_⟩
  · intro h
    unfold getFileName
    rw [s1, rfind_none.mpr (by simp [h, hd])]
  · unfold getFileName
    rw [rfind_none.mpr hn, rfind_none.mpr hd]
  · intro h
    cases hf : rfind '.' dir with
    | none => exact absurd h (rfind_none.mp hf)
    | some p =>
      obtain ⟨a, b, rfl, rfl, hb⟩ := rfind_some.mp hf
      have s2 : rfind '.' (a ++ '.' :: b ++ '/' :: name) = some a.length :=
        rfind_some.mpr ⟨a, b ++ '/' :: name, by simp, rfl, by simp [hb, hd]⟩
      constructor
      · unfold getFileName
        rw [s1, s2]
        simp only
        rw [if_pos (by simp; omega), ← List.drop_drop]
        simp
      · unfold getFileExtension
        rw [s2]
        simp only
        have : a ++ '.' :: b ++ '/' :: name = (a ++ ['.']) ++ (b ++ '/' :: name) := by simp
        rw [this, List.drop_left' (by simp)]
        simp

/-- C97. The name of the directory a file is in, when that has a directory itself; and the last name of a path. -/
theorem c97_parent_partial (top parent file : Str) (h1 : '/' ∉ parent) (h2 : '/' ∉ file) :
    getFileParentDirName (top ++ '/' :: (parent ++ '/' :: file)) = parent ∧ getLastDirName (top ++ '/' :: parent) = parent := by
  have l : getLastDirName (top ++ '/' :: parent) = parent := by
    unfold getLastDirName
    rw [rfind_at h1]
    simp only
    rw [← List.drop_drop]
    simp
    omega
  refine ⟨?_, l⟩
  have : getFileDir (top ++ '/' :: (parent ++ '/' :: file)) = top ++ '/' :: parent := by
    have e : top ++ '/' :: (parent ++ '/' :: file) = (top ++ '/' :: parent) ++ '/' :: file := by simp
    unfold getFileDir
    rw [e, rfind_at h2]
    exact List.take_left' rfl
  unfold getFileParentDirName
  rw [this, l]

/-- C97 in full is false: for a relative path of one directory and a file the name of the directory is empty. -/
theorem c97_parent_fails (parent file : Str) (h1 : '/' ∉ parent) (h2 : '/' ∉ file) : getFileParentDirName (parent ++ '/' :: file) = [] := by
  have : getFileDir (parent ++ '/' :: file) = parent := by
    unfold getFileDir
    rw [rfind_at h2]
    simp
  unfold getFileParentDirName getLastDirName
  rw [this, rfind_none.mpr h1]

/-- C97. The entries of a list file in a directory `dir`: absolute ones as they are, the others below `dir`. -/
theorem c97_list_partial (dir file : Str) (hf : '/' ∉ file) (lines : List Str) :
    absPaths (dir ++ '/' :: file) lines = lines.map fun x => if x.head? = some '/' then x else dir ++ '/' :: x := by
  have : getFileDir (dir ++ '/' :: file) = dir := by
    unfold getFileDir
    rw [rfind_at hf]
    simp
  unfold absPaths
  rw [if_neg (by simp), this]
  refine List.map_congr_left fun x _ => ?_
  unfold isAbsolutePath
  simp

/-- C97 in full is false: with a list file in the working directory the entries relative to it become absolute paths. -/
theorem c97_list_fails (file x : Str) (hne : file ≠ []) (hf : '/' ∉ file) (hx : x.head? ≠ some '/') : absPaths file [x] = ['/' :: x] := by
  unfold absPaths isAbsolutePath getFileDir
  rw [if_neg hne, rfind_none.mpr hf]
  simp [hx]

/-- A string with pieces of all kinds. -/
example : ∃ r, GetTokens ",ab,,c".toList [','] r ∧ r = ["ab".toList, "c".toList] := ⟨_, ⟨10, rfl⟩, rfl⟩

example : CheckPathString "/a///b//".toList "/a/b/".toList := ⟨10, rfl⟩

/-- Paths that meet the premises of C97. -/
example : getFileDir "/data/run.1/out.tar.csv".toList = "/data/run.1".toList ∧ getFileName "/data/run.1/out.tar.csv".toList = "out.tar".toList ∧
    getFileExtension "/data/run.1/out.tar.csv".toList = "csv".toList ∧ getFileParentDirName "/data/run.1/out.tar.csv".toList = "run.1".toList :=
  ⟨rfl, rfl, rfl, rfl⟩

end PathStr
end Ikf
