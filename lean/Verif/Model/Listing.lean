import Verif.Model.FileSys
import Verif.Model.Mat

/-!
# Listing and removing directories, reading text

Model of the remaining functions of source/ikf/source/utils/IO.cpp (cited IO): `getFilesInDirectory`, `getDirsInDirectory`,
`getLinesFromFile`, `getAbsPathsFromFile`, `getTokens(str)`, `getFirstTokenAndReset` and `removeDirectory`.

What the operating system and the C++ streams answer is part of the model and is described at each definition.
-/

namespace Ikf
namespace Listing

open PathStr

/-- One answer of `readdir` and of the `stat` on its full name (IO:356-367): the name, and the mode word if `stat` succeeds. -/
structure Entry where
  name : Str
  mode : Option ℕ

/-- What the system answers during one call: whether the `opendir` of `dirExist` succeeds (IO:337, IO:164), and what the second `opendir`
(IO:346) gives: none if it fails, else the entries in the order `readdir` returns them. -/
structure Dir where
  probe : Bool
  scan : Option (List Entry)

/-- IO:369, IO:418: `(st.st_mode & S_IFDIR) != 0`, `S_IFDIR` being octal 040000. -/
def isDirectory (mode : ℕ) : Bool := mode &&& 0x4000 != 0

/-- IO:357-358 and IO:406-407: the full name. -/
def full (directory name : Str) : Str := directory ++ ['/'] ++ name

/-- IO:354-386: the loop of `getFilesInDirectory`. -/
def filesLoop (directory extension : Str) : List Entry → List Str → List Str
  | [], out => out
  | ent :: r, out =>
    if ent.name.head? = some '.' then filesLoop directory extension r out
    else match ent.mode with
      | none => filesLoop directory extension r out
      | some m =>
        if isDirectory m then filesLoop directory extension r out
        else if extension ≠ [] ∧ getFileExtension ent.name ≠ extension then filesLoop directory extension r out
        else filesLoop directory extension r (out ++ [full directory ent.name])

/-- IO:333-389 `getFilesInDirectory`: a null pointer given to `readdir` is undefined behaviour. -/
def getFiles (d : Dir) (directory extension : Str) : Res (List Str) :=
  if d.probe then
    match d.scan with
    | some L => .ok (filesLoop directory extension L [])
    | none => .ub
  else .ok []

/-- IO:404-427: the loop of `getDirsInDirectory`. -/
def dirsLoop (directory : Str) : List Entry → List Str → List Str
  | [], out => out
  | ent :: r, out =>
    if ent.name.head? = some '.' then dirsLoop directory r out
    else match ent.mode with
      | none => dirsLoop directory r out
      | some m =>
        if isDirectory m then dirsLoop directory r (out ++ [full directory ent.name]) else dirsLoop directory r out

/-- IO:391-432 `getDirsInDirectory`. -/
def getDirs (d : Dir) (directory : Str) : Res (List Str) :=
  if d.probe then
    match d.scan with
    | some L => .ok (dirsLoop directory L [])
    | none => .ub
  else .ok []

/-- IO:29 `std::getline(file, s)`: the characters up to the next newline, which is taken and dropped; it fails if there is no character
left. -/
def getline : Str → Option (Str × Str)
  | [] => none
  | c :: r => some ((c :: r).takeWhile (· ≠ '\n'), ((c :: r).dropWhile (· ≠ '\n')).drop 1)

theorem getline_lt {s : Str} {x : Str × Str} (h : getline s = some x) : x.2.length < s.length := by
  cases s with
  | nil => cases h
  | cons c r =>
    simp only [getline, Option.some.injEq] at h
    subst h
    simp only [List.length_drop, List.length_cons]
    have := (List.dropWhile_suffix (l := c :: r) (fun x => decide (x ≠ '\n'))).length_le
    simp only [List.length_cons] at this
    omega

/-- IO:29-32: the loop over the lines. -/
def readLines (s : Str) : List Str :=
  match _h : getline s with
  | none => []
  | some (l, r) => l :: readLines r
termination_by s.length
decreasing_by exact getline_lt _h

/-- IO:19-40 `getLinesFromFile`: `none` is a file that cannot be opened (one warning is logged). -/
def getLines : Option Str → List Str
  | some s => readLines s
  | none => []

/-- IO:42-59 `getAbsPathsFromFile`: the list of paths handed in is extended. -/
def getAbsPaths (file : Str) (content : Option Str) (out : List Str) : List Str :=
  out ++ absPaths file (getLines content)

/-- White space of `operator>>` in the "C" locale: space, tab, newline, vertical tab, form feed, carriage return. -/
def isSpace (c : Char) : Bool :=
  c.toNat == 32 || (9 ≤ c.toNat && c.toNat ≤ 13)

/-- `stream >> string`: skips white space, takes the characters up to the next; what is left. It fails if there is nothing to take. -/
def extract (s : Str) : Option (Str × Str) :=
  match s.dropWhile isSpace with
  | [] => none
  | c :: r => some ((c :: r).takeWhile (!isSpace ·), (c :: r).dropWhile (!isSpace ·))

theorem extract_lt {s : Str} {x : Str × Str} (h : extract s = some x) : x.2.length < s.length := by
  unfold extract at h
  cases hd : s.dropWhile isSpace with
  | nil => rw [hd] at h; cases h
  | cons c r =>
    rw [hd] at h
    simp only [Option.some.injEq] at h
    subst h
    have hc : isSpace c = false := by
      have := List.head?_dropWhile_not isSpace s
      rw [hd] at this
      simpa using this
    have h1 := (List.dropWhile_suffix (l := s) isSpace).length_le
    have h2 := (List.dropWhile_suffix (l := r) (fun x => !isSpace x)).length_le
    rw [hd] at h1
    simp only [List.length_cons] at h1
    simp only [List.dropWhile, hc, Bool.not_false]
    omega

/-- IO:121-133 `getTokens(str)`. -/
def tokens (s : Str) : List Str :=
  match _h : extract s with
  | none => []
  | some (t, r) => t :: tokens r
termination_by s.length
decreasing_by exact extract_lt _h

/-- A file stream: its text, the place it reads at, the end-of-file and failure flags. -/
structure Stream where
  text : Str
  pos : ℕ
  eof : Bool
  fail : Bool

/-- IO:82: a position stored in a 32-bit `int`. -/
def toInt (p : ℕ) : ℤ := (p + 2 ^ 31) % 2 ^ 32 - 2 ^ 31

/-- IO:80-93 `getFirstTokenAndReset`; `delim` is not used. `tellg` answers -1, and sets the failure flag, on a stream that is not good.
`seekg` clears the end-of-file flag and does nothing on a failed stream. -/
def firstTokenAndReset (s : Stream) (_delim : Str) : Str × Stream :=
  if s.eof || s.fail then ([], { s with fail := true })
  else
    let cur := toInt s.pos
    if cur < 0 then ([], s)
    else match extract (s.text.drop s.pos) with
      | none => ([], { s with pos := s.text.length, eof := false, fail := true })
      | some (t, _) => (t, { s with pos := cur.toNat, eof := false })

/-- Characters that mean something to the shell besides separating words. -/
def special : List Char :=
  ['\n', ';', '&', '|', '<', '>', '(', ')', '$', '`', '\\', '"', '\'', '*', '?', '[', ']', '#', '~', '=', '%', '!', '{', '}']

/-- The words the shell makes of a text without special characters: separated by spaces and tabs. -/
def shellWords (s : Str) : List Str := (s.splitOnP fun c => c = ' ' || c = '\t').filter (· ≠ [])

open FileSys in
/-- `rm -r word`: everything at and below the place goes. It refuses the root directory and names with last part `.` or `..`, and fails where nothing
is. Simplification: the process may remove what is there. -/
def rmWord (e : Env) (fs : FS) (w : Str) : FS × Bool :=
  match lookup e fs w with
  | none => (fs, false)
  | some (l, _) =>
    if l = [] ∨ (pieces w).getLast? = some ['.'] ∨ (pieces w).getLast? = some ['.', '.'] then (fs, false)
    else (fun k => if l <+: k then none else fs k, true)

open FileSys in
/-- `rm -r` with several names: all are tried; the exit code is 0 if none failed. -/
def rmWords (e : Env) : List Str → FS → Bool → FS × Bool
  | [], fs, ok => (fs, ok)
  | w :: r, fs, ok => rmWords e r (rmWord e fs w).1 (ok && (rmWord e fs w).2)

open FileSys in
/-- IO:327-331 `removeDirectory`: the text `rm -r ` and the name are handed to the shell. `none`: the name has a special character or a word
beginning with `-`, and what happens is not modelled. Without a word `rm` fails. -/
def removeDirectory (e : Env) (fs : FS) (s : Str) : Option (FS × Bool) :=
  if s.any (special.contains ·) ∨ (shellWords s).any (fun w => w.head? = some '-') then none
  else if shellWords s = [] then some (fs, false)
  else some (rmWords e (shellWords s) fs true)

end Listing
end Ikf
