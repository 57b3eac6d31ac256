import Verif.Model.Mat

/-!
# CSV files

Model of source/ikf/source/utils/CSVTool.cpp (cited CT). A file is the list of its lines (`std::getline`); a value is an
element of `V` (a double, including NaN and infinities); `std::istringstream >> double` is the parameter `dbl` and
`std::ostream << double` with precision 16 the parameter `fmt`. File opening is not modelled (the file exists).
Names are sequences of characters; a name with a line break in it is outside the model.
-/

namespace Ikf
namespace Csv

abbrev Line := List Char

/-- The successive `std::getline(stream, token, delim)` on a line: the text between delimiters; an empty rest at the
end of the line is no token. -/
def toks (d : Char) : Line → Line → List Line
  | cur, [] => if cur.isEmpty then [] else [cur]
  | cur, c :: r => if c = d then cur :: toks d [] r else toks d (cur ++ [c]) r

/-- Tokens of a line. -/
def tokens (d : Char) (l : Line) : List Line := toks d [] l

/-- C `isspace`. -/
def isSpace (c : Char) : Bool := c = ' ' || c = '\t' || c = '\n' || c = '\x0b' || c = '\x0c' || c = '\r'

/-- CT:250 `line[line.find_first_not_of(" \t")]`: no such character gives the index `npos`, undefined behaviour. -/
def firstChar (l : Line) : Res Char :=
  match l.dropWhile (fun c => c = ' ' || c = '\t') with
  | [] => .ub
  | c :: _ => .ok c

/-- CT:251. -/
def isNum (c : Char) : Bool := c.isDigit || c = '-' || c = '+'

/-- CT:244-262 `check_for_header`: the number of lines before the first that looks like a number. -/
def checkHeader : List Line → ℕ → Res ℕ
  | [], n => .ok n
  | l :: r, n => do
    let c ← firstChar l
    if isNum c then .ok n else checkHeader r (n + 1)

/-- CT:220-242 `get_header` with the delimiter `','` (the default: `read_csv` passes none, CT:46). -/
def getHeader (l : Line) : List Line := (tokens ',' l).map (fun t => t.filter (fun c => !isSpace c))

variable {V : Type _}

/-- `CsvDataType`: column name to values. -/
abbrev Data (V : Type _) := Line → Option (List V)

/-- CT:87 `csv_data[name][i] = v`: outside the vector is undefined behaviour (a missing name has an empty one). -/
def setCell (d : Data V) (n : Line) (i : ℕ) (v : V) : Res (Data V) :=
  match d n with
  | none => .ub
  | some l => if i < l.length then .ok (fun m => if m = n then some (l.set i v) else d m) else .ub

/-- CT:77-92 the tokens of one row from column `c` on; returns `column_counter` and the data. -/
def readRow (dbl : Line → Option V) (names : List Line) (i : ℕ) : ℕ → List Line → Data V → Res (ℕ × Data V)
  | c, [], d => .ok (c, d)
  | c, t :: ts, d =>
    if names.length ≤ c then .ok (c + 1, d)
    else match dbl t with
      | some v => (setCell d (names.getD c []) i v).bind (fun d' => readRow dbl names i (c + 1) ts d')
      | none => readRow dbl names i (c + 1) ts d

/-- CT:68-104 the rows; `i` is `line_counter`. -/
def readRows (dbl : Line → Option V) (delim : Char) (names : List Line) : ℕ → List Line → Data V → Res (ℕ × Data V)
  | i, [], d => .ok (i, d)
  | i, l :: ls, d =>
    (readRow dbl names i 0 (tokens delim l) d).bind fun x =>
      readRows dbl delim names (if x.1 ≠ names.length then i else i + 1) ls x.2

/-- `std::vector::resize(n, z)`. -/
def resize (l : List V) (n : ℕ) (z : V) : List V := l.take n ++ List.replicate (n - l.length) z

/-- CT:23-112 `read_csv` of an existing file: `none` is the return value false. -/
def readCsv (dbl : Line → Option V) (zero : V) (delim : Char) (file : List Line) : Res (Option (Data V)) :=
  (checkHeader file 0).bind fun first =>
    if first < 1 then .ok none
    else
      let names := getHeader (file.getD (first - 1) [])
      let rows := file.length
      let d0 : Data V := fun n => if n ∈ names then some (List.replicate (rows - 1) zero) else none
      (readRows dbl delim names 0 (file.drop first) d0).bind fun x =>
        .ok (some fun n => if n ∈ names then (x.2 n).map (fun l => resize l x.1 zero) else x.2 n)

/-! ## Writing -/

/-- `a << delim << b << ...`. -/
def join (d : Char) : List Line → Line
  | [] => []
  | [a] => a
  | a :: b :: r => a ++ d :: join d (b :: r)

/-- CT:154-163 one row: an entry beyond the end of a column is undefined behaviour. -/
def rowOf (fmt : V → Line) (cols : List (Line × List V)) (r : ℕ) : Res (List Line) :=
  match cols with
  | [] => .ok []
  | c :: cs => match c.2[r]? with
    | none => .ub
    | some v => (rowOf fmt cs r).bind fun l => .ok (fmt v :: l)

/-- CT:154-165 rows `r, r+1, ...` (`n` of them). -/
def rowsOf (fmt : V → Line) (d : Char) (cols : List (Line × List V)) : ℕ → ℕ → Res (List Line)
  | 0, _ => .ok []
  | n + 1, r => (rowOf fmt cols r).bind fun l => (rowsOf fmt d cols n (r + 1)).bind fun ls => .ok (join d l :: ls)

/-- CT:122-170 `write_csv`: the lines of the file; the columns in the order of the map. CT:172-217 is the same for an unordered
map, whose order is not specified: `cols` in any order. -/
def writeCsv (fmt : V → Line) (d : Char) (cols : List (Line × List V)) : Res (List Line) :=
  match cols with
  | [] => .ok []
  | c :: _ => (rowsOf fmt d cols c.2.length 0).bind fun ls => .ok (join d (cols.map (·.1)) :: ls)

/-- CT:114-120 `write_csv` of a single row (a value per name). -/
def writeRow (fmt : V → Line) (d : Char) (row : List (Line × V)) : Res (List Line) :=
  writeCsv fmt d (row.map fun x => (x.1, [x.2]))

end Csv
end Ikf
