import Mathlib.Algebra.Field.Rat
import Mathlib.Algebra.Order.Field.Basic

/-!
# The text of a circuit simulation

Model of the part of `CircuitSimulationReader` (src/processors/CircuitSimulatorInterface.cpp) that turns the text of an export into columns.

A byte is a character below 256; `std::string` is a list of them.  `parenDepth` is an `int` in the code and a natural number here: it would
take 2³¹ opening parentheses on a line to tell them apart.  How a file is opened is left out, lines are those of its text.
-/

namespace Verif.Reader

abbrev Text := List Char

/-- `static_cast<unsigned char>(c) <= 32` (src/processors/CircuitSimulatorInterface.cpp:1766). -/
def blank (c : Char) : Bool := decide (c.toNat ≤ 32)

/-- `trim_inplace` (src/processors/CircuitSimulatorInterface.cpp:1764-1772). -/
def trim (s : Text) : Text := ((s.dropWhile blank).reverse.dropWhile blank).reverse

/-- `is_skippable_csv_line` (src/processors/CircuitSimulatorInterface.cpp:1776-1785). -/
def skippable (line : Text) : Bool :=
  match line.dropWhile blank with
  | [] => true
  | c :: r => c == '#' || c == '!' || c == '*' || (c == '/' && r.head? == some '/')

/-- `strip_utf8_bom` (src/processors/CircuitSimulatorInterface.cpp:1788-1795). -/
def stripBom (s : Text) : Text :=
  if s.take 3 = [Char.ofNat 0xEF, Char.ofNat 0xBB, Char.ofNat 0xBF] then s.drop 3 else s

/-- `inQuotes` and `parenDepth` (src/processors/CircuitSimulatorInterface.cpp:1804-1805). -/
structure Scan where
  quoted : Bool
  depth : Nat
  deriving DecidableEq

/-- What a character other than a quote does to them (src/processors/CircuitSimulatorInterface.cpp:1812-1819). -/
def Scan.paren (s : Scan) (c : Char) : Scan :=
  if s.quoted then s
  else if c = '(' then { s with depth := s.depth + 1 }
  else if c = ')' ∧ s.depth > 0 then { s with depth := s.depth - 1 }
  else s

/-- The loop of `split_fields` (src/processors/CircuitSimulatorInterface.cpp:1806-1828). -/
def splitLoop (sep : Char) : Scan → Text → Text → List Text
  | _, current, [] => [current]
  | s, current, c :: rest =>
    if c = '"' then splitLoop sep { s with quoted := !s.quoted } (current ++ [c]) rest
    else if c = sep ∧ (s.paren c).quoted = false ∧ (s.paren c).depth = 0 then
      current :: splitLoop sep (s.paren c) [] rest
    else splitLoop sep (s.paren c) (current ++ [c]) rest

/-- `split_fields` (src/processors/CircuitSimulatorInterface.cpp:1797-1829). -/
def splitFields (line : Text) (sep : Char) : List Text := splitLoop sep ⟨false, 0⟩ [] line

/-- `count_separators` (src/processors/CircuitSimulatorInterface.cpp:2056-2078). -/
def countLoop (sep : Char) : Scan → Text → Nat
  | _, [] => 0
  | s, c :: rest =>
    if c = '"' then countLoop sep { s with quoted := !s.quoted } rest
    else (if (s.paren c).quoted = false ∧ (s.paren c).depth = 0 ∧ c = sep then 1 else 0) + countLoop sep (s.paren c) rest

/-- `possibleSeparators` (src/processors/CircuitSimulatorInterface.cpp:2054). -/
def separators : List Char := [',', ';', '\t', '|']

/-- The choice among them (src/processors/CircuitSimulatorInterface.cpp:2080-2089): best separator and its number of columns. -/
def bestSeparator (line : Text) : List Char → Option Char × Nat → Option Char × Nat
  | [], best => best
  | sep :: rest, best =>
    let n := countLoop sep ⟨false, 0⟩ line + 1
    bestSeparator line rest (if n > best.2 then (some sep, n) else best)

/-- `guess_separator` (src/processors/CircuitSimulatorInterface.cpp:2044-2097); `none` when it throws. -/
def guessSeparator (line : Text) : Option Char := (bestSeparator line separators (none, 1)).1

/-- What is done to a cell, of the header or of a row (src/processors/CircuitSimulatorInterface.cpp:1840-1846, 1858-1862). -/
def clean (token : Text) : Text :=
  let t := token.filter (· != '\r')
  trim (if t.length ≥ 2 ∧ t.head? = some '"' ∧ t.getLast? = some '"' then (t.drop 1).dropLast else t)

/-- `DataType` (src/processors/CircuitSimulatorInterface.h:650-656). -/
inductive DataType where
  | time | voltage | current | magnetizing | unknown
  deriving DecidableEq

/-- `CircuitSimulationSignal` (src/processors/CircuitSimulatorInterface.h:659-671). The kind and the winding are not initialised by the code and
are read only once they were set: `none`, here, for both; `none` stands as well for the index `-1` that time columns are given.  The index of the
operating point is never used. -/
structure Column (K : Type) where
  name : Text
  data : List K := []
  kind : Option DataType := none
  winding : Option Nat := none
  deriving DecidableEq

/-- What goes wrong in a row: more cells than columns, or a cell that is not a number. -/
inductive RowError where
  | tooMany | notNumber
  deriving DecidableEq

/-- The columns of a header (src/processors/CircuitSimulatorInterface.cpp:1838-1851): cells without a name give none. -/
def header {K : Type} (cells : List Text) : List (Column K) :=
  (cells.filter (· ≠ [])).map fun n => { name := n }

/-- `_columns[i].data.push_back(value)`. -/
def push {K : Type} : List (Column K) → Nat → K → List (Column K)
  | [], _, _ => []
  | c :: cs, 0, v => { c with data := c.data ++ [v] } :: cs
  | c :: cs, i + 1, v => c :: push cs i v

/-- The cells of a row (src/processors/CircuitSimulatorInterface.cpp:1855-1890), from the column `i` on, with the columns left behind. `stod` is
`std::stod` of the cell, that throws or gives a number. -/
def row {K : Type} (stod : Text → Option K) : List (Column K) → Nat → List Text → List (Column K) × Option RowError
  | cols, _, [] => (cols, none)
  | cols, i, cell :: rest =>
    if cell = [] then row stod cols (i + 1) rest
    else if i ≥ cols.length then (cols, some .tooMany)
    else match stod cell with
      | none => (cols, some .notNumber)
      | some v => row stod (push cols i v) (i + 1) rest

/-- `process_line_with_context` (src/processors/CircuitSimulatorInterface.cpp:1835-1892); the number of the line only enters messages. -/
def processLine {K : Type} (stod : Text → Option K) (cols : List (Column K)) (line : Text) (sep : Char) :
    List (Column K) × Option RowError :=
  let cells := (splitFields line sep).map clean
  if cols.length = 0 then (header cells, none) else row stod cols 0 cells

/-- What reading a text can end in. -/
inductive ReadError where
  | noSeparator | row (e : RowError) | noColumns | emptyColumn | noTime
  deriving DecidableEq

/-- The lines `std::getline` gives (src/processors/CircuitSimulatorInterface.cpp:1926, 1933): what follows the last line feed is a line only if it
is not empty. -/
def linesLoop (current : Text) : Text → List Text
  | [] => if current = [] then [] else [current]
  | c :: rest => if c = '\n' then current :: linesLoop [] rest else linesLoop (current ++ [c]) rest

def lines (text : Text) : List Text := linesLoop [] text

/-- The lines of the text, without the mark of the first (src/processors/CircuitSimulatorInterface.cpp:1904-1906). -/
def textLines (text : Text) : List Text :=
  match lines text with
  | [] => []
  | l :: r => stripBom l :: r

/-- `handle_line` (src/processors/CircuitSimulatorInterface.cpp:1901-1914) over the lines left, once the mark of the first was dropped. -/
def readLines {K : Type} (stod : Text → Option K) : Option Char → List (Column K) → List Text → Except ReadError (List (Column K))
  | _, cols, [] => .ok cols
  | sep, cols, line :: rest =>
    if skippable line then readLines stod sep cols rest
    else match sep.orElse fun _ => guessSeparator line with
      | none => .error .noSeparator
      | some c =>
        match processLine stod cols line c with
        | (_, some e) => .error (.row e)
        | (cols', none) => readLines stod (some c) cols' rest

section
variable {K : Type} [Field K] [LinearOrder K]

/-- No step goes down (src/processors/CircuitSimulatorInterface.cpp:1977-1981). -/
def neverDown : List K → Bool
  | a :: b :: r => !decide (a > b) && neverDown (b :: r)
  | _ => true

/-- `can_be_time` (src/processors/CircuitSimulatorInterface.cpp:1962-1984); `none` when it throws. -/
def canBeTime (data : List K) : Option Bool :=
  match data with
  | [] => none
  | [_] => some false
  | a :: b :: r => some (neverDown (a :: b :: r) && decide ((b :: r).getLast (by simp) > a))

/-- `find_time` (src/processors/CircuitSimulatorInterface.cpp:2209-2217). -/
def findTime : List (Column K) → Except ReadError (Column K)
  | [] => .error .noTime
  | c :: rest =>
    match canBeTime c.data with
    | none => .error .emptyColumn
    | some true => .ok { c with kind := some .time }
    | some false => findTime rest

/-- The constructor (src/processors/CircuitSimulatorInterface.cpp:1894-1951) once the text is at hand: columns and time. -/
def read (stod : Text → Option K) (text : Text) : Except ReadError (List (Column K) × Column K) :=
  match readLines stod none [] (textLines text) with
  | .error e => .error e
  | .ok [] => .error .noColumns
  | .ok (c :: cs) => match findTime (c :: cs) with
    | .error e => .error e
    | .ok t => .ok (c :: cs, t)

end

/-! ## Numbers -/

/-- The digits a text starts with, and the rest. -/
def digits (s : Text) : Text × Text := (s.takeWhile Char.isDigit, s.dropWhile Char.isDigit)

/-- The value of digits. -/
def natOf (ds : Text) : Nat := ds.foldl (fun n c => 10 * n + (c.toNat - 48)) 0

/-- Sign of a text and the rest. -/
def signOf : Text → Bool × Text
  | '-' :: r => (true, r)
  | '+' :: r => (false, r)
  | r => (false, r)

/-- The exponent of a number, `0` unless there are digits after the letter. -/
def exponentOf : Text → Int
  | c :: r =>
    if c = 'e' ∨ c = 'E' then
      let (neg, r) := signOf r
      let (ds, _) := digits r
      if ds = [] then 0 else if neg then -(natOf ds : Int) else natOf ds
    else 0
  | [] => 0

/-- The digits after the point, if there is one, and the rest. -/
def fractionOf : Text → Text × Text
  | '.' :: r => digits r
  | r => ([], r)

/-- The number of its parts, that has digits before or after the point. -/
def assemble (negative : Bool) (whole fraction : Text) (exponent : Int) : Option ℚ :=
  if whole = [] ∧ fraction = [] then none
  else
    let v := (natOf (whole ++ fraction) : ℚ) * (10 : ℚ) ^ (exponent - fraction.length)
    some (if negative then -v else v)

/-- `std::stod(token, &consumed)` (src/processors/CircuitSimulatorInterface.cpp:1879) for numbers in decimal notation: it reads the longest
number the text starts with, what follows is ignored, and so is how much was read (src/processors/CircuitSimulatorInterface.cpp:1880).  Simplified:
exact, without the limits of the range; hexadecimal numbers, infinities and not-a-number are left out; the blanks before the number were trimmed. -/
def stod (s : Text) : Option ℚ :=
  let afterSign := signOf s
  let afterWhole := digits afterSign.2
  let afterFraction := fractionOf afterWhole.2
  assemble afterSign.1 afterWhole.1 afterFraction.1 (exponentOf afterFraction.2)

end Verif.Reader
