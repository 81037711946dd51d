import Mathlib.Data.Rat.Defs
import Verif.Names.Model
import Verif.Text.Model
import Verif.Wire.Catalogue

/-!
# The label of a coating (src/constructive_models/Wire.cpp 1914-2104)

Texts are lists of characters. Temperatures and breakdown voltages are whole, and grades and layers not negative. The rounding of
kilovolts to one decimal is given, since ties depend on the binary value.
-/

namespace Verif.Wire

open Verif.Names (decimal)

/-- A coating as far as labels go. -/
structure Coating where
  kind : Option CoatingKind := none
  layers : Option ℕ := none
  grade : Option ℕ := none
  temperature : Option ℕ := none
  voltage : Option ℚ := none
  deriving DecidableEq

/-- What a wire is labelled from: its type is litz or not, its standard NEMA MW 1000 C or not (Wire.cpp 1962-1968, 2010); `voltage` in
volts. -/
structure Labelled where
  litz : Bool
  nema : Bool
  coating : Option Coating
  /-- the breakdown voltage of the coating, whole -/
  volts : Option ℕ

/-- Whether a text has another: `find(…) != npos`. -/
def has (pattern text : List Char) : Bool := (Text.findSub pattern text).isSome

/-- A temperature in the label (Wire.cpp 1938-1942). -/
def temperatureText : Option ℕ → List Char
  | none => []
  | some t => ", TR ".toList ++ decimal t

/-- A breakdown voltage in the label (Wire.cpp 1944-1955); `tenths` rounds volts to tenths of a kilovolt. -/
def voltageText (tenths : ℕ → ℕ) : Option ℕ → List Char
  | none => []
  | some v =>
    if 1000 < v then ", BV ".toList ++ (decimal (tenths v / 10) ++ '.' :: decimal (tenths v % 10)) ++ " kV".toList
    else ", BV ".toList ++ decimal v ++ " V".toList

/-- Layers of insulation (Wire.cpp 1928-1936): other numbers write nothing. -/
def layersText (n : ℕ) : List Char :=
  if n = 1 then "SIW".toList else if n = 2 then "DIW".toList else if n = 3 then "TIW".toList else []

/-- The grade of an enamel (Wire.cpp 1970-1996). -/
def gradeText (nema : Bool) (g : ℕ) : List Char :=
  if g = 1 then (if nema then " single build".toList else " grade 1".toList)
  else if g = 2 then (if nema then " heavy build".toList else " grade 2".toList)
  else if g = 3 then (if nema then " triple build".toList else " grade 3".toList)
  else " FIW".toList ++ decimal g

/-- `encode_coating_label` (Wire.cpp 1918-2022); `none` = throws. -/
def encodeLabel (tenths : ℕ → ℕ) (w : Labelled) : Option (List Char) :=
  match w.coating with
  | none => some "Bare".toList
  | some c => match c.kind with
    | some .insulated => c.layers.map fun n => layersText n ++ temperatureText c.temperature ++ voltageText tenths w.volts
    | some .enamelled => c.grade.map fun g => "Enamel".toList ++ gradeText w.nema g
    | some .served => c.layers.map fun n => if n = 1 then "Single served".toList else if n = 2 then "Double served".toList else []
    | some .bare => some (if w.litz then "Unserved".toList else "Bare".toList)
    | none => none

/-- What decoding ends in. -/
inductive Decoded
  | throws
  | undefined
  | done (c : Option Coating)
  deriving DecidableEq

/-- `std::stod` of a text of digits and a point: what it reads, or nothing. -/
def readDecimal (text : List Char) : Option ℚ :=
  let whole := text.takeWhile Char.isDigit
  let rest := text.drop whole.length
  if whole = [] then none else
  match rest with
  | '.' :: more =>
    let fraction := more.takeWhile Char.isDigit
    some (Nat.ofDigitChars 10 whole 0 + (Nat.ofDigitChars 10 fraction 0 : ℚ) / 10 ^ fraction.length)
  | _ => some (Nat.ofDigitChars 10 whole 0)

/-- `std::stoi` of a text of digits. -/
def readWhole (text : List Char) : Option ℕ :=
  let whole := text.takeWhile Char.isDigit
  if whole = [] then none else some (Nat.ofDigitChars 10 whole 0)

/-- The kind and layers of insulation read off a label, and whether any was (Wire.cpp 2025-2046). -/
def readKind (label : List Char) (s : Coating × Bool) : Coating × Bool :=
  let s := if has "Bare".toList label || has "Unserved".toList label then ({ s.1 with kind := some .bare }, true) else s
  let s := if has "SIW".toList label then ({ s.1 with kind := some .insulated, layers := some 1 }, true) else s
  let s := if has "DIW".toList label then ({ s.1 with kind := some .insulated, layers := some 2 }, true) else s
  if has "TIW".toList label then ({ s.1 with kind := some .insulated, layers := some 3 }, true) else s

/-- The temperature rating read (Wire.cpp 2048-2055). -/
def readTemperature (label : List Char) (s : Coating × Bool) : Coating × Bool :=
  let s := if has "TR 155".toList label then ({ s.1 with temperature := some 155 }, true) else s
  if has "TR 180".toList label then ({ s.1 with temperature := some 180 }, true) else s

/-- The breakdown voltage read (Wire.cpp 2057-2069): `none` when `std::stod` throws. -/
def readVoltage (label : List Char) (s : Coating × Bool) : Option (Coating × Bool) :=
  if has ", BV ".toList label then
    match (Text.split label ", BV ".toList).bind (·[1]?) with
    | none => none
    | some aux =>
      let first := if has " kV".toList aux then
          (((Text.split aux " kV".toList).bind (·[0]?)).bind readDecimal).map fun v => (({ s.1 with voltage := some (v * 1000) }, true) : Coating × Bool)
        else some s
      first.bind fun s => if has " V".toList aux then
          (((Text.split aux " V".toList).bind (·[0]?)).bind readDecimal).map fun v => (({ s.1 with voltage := some v }, true) : Coating × Bool)
        else some s
  else some s

/-- The enamel, servings and end (Wire.cpp 2071-2103). Without a grade there is no second piece to read. -/
def readRest (label : List Char) (s : Coating × Bool) : Decoded :=
  let serve (s : Coating × Bool) : Decoded :=
    let s := if has "Single served".toList label then (({ s.1 with kind := some .served, layers := some 1 }, true) : Coating × Bool) else s
    let s := if has "Double served".toList label then (({ s.1 with kind := some .served, layers := some 2 }, true) : Coating × Bool) else s
    .done (if s.2 then some s.1 else none)
  if has "Enamel".toList label then
    let c := { s.1 with kind := some .enamelled }
    if has "grade 1".toList label || has "single build".toList label then serve ({ c with grade := some 1 }, true)
    else if has "grade 2".toList label || has "heavy build".toList label then serve ({ c with grade := some 2 }, true)
    else if has "grade 3".toList label || has "triple build".toList label then serve ({ c with grade := some 3 }, true)
    else match (Text.split label "FIW".toList).bind (·[1]?) with
      | none => .undefined
      | some aux => match readWhole aux with
        | none => .throws
        | some g => serve ({ c with grade := some g }, true)
  else serve s

/-- `decode_coating_label` (Wire.cpp 2024-2104). -/
def decodeLabel (label : List Char) : Decoded :=
  match readVoltage label (readTemperature label (readKind label ({}, false))) with
  | none => .throws
  | some s => readRest label s

end Verif.Wire
