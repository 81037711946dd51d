import Verif.Gapping.Model

/-! # What a user expects of the gaps of a core

Written from columns, gaps and lengths only, without the functions that lay gaps. -/

namespace Verif.Gapping

/-- The column the windings go around: the first central one, the first of all without a central one. -/
def windingColumn (c : Core) : Option Column :=
  (c.columns.find? fun col => col.place = .central).or c.columns.head?

/-- The columns the flux comes back through. -/
def returnColumns (c : Core) : List Column :=
  if c.columns.any (fun col => col.place = .central) then c.columns.filter fun col => col.place = .lateral
  else c.columns.tail

/-- A gap is on a column: it is there in x and z, and it has the shape, the area and the section of the column; and it
leaves room, not a negative one. -/
structure On (g : Gap) (col : Column) : Prop where
  place : ∃ y : ℚ, g.coords = some (col.x, y, col.z)
  shape : g.shape = some col.shape
  area : g.area = some col.area
  dims : g.dims = some (col.width, col.depth)
  room : ∃ d : ℚ, g.normal = some d ∧ 0 ≤ d

/-- A gap is in the middle of a column, and says the room it really leaves. -/
structure Centred (g : Gap) (col : Column) : Prop where
  on : On g col
  coords : g.coords = some (col.x, col.y, col.z)
  normal : g.normal = some ((col.height - g.length) / 2)

/-- Kind and length of a gap, all a caller has to write. -/
def Gap.says (g : Gap) : Kind × ℚ := (g.kind, g.length)

/-- What column number `i` gets when every column has one gap: its own, the last one when the list is short, and a
residual gap without a list. -/
def intended (gaps : List Gap) (i : Nat) : Kind × ℚ :=
  match gaps.getLast? with
  | none => (.residual, residualLength)
  | some last => match gaps[i]? with
    | some g => g.says
    | none => last.says

/-- Room a gap at height `y` of a column leaves to the nearest end. -/
def roomAt (height y length : ℚ) : ℚ := height / 2 - |y| - length / 2

/-- Two gaps of the same column that overlap. -/
def Overlap (y₁ l₁ y₂ l₂ : ℚ) : Prop := |y₁ - y₂| < (l₁ + l₂) / 2

end Verif.Gapping
