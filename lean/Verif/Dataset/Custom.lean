import Mathlib.Analysis.SpecialFunctions.Pow.Real

/-! # The shapes made to measure

Models `scale_core_shape` and the factor of `CoreAdviser::create_custom_core_shapes`
(`src/advisers/CoreAdviserDataset.cpp:149-203`). -/

namespace Verif.Dataset

noncomputable section

/-- The factor a shape is scaled by (src/advisers/CoreAdviserDataset.cpp:193-197): the fourth root of what its area product lacks,
between a half and three. Positive area products: the code goes on to the next family where that of the shape is not, and
does not look at the sign of that required. -/
def factor (required reference : ℝ) : ℝ := max (1 / 2) (min 3 ((required / reference) ^ (1 / 4 : ℝ)))

/-- A dimension with its tolerance, or alone (src/advisers/CoreAdviserDataset.cpp:153-161). -/
inductive Dimension where
  | tolerance (nominal minimum maximum : Option ℝ)
  | alone (value : ℝ)

/-- One turn of the loop of `scale_core_shape` (src/advisers/CoreAdviserDataset.cpp:153-162). -/
def scaleDimension (s : ℝ) : Dimension → Dimension
  | .tolerance n a b => .tolerance (n.map (· * s)) (a.map (· * s)) (b.map (· * s))
  | .alone v => .alone (v * s)

/-- What `scale_core_shape` reads of a shape. -/
structure Shape where
  name : Option String
  dimensions : Option (List (String × Dimension))

/-- Models `scale_core_shape` (src/advisers/CoreAdviserDataset.cpp:149-166). -/
def scaleShape (s : ℝ) (shape : Shape) : Shape :=
  match shape.dimensions with
  | none => shape
  | some dims => ⟨some ("Custom " ++ shape.name.getD "unknown"), some (dims.map fun d => (d.1, scaleDimension s d.2))⟩

end

end Verif.Dataset
