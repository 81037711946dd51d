import Verif.WindingLosses.Model

/-!
# Model of the cache of skin factors

Source: `/repo/src/physical_models/WindingSkinEffectLosses.cpp` 44-49, 99-147, 346-384 and the models that use it, such as
497-511 and 642-656.
-/

namespace Verif.WindingLosses

/-- What identifies a wire in the cache (WindingSkinEffectLosses.cpp 347-356): its name, or its number of conductors and
outer size. The hashes of the code (44-49) are taken to have no collisions. -/
inductive Key
  | name (n : String)
  | size (conductors : Nat) (width height : ℚ)
  deriving DecidableEq, Repr

/-- The key of a wire (WindingSkinEffectLosses.cpp 347-356). -/
def keyOf (w : Wire) : Key :=
  match w.name with
  | some n => .name n
  | none => .size (w.conductors.getD 1) w.width w.height

/-- The caches of the thread (WindingSkinEffectLosses.cpp 139): one instance per model, which keeps factors by wire,
frequency and temperature. -/
abbrev Cache := List ((Nat × Key × ℚ × ℚ) × ℚ)

/-- `try_get_skin_factor` (WindingSkinEffectLosses.cpp 346-367). -/
def getFactor (s : Cache) (model : Nat) (w : Wire) (f t : ℚ) : Option ℚ := s.lookup (model, keyOf w, f, t)

/-- `set_skin_factor` (WindingSkinEffectLosses.cpp 370-384). -/
def setFactor (s : Cache) (model : Nat) (w : Wire) (f t x : ℚ) : Cache := ((model, keyOf w, f, t), x) :: s

/-- The formulas of the factor, by model: wire, frequency and temperature. -/
abbrev Factors := Nat → Wire → ℚ → ℚ → Res ℚ

/-- One question: model, wire, losses without the effect, frequency and temperature. -/
structure Call where
  model : Nat
  wire : Wire
  dc : ℚ
  frequency : ℚ
  temperature : ℚ
  deriving DecidableEq, Repr

/-- `calculate_turn_losses` of the models with a factor (WindingSkinEffectLosses.cpp 497-511, 642-656, and alike at 790,
1024, 1069, 1119, 1179, 1225, 1270 and 1387). -/
def turnLosses (factors : Factors) (q : Call) : M Cache ℚ := fun s =>
  match getFactor s q.model q.wire q.frequency q.temperature with
  | some x => (s, .ok (q.dc * (x - 1)))
  | none => match factors q.model q.wire q.frequency q.temperature with
    | .ok x => (setFactor s q.model q.wire q.frequency q.temperature x, .ok (q.dc * (x - 1)))
    | .throws e => (s, .throws e)
    | .ub => (s, .ub)

/-- The cache after questions asked before, whatever their outcome. -/
def after (factors : Factors) : List Call → Cache → Cache
  | [], s => s
  | q :: qs, s => after factors qs (turnLosses factors q s).1

end Verif.WindingLosses
