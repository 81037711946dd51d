import Verif.Filters.Basic

/-!
# The filter that looks for the turns of an impedance (src/advisers/MagneticFilterImpedance.cpp:25-286)

The impedances the model answers are given, for each number of turns. `ceilSqrt` is `std::ceil(std::sqrt(x))`, so that
`ceil(N * sqrt(1 / ratio))` is `ceilSqrt (N * N / ratio)`. The wire chosen enters as the area of a turn.
-/

namespace Verif.Filters.Choke

variable {K : Type} [Field K] [LinearOrder K]

/-- What the model of impedance answers: a magnitude, one that is not finite, or `ModelNotAvailableException`. -/
inductive Probe (K : Type)
  | magnitude (z : K)
  | notFinite
  | missing
  deriving DecidableEq

/-- An impedance required at a frequency. -/
structure Need (K : Type) where
  frequency : K
  magnitude : K

/-- What the search reads. `unit` is the impedance with one turn (lines 110-116), `probe` that with `n` turns at the temperature of the inputs
(lines 159-166), `later` that of the search by steps, with its bias at the default temperature (lines 239-246). `room` is the area of
the window and `turn` that of a turn. -/
structure Bench (K : Type) where
  needs : List (Need K)
  unit : Need K → Probe K
  probe : ℕ → Need K → Probe K
  later : ℕ → Need K → Probe K
  resonance : ℕ → K
  room : K
  turn : K
  ceilSqrt : K → ℕ

/-- What the filter ends in, with the turns of the first winding of the coil it leaves in the magnetic. `none`: those it came with. -/
inductive Verdict (K : Type)
  | answer (a : Answer K) (coil : Option ℕ)
  | undefined
  deriving DecidableEq

/-- The turns of the first jump (lines 103-128): `none` when some impedance with one turn is not usable. A required magnitude under zero makes
the conversion of `NaN` to an integer. -/
def jump (b : Bench K) : List (Need K) → ℕ → Outcome (Option ℕ)
  | [], n => .value (some n)
  | d :: rest, n =>
    match b.unit d with
    | .missing => .value none
    | .notFinite => .value none
    | .magnitude z =>
      if z ≤ 0 then .value none
      else if d.magnitude < 0 then .undefined
      else jump b rest (max n (max 1 (b.ceilSqrt (d.magnitude / z))))

/-- The turns do not fit: `conductorAreaTotal >= windingWindowArea` (lines 132-133, 193-194, 215). -/
def tooMany (b : Bench K) (n : ℕ) : Prop := b.room ≤ n * b.turn

instance (b : Bench K) (n : ℕ) : Decidable (tooMany b n) := inferInstanceAs (Decidable (_ ≤ _))

/-- One pass of measures (lines 152-178): do they all meet, what is left over, and the worst share. `none` when the model is missing. A measure that
is not finite meets its requirement when it is infinite; it is not modelled further and taken as missing. -/
def validate (probe : Need K → Probe K) : List (Need K) → Bool → K → K → Option (Bool × K × K)
  | [], meets, extra, worst => some (meets, extra, worst)
  | d :: rest, meets, extra, worst =>
    match probe d with
    | .missing => none
    | .notFinite => none
    | .magnitude z =>
      if z < d.magnitude then validate probe rest false extra (min worst (z / d.magnitude))
      else validate probe rest meets (extra + (z - d.magnitude)) worst

/-- The passes and the turns added between them (lines 151-199), `left` of them. -/
def rebump (b : Bench K) : ℕ → ℕ → Verdict K
  | 0, n => .answer rejected (some n)
  | left + 1, n =>
    match validate (b.probe n) b.needs true 0 1 with
    | none => .answer rejected (some n)
    | some (true, extra, _) => .answer ⟨true, .num extra⟩ (some n)
    | some (false, _, worst) =>
      if worst ≤ 0 then .undefined
      else
        let n' := max (b.ceilSqrt ((n : K) * n / worst)) (n + 1)
        if tooMany b n' then .answer rejected (some n) else rebump b left n'

/-- One pass of the search by steps (lines 236-261): `(validDesign, validMaterial, extra)`. -/
def measure (probe : Need K → Probe K) : List (Need K) → Bool → K → Bool × Bool × K
  | [], material, extra => (true, material, extra)
  | d :: rest, material, extra =>
    match probe d with
    | .missing => measure probe rest false extra
    | .notFinite => measure probe rest false extra
    | .magnitude z => if z < d.magnitude then (false, material, extra) else measure probe rest material (extra + (z - d.magnitude))

/-- The search by steps (lines 210-265), `left` steps from `n` turns. `share` is `selfResonantFrequencyMargin`. -/
def steps (b : Bench K) (share : K) : ℕ → ℕ → Option ℕ → Verdict K
  | 0, _, coil => .answer rejected coil
  | left + 1, n, coil =>
    if tooMany b n then .answer rejected coil
    else if b.needs.any (fun d => decide (share * b.resonance n < d.frequency)) then .answer rejected (some n)
    else
      match measure (b.later n) b.needs true 0 with
      | (true, true, extra) => .answer ⟨true, .num extra⟩ (some n)
      | (false, true, _) => steps b share left (n + 1) (some n)
      | (_, false, _) => .answer rejected (some n)

/-- `MagneticFilterCoreMinimumImpedance::evaluate_magnetic` (lines 86-286), with the requirement of impedance given. `passes` is
`kMaxRebumpIterations`, `tries` is `coilAdviserCmcImpedanceMaxIterations`. -/
def filter (b : Bench K) (share : K) (passes tries : ℕ) : Verdict K :=
  match jump b b.needs 1 with
  | .undefined => .undefined
  | .throws => .undefined
  | .value (some n) => if tooMany b n then .answer rejected none else rebump b passes n
  | .value none => steps b share tries 1 none

end Verif.Filters.Choke
