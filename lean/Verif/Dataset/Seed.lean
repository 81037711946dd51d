import Verif.Common.Round

/-! # The turns the core adviser starts from

Models `add_initial_turns_by_inductance` and `get_dummy_coil` (`src/advisers/CoreAdviserDataset.cpp`). The inductance and
saturation models are parameters. -/

namespace Verif.Dataset

variable {K : Type} [Field K] [LinearOrder K] [IsStrictOrderedRing K] [FloorRing K]

/-- Models `calculate_turns_from_volt_seconds_and_max_flux_density` (src/physical_models/MagnetizingInductance.cpp:1175-1186). -/
def voltTurns (area voltSeconds ceiling : K) : K :=
  if area ≤ 0 ∨ ceiling ≤ 0 ∨ voltSeconds ≤ 0 then 0 else max 1 ((⌈voltSeconds / (ceiling * area)⌉ : ℤ) : K)

/-- `maximum_allowed_magnetic_flux_density` (src/advisers/MagneticFilterInternal.h:160-163). -/
def allowedFlux (saturation margin proportion : K) : K := saturation * min (1 / margin) proportion

/-- The turns of a transformer (src/advisers/CoreAdviserDataset.cpp:590-606); `none`: the exception that drops the candidate. -/
def transformerTurns (area voltSeconds saturation margin proportion : K) : Option K :=
  let n := voltTurns area voltSeconds (allowedFlux saturation margin proportion)
  if n ≤ 0 then none else some n

/-- The turns of the next step of the search for a gap that does not saturate (src/advisers/CoreAdviserDataset.cpp:781-782). -/
def nextTurns (required n current : K) : K :=
  if Round.round (((⌈n * (required / current)⌉ : ℤ)) : K) ≤ Round.round n then n + 1
  else ((⌈n * (required / current)⌉ : ℤ) : K)

variable {C : Type}

/-- The loop of that search (src/advisers/CoreAdviserDataset.cpp:775-791). `attempt`: the core with the gap solved for a number
of turns and the current that saturates it, `none` where the solver or the model of saturation gives nothing. The result
carries the number of turns the loop ends with and the core it accepted. -/
def regapLoop (attempt : ℤ → Option (C × K)) (required : K) : Nat → K → K → Option C → K × Option C
  | 0, n, _, accepted => (n, accepted)
  | steps + 1, n, current, accepted =>
    match attempt (Round.round (nextTurns required n current)) with
    | none => (nextTurns required n current, accepted)
    | some (core, next) =>
      if next ≤ 0 then (nextTurns required n current, accepted)
      else if required ≤ next then (nextTurns required n current, some core)
      else regapLoop attempt required steps (nextTurns required n current) next (some core)

/-- `maxSatSteps` (src/advisers/CoreAdviserDataset.cpp:779). -/
def maximumSteps : Nat := 30

/-- The turns and the core of an inductor after the search (src/advisers/CoreAdviserDataset.cpp:755-806). `seeded`: the current
that saturates the core as it came with the turns of the inductance, if the model gives it. -/
def regap (attempt : ℤ → Option (C × K)) (required : K) (turns : K) (core : C) (seeded : Option K) : K × C :=
  match seeded with
  | none => (turns, core)
  | some current =>
    if 0 < current ∧ current < required then
      match regapLoop attempt required maximumSteps turns current none with
      | (_, none) => (turns, core)
      | (n, some accepted) => (n, accepted)
    else (turns, core)

/-- How the sizing of one candidate ends (src/advisers/CoreAdviserDataset.cpp:570-820): sized, dropped because of an exception of
the library, or an exception of another kind, which nothing here catches. -/
inductive Sizing (E : Type) where
  | sized (e : E) | dropped | foreign

variable {E : Type}

/-- The loop over candidates (src/advisers/CoreAdviserDataset.cpp:568-821): the candidates afterwards and the indexes to erase, or
the candidates as an exception of another kind leaves them. What a candidate that throws was changed to before is not
modelled. -/
def sizeLoop (size : E → Sizing E) : Nat → List E → Except (List E) (List E × List Nat)
  | _, [] => .ok ([], [])
  | i, x :: xs =>
    match size x with
    | .foreign => .error (x :: xs)
    | .sized y =>
      match sizeLoop size (i + 1) xs with
      | .error rest => .error (y :: rest)
      | .ok (ys, is) => .ok (y :: ys, is)
    | .dropped =>
      match sizeLoop size (i + 1) xs with
      | .error rest => .error (x :: rest)
      | .ok (ys, is) => .ok (x :: ys, i :: is)

/-- The erasure, from the last index to the first (src/advisers/CoreAdviserDataset.cpp:822-824). -/
def eraseAll (xs : List E) (is : List Nat) : List E := is.foldr (fun i l => l.eraseIdx i) xs

/-- Models the loop and the erasure of `add_initial_turns_by_inductance` (src/advisers/CoreAdviserDataset.cpp:568-824). -/
def sizeAll (size : E → Sizing E) (xs : List E) : Except (List E) (List E) :=
  match sizeLoop size 0 xs with
  | .error left => .error left
  | .ok (ys, is) => .ok (eraseAll ys is)

/-- The inductance equivalent to the impedances asked for, each a frequency and a magnitude
(src/advisers/CoreAdviserDataset.cpp:549-560); `twoPi` is `2π`. -/
def equivalentInductance (twoPi : K) (specs : List (K × K)) : K :=
  specs.foldl (fun l s => if 0 < s.1 then max l (s.2 / (twoPi * s.1)) else l) 0

/-- From what the turns of a candidate come (src/advisers/CoreAdviserDataset.cpp:579-580, 693, 702). -/
inductive Seed where
  | kept | voltSeconds | impedance | inductance
  deriving DecidableEq, Repr

/-- The choice (src/advisers/CoreAdviserDataset.cpp:528, 563, 579-580, 693, 702). -/
def seedOf (turns : K) (inductor suppression : Bool) (equivalent : K) : Seed :=
  if turns = 1 then
    if !inductor then .voltSeconds
    else if suppression = true ∧ 0 < equivalent then .impedance
    else .inductance
  else .kept

/-! ## The dummy coil -/

/-- What `get_dummy_coil` reads of the operating points: for each, for each winding, the effective density and that of DC of the
current in one wire, `none` without a current (src/advisers/CoreAdviserDataset.cpp:123-136). -/
abbrev Densities (K : Type) := List (List (Option (K × K)))

/-- A winding of the dummy coil (src/advisers/CoreAdviserDataset.cpp:98-109): one turn of the wire of the frequency. -/
structure Dummy where
  name : String
  primary : Bool
  parallels : ℤ
  deriving DecidableEq, Repr

/-- The number of windings (src/advisers/CoreAdviserDataset.cpp:81-87). -/
def dummyWindings (choke : Bool) (points : Densities K) : Nat :=
  if choke then max 1 ((points[0]?).getD []).length else 1

/-- The name of a winding (src/advisers/CoreAdviserDataset.cpp:99-106). -/
def dummyName (windings w : Nat) : String :=
  if w = 0 then "primary" else if windings = 2 then "secondary" else "secondary_" ++ toString w

/-- The parallels of a winding (src/advisers/CoreAdviserDataset.cpp:107, 123-139). `effective`, `dc`: the two largest densities
allowed. -/
def dummyParallels (sizing choke : Bool) (effective dc : K) (points : Densities K) (w : Nat) : ℤ :=
  if sizing && !choke then
    match points with
    | [] => 1
    | point :: _ =>
      match point[w]? with
      | some (some d) => max 1 (max ⌈d.1 / effective⌉ ⌈d.2 / dc⌉)
      | _ => 1
  else 1

/-- Models `get_dummy_coil` (src/advisers/CoreAdviserDataset.cpp:50-147), without the choice of its wire. `choke`: what
`can_be_common_mode_choke` answers of the first operating point, `false` without any (src/advisers/CoreAdviserDataset.cpp:82-83). -/
def dummyCoil (sizing choke : Bool) (effective dc : K) (points : Densities K) : List Dummy :=
  (List.range (dummyWindings choke points)).map fun w =>
    ⟨dummyName (dummyWindings choke points) w, decide (w = 0), dummyParallels sizing choke effective dc points w⟩

end Verif.Dataset
