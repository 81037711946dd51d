import Mathlib.Algebra.Order.Field.Rat

/-! # The candidates of the core adviser

Models `CoreAdviser::create_magnetic_dataset` (both overloads) and `expand_magnetic_dataset_with_stacks`
(`src/advisers/CoreAdviserDataset.cpp`), and the `get_advised_core` that calls them with the cores it was handed by
pointer (`src/advisers/CoreAdviser.cpp:357-389`). The search through the filters is a parameter. A core is reduced to what
these functions read of it. Exceptions of the processing of cores and of the lookup of materials are not modelled. -/

namespace Verif.Dataset

/-- `MAS::CoreType`, as far as the datasets distinguish it (src/advisers/CoreAdviserDataset.cpp:241-259). -/
inductive Typ where
  | toroidal | twoPieceSet | pieceAndPlate | other
  deriving DecidableEq, Repr

/-- `MAS::CoreShapeFamily`, as far as the datasets distinguish it (src/advisers/CoreAdviserDataset.cpp:292, 341). -/
inductive Family where
  | e | planarE | t | u | c | pqi | ui | ut | other
  deriving DecidableEq, Repr

/-- `MAS::MagneticApplication`, as far as the adviser distinguishes it (src/advisers/CoreAdviserDataset.cpp:229,
src/advisers/CoreAdviser.cpp:369). -/
inductive Application where
  | power | suppression | other
  deriving DecidableEq, Repr

/-- What the datasets read of a core (src/advisers/CoreAdviserDataset.cpp:223-318). `key` tells the record of the catalogue it
comes from and nothing in the code reads it. `suits`: what `check_material_application` answers of its material for the
application of the adviser. `columns`, `windowHeight`, `windowWidth`, `height`: of the processed description, which do not
depend on the number of stacks (`scale_to_stacks`, src/constructive_models/Core.cpp:713-726, scales areas, volumes and
depths). `fits`: what `process_gap` answers with a number of stacks. `gaps`: the gaps there are after it. `count`: the
number of stacks. -/
structure Part where
  key : Nat
  name : Option String
  typ : Typ
  family : Family
  suits : Bool
  columns : Nat
  windowHeight : ℚ
  windowWidth : ℚ
  height : ℚ
  fits : Nat → Bool
  gaps : Nat
  count : Nat

/-- What the datasets read of the adviser, of the inputs and of the settings (src/advisers/CoreAdviserDataset.cpp:206-218).
`choke`: the topology asked for is that of a common mode choke. `printed`: the wiring is of printed circuits. -/
structure Job where
  application : Application
  choke : Bool
  printed : Bool
  maximumHeight : Option ℚ
  toroidal : Bool
  concentric : Bool
  stacked : Bool
  distributed : Bool

/-- A magnetic of the dataset: the reference of its manufacturer and its core; the score is 0 and the coil the dummy
(src/advisers/CoreAdviserDataset.cpp:312-316). -/
structure Entry where
  reference : Option String
  core : Part

/-- `defaults.coreAdviserMaximumNumberStacks` (src/Defaults.h:30). -/
def maximumStacks : Nat := 4

/-- The families that are stacked (src/advisers/CoreAdviserDataset.cpp:292, 404, 468). -/
def stackable : Family → Bool
  | .e | .planarE | .t | .u | .c => true
  | _ => false

/-- The types of cores the user left out (src/advisers/CoreAdviserDataset.cpp:246-251, 255-261). -/
def leftOut (job : Job) (p : Part) : Bool :=
  (!job.toroidal && p.typ == .toroidal) ||
    (!job.concentric && (p.typ == .pieceAndPlate || p.typ == .twoPieceSet))

/-- The check of the type of core (src/advisers/CoreAdviserDataset.cpp:229-262, 346-373). -/
def typeOk (job : Job) (p : Part) : Bool :=
  if job.application == .suppression && job.choke then p.typ == .toroidal else !leftOut job p

/-- The check for printed circuits (src/advisers/CoreAdviserDataset.cpp:265-276, 376-387). -/
def printedOk (job : Job) (p : Part) : Bool :=
  !job.printed || (p.typ != .toroidal && p.columns != 2 && !decide (p.windowWidth < p.windowHeight))

/-- The check of the height, of two-piece sets only (src/advisers/CoreAdviserDataset.cpp:213-218, 282-286). -/
def heightOk (job : Job) (p : Part) : Bool :=
  match job.maximumHeight with
  | none => true
  | some h => !(p.typ == .twoPieceSet && decide (h < p.height))

/-- The check of distributed gaps (src/advisers/CoreAdviserDataset.cpp:288-290, 400-402). -/
def gapsOk (job : Job) (p : Part) : Bool := job.distributed || !decide (p.columns < p.gaps)

/-- The checks after that of the material, in order (src/advisers/CoreAdviserDataset.cpp:229-290, 346-402). -/
def geometryOk (job : Job) (p : Part) : Bool :=
  typeOk job p && printedOk job p && p.fits p.count && heightOk job p && gapsOk job p

/-- The checks a core of the catalogue passes (src/advisers/CoreAdviserDataset.cpp:224-290). -/
def admitted (job : Job) (p : Part) : Bool := p.suits && geometryOk job p

/-- What is put after the name of a stack of `k` cores (src/advisers/CoreAdviserDataset.cpp:302, 422, 485). -/
def suffix (k : Nat) : String := " " ++ toString k ++ " stacks"

/-- `get_name().value_or("unnamed")` (src/advisers/CoreAdviserDataset.cpp:302, 305, 314, 407, 435, 483). -/
def named (p : Part) : String := p.name.getD "unnamed"

/-- The stacks of one core of the catalogue: the reference tells the number, the core keeps its name
(src/advisers/CoreAdviserDataset.cpp:293-309). -/
def stackEntry (p : Part) (i : Nat) : Entry :=
  ⟨some (if i = 0 then named p else named p ++ suffix (1 + i)), { p with count := 1 + i }⟩

/-- One turn of the loop of `create_magnetic_dataset` over cores: what it appends and what it leaves in the vector of the
caller, which it walks by reference (src/advisers/CoreAdviserDataset.cpp:223-318). -/
def createOne (job : Job) (includeStacks : Bool) (p : Part) : List Entry × Part :=
  if admitted job p then
    if includeStacks && job.stacked && stackable p.family then
      ((List.range maximumStacks).map (stackEntry p), { p with count := maximumStacks })
    else ([⟨some (named p), p⟩], p)
  else ([], p)

/-- Models `create_magnetic_dataset` over cores (src/advisers/CoreAdviserDataset.cpp:206-321): the dataset and the cores of the
caller afterwards. -/
def create (job : Job) (includeStacks : Bool) (cores : List Part) : List Entry × List Part :=
  (cores.flatMap (fun p => (createOne job includeStacks p).1), cores.map (fun p => (createOne job includeStacks p).2))

/-- The stacks of one shape: the core is renamed as well (src/advisers/CoreAdviserDataset.cpp:407-430). -/
def stackShape (p : Part) (i : Nat) : Entry :=
  let name := if i = 0 then named p else named p ++ suffix (1 + i)
  ⟨some name, { p with count := 1 + i, name := some name }⟩

/-- The families no candidate is made of (src/advisers/CoreAdviserDataset.cpp:341-343). -/
def skipped : Family → Bool
  | .pqi | .ui | .ut | .c => true
  | _ => false

/-- One turn of the loop of `create_magnetic_dataset` over shapes, of which each makes a core of its own
(src/advisers/CoreAdviserDataset.cpp:340-439). -/
def shapeOne (job : Job) (includeStacks : Bool) (p : Part) : List Entry :=
  if !skipped p.family && geometryOk job p then
    if includeStacks && job.stacked && stackable p.family then (List.range maximumStacks).map (stackShape p)
    else [⟨some (named p), p⟩]
  else []

/-- Models `create_magnetic_dataset` over shapes (src/advisers/CoreAdviserDataset.cpp:323-442). -/
def createShapes (job : Job) (includeStacks : Bool) (shapes : List Part) : List Entry :=
  shapes.flatMap (shapeOne job includeStacks)

/-- Whether the expression ` [0-9] stacks` matches at the start (src/advisers/CoreAdviserDataset.cpp:484). -/
def marks : List Char → Bool
  | ' ' :: d :: ' ' :: 's' :: 't' :: 'a' :: 'c' :: 'k' :: 's' :: _ => d.isDigit
  | _ => false

/-- `std::regex_replace` of ` [0-9] stacks` by nothing (src/advisers/CoreAdviserDataset.cpp:484): from left to right, every
match is dropped, and the search goes on after it; the first argument counts the characters of the match still to be
dropped. -/
def strip : Nat → List Char → List Char
  | _, [] => []
  | k + 1, _ :: cs => strip k cs
  | 0, c :: cs => if marks (c :: cs) then strip 8 cs else c :: strip 0 cs

/-- The name without what earlier stacks left in it (src/advisers/CoreAdviserDataset.cpp:483-484). -/
def stripped (s : String) : String := String.ofList (strip 0 s.toList)

/-- The core of a caller after it was made a stack of `k` (src/advisers/CoreAdviserDataset.cpp:477-485). -/
def restacked (p : Part) (k : Nat) : Part :=
  { p with count := k, name := some (stripped (named p) ++ suffix k) }

/-- The loop over the numbers of stacks (src/advisers/CoreAdviserDataset.cpp:475-491): what it appends and the core it leaves. -/
def restack : Part → List Nat → List Entry × Part
  | p, [] => ([], p)
  | p, k :: ks => (⟨(restacked p k).name, restacked p k⟩ :: (restack (restacked p k) ks).1, (restack (restacked p k) ks).2)

/-- The checks of `expand_magnetic_dataset_with_stacks` (src/advisers/CoreAdviserDataset.cpp:458-473). -/
def expandable (job : Job) (p : Part) : Bool :=
  !(!job.toroidal && p.typ == .toroidal) && heightOk job p && stackable p.family && p.fits p.count

/-- The numbers of stacks it tries, from two (src/advisers/CoreAdviserDataset.cpp:475-477). -/
def stackNumbers : List Nat := (List.range (maximumStacks - 1)).map (· + 2)

/-- One turn of the loop of `expand_magnetic_dataset_with_stacks` (src/advisers/CoreAdviserDataset.cpp:457-494). -/
def expandOne (job : Job) (p : Part) : List Entry × Part :=
  if expandable job p then restack p stackNumbers else ([], p)

/-- Models `expand_magnetic_dataset_with_stacks` (src/advisers/CoreAdviserDataset.cpp:444-495): what it appends to the dataset and
the cores of the caller afterwards. -/
def expand (job : Job) (cores : List Part) : List Entry × List Part :=
  (cores.flatMap (fun p => (expandOne job p).1), cores.map (fun p => (expandOne job p).2))

/-- A request to the adviser. `search`: what the filters make of a dataset, with `true` in the second attempt, in which nothing
is culled (src/advisers/CoreAdviser.cpp:369-388). -/
structure Request (R : Type) where
  job : Job
  wanted : Nat
  search : Bool → List Entry → List R

variable {R : Type}

/-- Whether the first attempt leaves the adviser short of results, with stacks allowed (src/advisers/CoreAdviser.cpp:369-378). -/
def starved (q : Request R) (cores : List Part) : Bool :=
  q.job.application == .power && decide ((q.search false (create q.job false cores).1).length < q.wanted)

/-- Models `get_advised_core` over the cores it is handed (src/advisers/CoreAdviser.cpp:357-389): the results and the cores
afterwards. The same pointer is that of the catalogue of the process when the adviser is asked without cores
(src/advisers/CoreAdviser.cpp:198-203, 243-246). -/
def advise (q : Request R) (cores : List Part) : List R × List Part :=
  let first := create q.job false cores
  if starved q cores then
    if q.job.stacked then
      (q.search true (first.1 ++ (expand q.job first.2).1), (expand q.job first.2).2)
    else (q.search true first.1, first.2)
  else (q.search false first.1, first.2)

/-- The catalogue after a history of requests. -/
def after : List (Request R) → List Part → List Part
  | [], cores => cores
  | q :: qs, cores => after qs (advise q cores).2

/-- The largest dataset a request may put to the filters: that of its second attempt (src/advisers/CoreAdviser.cpp:363, 375-382). -/
def offered (q : Request R) (cores : List Part) : List Entry :=
  if starved q cores && q.job.stacked then
    (create q.job false cores).1 ++ (expand q.job (create q.job false cores).2).1
  else (create q.job false cores).1

end Verif.Dataset
