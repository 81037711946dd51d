import Mathlib.Algebra.Order.Field.Basic
import Mathlib.Algebra.Order.Floor.Ring
import Mathlib.Data.List.Dedup
import Mathlib.Data.Rat.Floor
import Mathlib.Data.List.Sort

/-!
# What the coil adviser tries and gives

Models `src/advisers/CoilAdviser.cpp`: the shares of the window (58-213), the check before a second attempt at winding
(222-283), the wires offered (335-379), the last steps of `get_advised_coil` (616-678), the wires of windings wound
together (1220-1232), the walk through the wires (1187-1422) and the layers of a planar coil (794-889). Doubles are
elements of an ordered field.
-/

namespace Verif.CoilAdvice

/-- A winding as far as the shares of the window go. `width` and `height` are `get_maximum_outer_width` and
`get_maximum_outer_height` of its wire (src/advisers/CoilAdviser.cpp:169-171). -/
structure Winding (K : Type) where
  name : String
  woundWith : Option (List String)
  window : Option Int
  width : K
  height : K
  turns : Nat
  parallels : Nat

variable {K : Type}

/-- The inner loop over the windings for one partner, with the lowest index so far
(src/advisers/CoilAdviser.cpp:74-78, 155-159). `j` is the index of the first winding of the list. -/
def lowestNamed (p : String) : List (Winding K) → Nat → Nat → Nat
  | [], _, m => m
  | w :: ws, j, m => lowestNamed p ws (j + 1) (if w.name = p ∧ j < m then j else m)

/-- The representative of the group of one winding (src/advisers/CoilAdviser.cpp:68-82, 149-162). -/
def representative (ws : List (Winding K)) (w : Winding K) (i : Nat) : Nat :=
  (w.woundWith.getD []).foldl (fun m p => lowestNamed p ws 0 m) i

/-- The representatives of all the windings (src/advisers/CoilAdviser.cpp:68-82, 149-162). -/
def representatives (ws : List (Winding K)) : List Nat := ws.zipIdx.map fun x => representative ws x.1 x.2

section Shares
variable [Field K] [LinearOrder K] [IsStrictOrderedRing K]

/-- Models `calculate_winding_window_proportion_per_winding` with a coil that has windings
(src/advisers/CoilAdviser.cpp:58-95); without any the inputs decide, which is not modelled. -/
def equalShares (ws : List (Winding K)) : List K :=
  let reps := representatives ws
  reps.map fun r => 1 / (reps.dedup.length : K) / (reps.count r : K)

/-- The sections of one winding (src/advisers/CoilAdviser.cpp:177-183, 252-258). -/
def sectionsOf (pattern : List Nat) (repetitions i : Nat) : Nat := pattern.count i * repetitions

/-- The slots reserved for leads (src/advisers/CoilAdviser.cpp:191-197): `real` is the setting of real winding geometry,
`u` whether the winding order is U. -/
def leadSlots (real u : Bool) (parallels sections : Nat) : Nat :=
  if real = true then
    if u = true ∧ 1 < sections then parallels * 2 + parallels * (sections - 1) else parallels * 2
  else 0

/-- The area that one winding needs (src/advisers/CoilAdviser.cpp:198-199). -/
def areaNeeded (real u : Bool) (pattern : List Nat) (repetitions : Nat) (w : Winding K) (i : Nat) : K :=
  ((w.turns * w.parallels + leadSlots real u w.parallels (sectionsOf pattern repetitions i) : Nat) : K) * w.width * w.height

/-- The areas of all the windings (src/advisers/CoilAdviser.cpp:166-202). -/
def areas (real u : Bool) (pattern : List Nat) (repetitions : Nat) (ws : List (Winding K)) : List K :=
  ws.zipIdx.map fun x => areaNeeded real u pattern repetitions x.1 x.2

/-- The area of one group (src/advisers/CoilAdviser.cpp:200). -/
def groupArea (reps : List Nat) (as : List K) (r : Nat) : K := (((reps.zip as).filter fun x => x.1 = r).map Prod.snd).sum

/-- Whether the given shares are kept (src/advisers/CoilAdviser.cpp:121-131, 172-174, 203-205). A window other than the
first, a wire without size or no area at all. -/
def keepsShares (real u : Bool) (pattern : List Nat) (repetitions : Nat) (ws : List (Winding K)) (equal : List K) : Bool :=
  decide (ws.length = 0 ∨ equal.length ≠ ws.length) ||
    ws.any (fun w => decide (w.window ≠ none ∧ w.window ≠ some 0)) ||
    ws.any (fun w => decide (¬ 0 < w.width ∨ ¬ 0 < w.height)) ||
    decide (¬ 0 < (areas real u pattern repetitions ws).sum)

/-- Models `calculate_winding_window_proportion_per_wire_combination` (src/advisers/CoilAdviser.cpp:117-213). -/
def wireShares (real u : Bool) (pattern : List Nat) (repetitions : Nat) (ws : List (Winding K)) (equal : List K) : List K :=
  if keepsShares real u pattern repetitions ws equal = true then equal
  else
    let reps := representatives ws
    let as := areas real u pattern repetitions ws
    reps.map fun r => groupArea reps as r / as.sum / (reps.count r : K)

/-- The tolerance of the check (src/advisers/CoilAdviser.cpp:273-278). -/
def eps : K := 1 / 10 ^ 9

variable [FloorRing K]

/-- The check of whole turns and whole layers in one section (src/advisers/CoilAdviser.cpp:273-280): `turnExtent` and
`layerExtent` are the extents along which turns and layers follow each other. -/
def sectionHolds (physical : K) (turnExtent layerExtent turnPitch layerPitch : K) : Bool :=
  if ⌊turnExtent / turnPitch + eps⌋ < 1 then false
  else decide (¬ (⌈physical / (⌊turnExtent / turnPitch + eps⌋ : K) - eps⌉ : K) * layerPitch > layerExtent + eps)

/-- The window and the orientations (src/advisers/CoilAdviser.cpp:241-244). -/
structure Room (K : Type) where
  width : K
  height : K
  sectionsAlongWidth : Bool
  layersAlongWidth : Bool

/-- The width of a section of a winding with a share (src/advisers/CoilAdviser.cpp:264). -/
def Room.sectionWidth (r : Room K) (share : K) (sections : Nat) : K :=
  if r.sectionsAlongWidth = true then r.width * share / (sections : K) else r.width

/-- The height of a section of a winding with a share (src/advisers/CoilAdviser.cpp:265). -/
def Room.sectionHeight (r : Room K) (share : K) (sections : Nat) : K :=
  if r.sectionsAlongWidth = true then r.height else r.height * share / (sections : K)

/-- The check of one winding in sections of a size (src/advisers/CoilAdviser.cpp:266-280). -/
def windingHolds (r : Room K) (w : Winding K) (sections : Nat) (width height : K) : Bool :=
  let physical : K := (⌈((w.turns * w.parallels : Nat) : K) / (sections : K)⌉ : K)
  if r.layersAlongWidth = true then sectionHolds physical height width w.height w.width
  else sectionHolds physical width height w.width w.height

/-- The check of one winding (src/advisers/CoilAdviser.cpp:245-280). -/
def windingPackable (r : Room K) (pattern : List Nat) (repetitions : Nat) (w : Winding K) (i : Nat) (share : K) : Bool :=
  if ¬ 0 < w.width ∨ ¬ 0 < w.height then true
  else if sectionsOf pattern repetitions i < 1 then true
  else windingHolds r w (sectionsOf pattern repetitions i)
    (r.sectionWidth share (sectionsOf pattern repetitions i)) (r.sectionHeight share (sectionsOf pattern repetitions i))

/-- Models `combination_is_packable` (src/advisers/CoilAdviser.cpp:222-283). `room` is `none` for a bobbin that is not
processed or a window without width or height. Windings and shares are as many (1265-1268). -/
def packable (room : Option (Room K)) (pattern : List Nat) (repetitions : Nat) (ws : List (Winding K)) (shares : List K) :
    Bool :=
  if ws.any (fun w => decide (w.window ≠ none ∧ w.window ≠ some 0)) = true then true
  else match room with
    | none => true
    | some r => (ws.zipIdx.zip shares).all fun x => windingPackable r pattern repetitions x.1.1 x.1.2 x.2

end Shares

/-! ## The walk through the wires -/

/-- The wires found for one winding, by their scores, and the index of the one being tried
(src/advisers/CoilAdviser.cpp:1187). -/
structure Reel (K : Type) where
  scores : List K
  current : Nat

/-- Whether a winding has another wire (src/advisers/CoilAdviser.cpp:1402, 1413). -/
abbrev Reel.more (r : Reel K) : Prop := r.current + 1 < r.scores.length

section Walk
variable [LinearOrder K]

/-- Whether a score is below the worst so far; `none` is the largest double (src/advisers/CoilAdviser.cpp:1400, 1404). -/
def below (s : K) : Option K → Bool
  | none => true
  | some m => decide (s < m)

/-- The loop for the winding with the worst score (src/advisers/CoilAdviser.cpp:1399-1409). Scores are below the largest
double. -/
def worstFrom : List (Reel K) → Nat → Nat → Option K → Nat
  | [], _, low, _ => low
  | r :: rs, w, low, worst =>
    match r.scores[r.current]? with
    | some s =>
      if r.more ∧ below s worst = true then worstFrom rs (w + 1) w (some s) else worstFrom rs (w + 1) low worst
    | none => worstFrom rs (w + 1) low worst

/-- Whether the winding of an index has another wire (src/advisers/CoilAdviser.cpp:1413). -/
def moreAt (rs : List (Reel K)) (i : Nat) : Bool :=
  match rs[i]? with
  | some r => decide r.more
  | none => false

/-- The loop for a winding that has another wire, starting at one (src/advisers/CoilAdviser.cpp:1411-1418). -/
def scan (rs : List (Reel K)) : Nat → Nat → Option Nat
  | 0, _ => none
  | f + 1, low => if moreAt rs low = true then some low else scan rs f ((low + 1) % rs.length)

/-- The next wire of one winding (src/advisers/CoilAdviser.cpp:1421). -/
def bump (rs : List (Reel K)) (i : Nat) : List (Reel K) := rs.modify i fun r => { r with current := r.current + 1 }

/-- One step of the walk (src/advisers/CoilAdviser.cpp:1399-1421, 1696-1718); `none` when all windings are at their last
wire. -/
def step (rs : List (Reel K)) : Option (List (Reel K)) := (scan rs rs.length (worstFrom rs 0 0 none)).map (bump rs)

/-- The combinations tried, if none of the exits for results or failures is taken, with a timeout of `n + 1`
(src/advisers/CoilAdviser.cpp:1206-1422). Those exits leave the first ones of this list. -/
def walk : Nat → List (Reel K) → List (List Nat)
  | 0, rs => [rs.map (·.current)]
  | n + 1, rs => rs.map (·.current) :: (match step rs with
    | none => []
    | some rs' => walk n rs')

/-- The walk of wound coils: the timeout is one less the number of windings plus all the wires
(src/advisers/CoilAdviser.cpp:1002, 1038, 1158, 1394-1397). -/
def tried (scores : List (List K)) : List (List Nat) :=
  walk ((scores.map List.length).sum - scores.length) (scores.map fun s => ⟨s, 0⟩)

end Walk

/-! ## Wires of windings wound together -/

/-- A winding of a combination: its name, the first of the list it is wound with, if there is one, and what it takes from
another (wire and parallels). -/
structure Strand (A : Type) where
  name : String
  first : Option String
  wire : A

/-- The step for one winding (src/advisers/CoilAdviser.cpp:1220-1232, 1595-1607). -/
def mirrorOne {A : Type} (ws : List (Strand A)) (i : Nat) : List (Strand A) :=
  match ws[i]? with
  | none => ws
  | some w => match w.first with
    | none => ws
    | some p => match ws.find? (fun v => decide (v.name = p)) with
      | none => ws
      | some v => ws.modify i fun x => { x with wire := v.wire }

/-- The loop over the windings (src/advisers/CoilAdviser.cpp:1220-1232, 1595-1607). -/
def mirror {A : Type} (ws : List (Strand A)) : List (Strand A) := (List.range ws.length).foldl mirrorOne ws

/-! ## What is given -/

/-- A coil that was wound: whether all filters accept it, whether a winding is in another window than the first, and its
score after normalisation (src/advisers/CoilAdviser.cpp:294-333, 659-666). -/
structure Candidate (K : Type) where
  id : Nat
  valid : Bool
  lateral : Bool
  score : K
deriving DecidableEq

/-- What `get_advised_coil` ends with: results, each with whether its reference is marked as invalid, or undefined
behaviour. -/
inductive Given (K : Type) where
  | results (l : List (Candidate K × Bool))
  | undefined
deriving DecidableEq

section Give
variable [LinearOrder K]

/-- The stable sort by score, highest first (src/advisers/CoilAdviser.cpp:620-622, 635-637). -/
def ranked (l : List (Candidate K)) : List (Candidate K) := l.insertionSort fun a b => b.score ≤ a.score

/-- Cuts the list and keeps a place for the best lateral one (src/advisers/CoilAdviser.cpp:649-678). The vector has no
last element when no results are asked for. -/
def cut (maximum : Nat) (l : List (Candidate K)) : Option (List (Candidate K)) :=
  if maximum < l.length then
    match l.findIdx? (·.lateral) with
    | none => some (l.take maximum)
    | some i =>
      if maximum ≤ i then
        if maximum = 0 then none
        else some ((l.take maximum).dropLast ++ (l[i]?).toList)
      else some (l.take maximum)
  else some l

/-- Models the end of `get_advised_coil` (src/advisers/CoilAdviser.cpp:616-678). Coils get their manufacturer information
when they are wound (1371-1379, 1672-1684), so all the invalid ones are marked. -/
def give (maximum : Nat) (cs : List (Candidate K)) : Given K :=
  if cs.filter (·.valid) = [] then
    .results (((ranked (cs.filter fun c => !c.valid)).take maximum).map fun c => (c, true))
  else match cut maximum (ranked (cs.filter (·.valid))) with
    | none => .undefined
    | some l => .results (l.map fun c => (c, false))

end Give

/-! ## Wires offered -/

/-- A wire of the catalogue: whether its type is accepted by the constraints and the settings, and its standard
(src/advisers/CoilAdviser.cpp:356-371). -/
structure Spool (S : Type) where
  name : String
  typeAccepted : Bool
  standard : Option S
deriving DecidableEq

/-- One pass over the catalogue (src/advisers/CoilAdviser.cpp:356-377). -/
def pass {S : Type} [DecidableEq S] (enforce : Bool) (preferred : Option S) (db : List (Spool S)) : List (Spool S) :=
  db.filter fun w => w.typeAccepted &&
    (decide (enforce = false ∨ preferred = none ∨ w.standard = none) || decide (w.standard = preferred))

/-- Models the choice of wires of `get_advised_coil` without wires (src/advisers/CoilAdviser.cpp:344-378). -/
def offered {S : Type} [DecidableEq S] (preferred : Option S) (db : List (Spool S)) : List (Spool S) :=
  match pass true preferred db with
  | [] => pass false preferred db
  | w :: ws => w :: ws

/-! ## Layers of a planar coil -/

section Planar
variable [Field K] [LinearOrder K] [IsStrictOrderedRing K] [FloorRing K]

/-- The layers of each winding by its share, with the rest one by one (src/advisers/CoilAdviser.cpp:801-810). `none`: the
shares give more layers than there are and the difference wraps around. -/
def allocate (total : Nat) (shares : List K) : Option (List Nat) :=
  let first := shares.map fun p => ⌊(total : K) * p⌋₊
  if first.sum ≤ total then
    some ((List.range (total - first.sum)).foldl (fun l i => l.modify (i % shares.length) (· + 1)) first)
  else none

/-- What bounds the layers of one winding: those its turns need, those the height allows for copper that is thick for
the frequency, and its parallels (src/advisers/CoilAdviser.cpp:822-874). -/
structure Bound where
  needed : Nat
  byHeight : Option Nat
  parallels : Nat

/-- The layers of a winding within its bounds (src/advisers/CoilAdviser.cpp:833, 854, 868-874). -/
def bounded (b : Bound) (layers : Nat) : Nat :=
  let l := match b.byHeight with
    | some h => min (min layers b.needed) h
    | none => min layers b.needed
  if 1 < b.parallels then max l b.parallels else l

/-- The layers a winding gets in one repetition when `left` repetitions are left (src/advisers/CoilAdviser.cpp:879-880). -/
def inRepetition (layers left : Nat) : Nat := ⌈(layers : K) / (left : K)⌉₊

/-- The stack of one repetition (src/advisers/CoilAdviser.cpp:878-885). -/
def oneRepetition (layers : List Nat) (left : Nat) : List Nat :=
  layers.zipIdx.flatMap fun x => List.replicate (inRepetition (K := K) x.1 left) x.2

/-- The stack from the repetitions that are left (src/advisers/CoilAdviser.cpp:877-886). -/
def stackFrom : Nat → List Nat → List Nat
  | 0, _ => []
  | left + 1, layers =>
    oneRepetition (K := K) layers (left + 1) ++ stackFrom left (layers.map fun l => l - inRepetition (K := K) l (left + 1))

/-- Models `get_planar_stackup` (src/advisers/CoilAdviser.cpp:794-889); the pattern is not looked at. -/
def stackUp (total : Nat) (shares : List K) (bounds : List Bound) (_pattern : List Nat) (repetitions : Nat) :
    Option (List Nat) :=
  (allocate total shares).map fun l => stackFrom (K := K) repetitions (l.zipWith (fun n b => bounded b n) bounds)

end Planar
end Verif.CoilAdvice
