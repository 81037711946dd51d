import Verif.Winding.Split
import Mathlib.Data.List.Dedup

/-! # Winding the sections

Model of `get_ordered_sections`, `add_insulation_to_sections`, `plan_section_group`,
`wind_by_rectangular_sections` and the turn bookkeeping of `wind_by_round_sections`
(src/constructive_models/Coil.cpp). -/

namespace Verif.Winding

open Verif.Round

/-- Models `WindingOrientation`. -/
inductive Orientation where
  | overlapping
  | contiguous
  deriving DecidableEq, Repr

/-- What the section winders read from the coil. Indices at or past `windings` are never read by a
call that does not throw first.
* `inherit w` is the slot count a winding without sections of its own takes from a partner
  (src/constructive_models/Coil.cpp:8310-8360).
* `insulation a b` are the two dimensions of the insulation section between windings `a` and `b`
  (`_insulationSections`), where there is one.
* `wire w` is the largest outer width and height of the wire. Foil and planar wires without a
  conducting size are cut to the section by the code; here the size is the one after the cut.
* `margin k` are the margins of the `k`-th conduction section over all groups
  (`_marginsPerSection`), after `apply_margin_tape` and `equalize_margins`, which are not modelled. -/
structure Ctx where
  windings : Nat
  turns : Nat → Nat
  parallels : Nat → Nat
  override : Nat → Option Style
  inherit : Nat → Option Nat
  orientation : Orientation
  insulation : Nat → Nat → Option (ℚ × ℚ)
  wire : Nat → ℚ × ℚ
  margin : Nat → ℚ × ℚ

/-- A group of the coil: the windings of its partial windings, its dimensions, coordinates and
orientation (`Group`). -/
structure Group where
  members : List Nat
  dims : ℚ × ℚ
  centre : ℚ × ℚ
  orientation : Orientation

/-- Models `Coil::get_ordered_sections` (src/constructive_models/Coil.cpp:6541-6563). -/
def orderedSections (windings : Nat) (space : ℚ) (prop : Nat → ℚ) (pattern : List Nat) (reps : Nat) :
    Res (List (Nat × ℚ)) :=
  if ∃ w ∈ pattern, w ≥ windings then .thrown "Winding index does not exist in winding"
  else
    let order := (List.replicate reps pattern).flatten
    if ∃ w ∈ order, roundFloat (prop w) 6 > 1 then
      .thrown "proportionPerWinding[windingIndex] cannot be greater than 1"
    else
      .ok (order.map fun w =>
        (w, roundFloat (space * prop w / ((pattern.count w * reps : Nat) : ℚ)) 9))

/-- The thickness of an insulation section along the stacking axis
(`get_dimensions()[0]` when overlapping, `[1]` when contiguous). -/
def thickness (o : Orientation) (d : ℚ × ℚ) : ℚ :=
  match o with
  | .overlapping => d.1
  | .contiguous => d.2

/-- Models the first loop of `Coil::add_insulation_to_sections`
(src/constructive_models/Coil.cpp:6568-6594): each pair of neighbours with insulation between them
gives up half of its thickness each. -/
def shrink (ins : Nat → Nat → Option (ℚ × ℚ)) (o : Orientation) : List (Nat × ℚ) → List (Nat × ℚ)
  | [] => []
  | [a] => [a]
  | a :: b :: rest =>
    match ins a.1 b.1 with
    | none => a :: shrink ins o (b :: rest)
    | some d => (a.1, a.2 - thickness o d / 2) :: shrink ins o ((b.1, b.2 - thickness o d / 2) :: rest)
  termination_by l => l.length

/-- An entry of the planned list: a conduction section with its winding and space, or an insulation
section. The space stored with an insulation entry is never read again. -/
inductive Entry where
  | cond (winding : Nat) (space : ℚ)
  | ins
  deriving DecidableEq, Repr

/-- Models the second loop of `Coil::add_insulation_to_sections`
(src/constructive_models/Coil.cpp:6596-6616). -/
def interleave (ins : Nat → Nat → Option (ℚ × ℚ)) : List (Nat × ℚ) → List Entry
  | [] => []
  | [a] => [.cond a.1 a.2]
  | a :: b :: rest =>
    if (ins a.1 b.1).isSome then .cond a.1 a.2 :: .ins :: interleave ins (b :: rest)
    else .cond a.1 a.2 :: interleave ins (b :: rest)

/-- Models `Coil::add_insulation_to_sections` (src/constructive_models/Coil.cpp:6565-6640). An empty
list is indexed at 0: undefined behaviour. -/
def addInsulation (ins : Nat → Nat → Option (ℚ × ℚ)) (o : Orientation) (rectangular : Bool)
    (ordered : List (Nat × ℚ)) : Res (List Entry) :=
  match ordered with
  | [] => .ub
  | first :: rest =>
    let last := (first :: rest).getLast (by simp)
    let body := interleave ins (shrink ins o ordered)
    if (o ≠ .contiguous ∨ rectangular = false) ∧ (ins last.1 first.1).isSome then .ok (body ++ [.ins])
    else .ok body

/-- Number of conduction entries of a winding (src/constructive_models/Coil.cpp:8310-8315). -/
def sectionCount (entries : List Entry) (w : Nat) : Nat :=
  entries.countP fun e => match e with
    | .cond v _ => v == w
    | .ins => false

/-- What `plan_section_group` hands to the winders. -/
structure Plan where
  entries : List Entry
  slots : Nat → Nat
  style : Nat → Style

/-- The style of every winding, in order, as the vector version of `wind_by_consecutive_turns`
computes them (src/constructive_models/Coil.cpp:5120-5198): the first winding without slots throws. -/
def stylesOf (c : Ctx) (slots : Nat → Nat) : Nat → Res (List Style)
  | 0 => .ok []
  | k + 1 =>
    (stylesOf c slots k).bind fun ss =>
      (sectionStyle (c.turns k) (c.parallels k) (slots k) (c.override k)).bind fun s => .ok (ss ++ [s])

/-- Models `Coil::plan_section_group` (src/constructive_models/Coil.cpp:8231-8421) after the test for
a group without windings (see `windGroups`). With a single group the pattern and proportions are
used as given; with several, the pattern keeps the windings of the group and their proportions are
scaled to add up to one. Not modelled: the margins (see `Ctx.margin`), the removal of insulation by
margins in round contiguous windows (8300-8302), and mirroring of windows at negative x.
A proportion sum of zero gives NaN proportions. -/
def planGroup (c : Ctx) (g : Group) (prop : Nat → ℚ) (pattern : List Nat) (reps : Nat)
    (multi rectangular : Bool) : Res Plan :=
  let groupPattern := if multi then pattern.filter (fun w => decide (w ∈ g.members)) else pattern
  if multi = true ∧ groupPattern = [] then
    .thrown "Group has windings but none of them appear in the winding pattern"
  else
    let members := g.members.dedup
    let total := (members.map prop).sum
    if multi = true ∧ total = 0 then .nan
    else
      let prop' : Nat → ℚ := fun w => if multi = true ∧ w ∈ g.members then prop w / total else prop w
      let o := if rectangular then g.orientation else c.orientation
      let space := match o with
        | .overlapping => g.dims.1
        | .contiguous => g.dims.2
      (orderedSections c.windings space prop' groupPattern reps).bind fun ordered =>
        (addInsulation c.insulation c.orientation rectangular ordered).bind fun entries =>
          let own : Nat → Nat := fun w => sectionCount entries w
          let slots : Nat → Nat := fun w =>
            if own w ≠ 0 then own w
            else if multi = true ∧ w ∉ g.members then 1
            else (c.inherit w).getD 0
          (stylesOf c slots c.windings).bind fun styles =>
            .ok { entries, slots, style := fun w => styles.getD w .turns }

/-- A wound section. `winding = none` is an insulation section. -/
structure Section where
  winding : Option Nat
  index : Nat
  dims : ℚ × ℚ
  centre : ℚ × ℚ
  physical : Nat
  props : List ℚ
  style : Style
  deriving DecidableEq, Repr

/-- The state of the section loop: what is left of every parallel of every winding, how many
sections each winding has had in this group, the running edge, and the ordinal of the next
conduction section. -/
structure St where
  rem : Nat → List ℚ
  count : Nat → Nat
  edge : ℚ × ℚ
  ordinal : Nat

/-- Function update. -/
def upd {α : Type} (f : Nat → α) (w : Nat) (a : α) : Nat → α := fun v => if v = w then a else f v

/-- Models the conduction branch of the loop of `wind_by_rectangular_sections`
(src/constructive_models/Coil.cpp:8473-8621). The running edge is the left edge when sections
overlap and the top edge when they are contiguous. -/
def windSection (c : Ctx) (g : Group) (plan : Plan) (w : Nat) (space : ℚ) (s : St) : Res (Section × St) :=
  let width := match g.orientation with | .overlapping => space | .contiguous => g.dims.1
  let height := match g.orientation with | .overlapping => g.dims.2 | .contiguous => space
  (split (s.count w) (plan.slots w) (c.turns w) (c.parallels w) (s.rem w) (plan.style w)).bind fun r =>
    let m := (c.margin s.ordinal).1 + (c.margin s.ordinal).2
    let dims := match g.orientation with
      | .overlapping => (width, height - m)
      | .contiguous => (width - m, height)
    let tight : Bool := match g.orientation with
      | .overlapping => decide (m + (c.wire w).2 > height)
      | .contiguous => decide (m + (c.wire w).1 > width)
    if tight = true then .refused
    else if dims.1 < 0 then .thrown "Something wrong happened in section dimensions 0"
    else
      let centre := match g.orientation with
        | .overlapping => (s.edge.1 + width / 2, s.edge.2)
        | .contiguous => (s.edge.1, s.edge.2 - height / 2)
      if centre.1 < -1 then .thrown "Something wrong happened in section coordiantes 0"
      else
        .ok ({ winding := some w, index := s.count w, dims, centre, physical := r.1, props := r.2,
               style := plan.style w },
             { rem := upd s.rem w (takeAway (s.rem w) r.2)
               count := upd s.count w (s.count w + 1)
               edge := match g.orientation with
                 | .overlapping => (s.edge.1 + width, s.edge.2)
                 | .contiguous => (s.edge.1, s.edge.2 - height)
               ordinal := s.ordinal + 1 })

/-- Models the insulation branch of the loop (src/constructive_models/Coil.cpp:8622-8663), between
windings `a` and `b`: no section when there is no insulation for the pair. -/
def windInsulation (c : Ctx) (g : Group) (a b : Nat) (k : Nat) (s : St) : List Section × St :=
  match c.insulation a b with
  | none => ([], s)
  | some d =>
    ([{ winding := none, index := k, dims := d, physical := 0, props := [], style := .turns,
        centre := match g.orientation with
          | .overlapping => (s.edge.1 + d.1 / 2, s.edge.2)
          | .contiguous => (s.edge.1, s.edge.2 - d.2 / 2) }],
     { s with edge := match g.orientation with
          | .overlapping => (s.edge.1 + d.1, s.edge.2)
          | .contiguous => (s.edge.1, s.edge.2 - d.2) })

/-- The winding an entry belongs to. Insulation entries carry `SIZE_MAX`, which no pair in the
insulation map contains. -/
def Entry.winding : Entry → Option Nat
  | .cond w _ => some w
  | .ins => none

/-- Models the loop over the planned entries of a group
(src/constructive_models/Coil.cpp:8471-8664). `prev` is the winding of the entry before (`none` for
none or for insulation), `k` the index of the entry, `first` the winding of entry 0, used after the
last entry. -/
def windEntries (c : Ctx) (g : Group) (plan : Plan) (first : Option Nat) :
    List Entry → Option Nat → Nat → St → Res (List Section × St)
  | [], _, _, s => .ok ([], s)
  | .cond w space :: rest, _, k, s =>
    (windSection c g plan w space s).bind fun x =>
      (windEntries c g plan first rest (some w) (k + 1) x.2).bind fun y => .ok (x.1 :: y.1, y.2)
  | .ins :: rest, prev, k, s =>
    if k = 0 then .thrown "Insulation layers cannot be the first one (for now)"
    else
      let next := match rest with
        | e :: _ => e.winding
        | [] => first
      match prev, next with
      | some a, some b =>
        let x := windInsulation c g a b k s
        (windEntries c g plan first rest none (k + 1) x.2).bind fun y => .ok (x.1 ++ y.1, y.2)
      | _, _ => windEntries c g plan first rest none (k + 1) s

/-- The edge the first section of a group starts at (src/constructive_models/Coil.cpp:8485-8503). -/
def startEdge (g : Group) : ℚ × ℚ :=
  match g.orientation with
  | .overlapping => (g.centre.1 - g.dims.1 / 2, g.centre.2)
  | .contiguous => (g.centre.1, g.centre.2 + g.dims.2 / 2)

/-- In multi-group coils a group at negative x is wound in the mirrored frame
(src/constructive_models/Coil.cpp:8267-8273). -/
def mirrored (multi : Bool) (g : Group) : Group :=
  if multi = true ∧ g.centre.1 < 0 then { g with centre := (-g.centre.1, g.centre.2) } else g

/-- Models the loop over groups of `wind_by_rectangular_sections`
(src/constructive_models/Coil.cpp:8442-8666): a group without windings is skipped when there are
several. -/
def windGroups (c : Ctx) (prop : Nat → ℚ) (pattern : List Nat) (reps : Nat) (multi : Bool) :
    List Group → St → Res (List Section × St)
  | [], s => .ok ([], s)
  | g :: gs, s =>
    if multi = true ∧ g.members = [] then windGroups c prop pattern reps multi gs s
    else
      (planGroup c (mirrored multi g) prop pattern reps multi true).bind fun plan =>
        (windEntries c (mirrored multi g) plan (plan.entries.head?.bind Entry.winding) plan.entries none 0
            { s with count := fun _ => 0, edge := startEdge (mirrored multi g) }).bind fun x =>
          (windGroups c prop pattern reps multi gs x.2).bind fun y => .ok (x.1 ++ y.1, y.2)

/-- Every parallel starts whole (src/constructive_models/Coil.cpp:8432-8435, 8757-8759). -/
def whole (c : Ctx) : Nat → List ℚ := fun w => List.replicate (c.parallels w) 1

/-- The check after the loops (src/constructive_models/Coil.cpp:8668-8674, 9030-9036). -/
def allAssigned (c : Ctx) (rem : Nat → List ℚ) : Prop :=
  ∀ w < c.windings, ∀ p ∈ rem w, roundFloat p 9 = 0

instance (c : Ctx) (rem : Nat → List ℚ) : Decidable (allAssigned c rem) := by
  unfold allAssigned; infer_instance

/-- Models `Coil::wind_by_rectangular_sections` (src/constructive_models/Coil.cpp:8423-8679): the
sections description it stores, or how it fails. On failure the coil is left without sections. -/
def windRectangularSections (c : Ctx) (groups : Option (List Group)) (prop : Nat → ℚ)
    (pattern : List Nat) (reps : Nat) : Res (List Section) :=
  match groups with
  | none => .thrown "At least default group must be defined at this point."
  | some gs =>
    (windGroups c prop pattern reps (decide (gs.length > 1)) gs
        { rem := whole c, count := fun _ => 0, edge := (0, 0), ordinal := 0 }).bind fun x =>
      if allAssigned c x.2.rem then .ok x.1
      else .thrown "There are unassigned parallel proportion in a rectangular section, something went wrong"

/-! ## Round windows: the bookkeeping of turns -/

/-- Models `get_section_areas` (src/constructive_models/Coil.cpp:6746-6764) up to the factor
`π · angle / 360`, which is the same for every section when sections overlap and cancels in
`lengthProportions`: the ring between the running radius and the next. Insulation entries do not
move the radius. -/
def ringAreas : List Entry → ℚ → List ℚ
  | [], _ => []
  | .cond _ space :: rest, r => (r ^ 2 - (r - space) ^ 2) :: ringAreas rest (r - space)
  | .ins :: rest, r => ringAreas rest r

/-- The windings of the conduction entries in order. -/
def condWindings : List Entry → List Nat
  | [] => []
  | .cond w _ :: rest => w :: condWindings rest
  | .ins :: rest => condWindings rest

/-- The average length of the sections of a winding (src/constructive_models/Coil.cpp:6716-6724). -/
def averageOf (lengths : List ℚ) (ws : List Nat) (w : Nat) : ℚ :=
  let own := (lengths.zip ws).filter (fun p => p.2 == w)
  (own.map Prod.fst).sum / (own.length : ℚ)

/-- Models `get_length_proportions` (src/constructive_models/Coil.cpp:6697-6735): each length over
the average of its winding, the last of all plus one. An average of zero divides by zero; the caller
below makes that outcome explicit. -/
def lengthProportions (lengths : List ℚ) (ws : List Nat) : List ℚ :=
  (lengths.zip ws).mapIdx fun i p =>
    if i + 1 < lengths.length then p.1 / averageOf lengths ws p.2 else 1 + p.1 / averageOf lengths ws p.2

/-- A section as the bookkeeping sees it. -/
structure Piece where
  winding : Nat
  index : Nat
  physical : Nat
  props : List ℚ
  style : Style
  deriving DecidableEq, Repr

/-- Models the bookkeeping of the conduction branch of the loop of `wind_by_round_sections`
(src/constructive_models/Coil.cpp:8825-8850, 8976-8990): windings with the relative proportion of
their section. The geometry of round sections is not modelled; `fits k` says whether the `k`-th
section keeps a non-negative angle (8911-8913). -/
def distribute (c : Ctx) (plan : Plan) (fits : Nat → Bool) :
    List (Nat × ℚ) → (Nat → List ℚ) → (Nat → Nat) → Nat → Res (List Piece × (Nat → List ℚ))
  | [], rem, _, _ => .ok ([], rem)
  | (w, rel) :: rest, rem, count, k =>
    (split (count w) (plan.slots w) (c.turns w) (c.parallels w) (rem w) (plan.style w) rel).bind fun r =>
      if fits k = false then .refused
      else
        (distribute c plan fits rest (upd rem w (takeAway (rem w) r.2)) (upd count w (count w + 1))
          (k + 1)).bind fun y =>
          .ok ({ winding := w, index := count w, physical := r.1, props := r.2, style := plan.style w } :: y.1, y.2)

/-- Models the bookkeeping of `wind_by_round_sections` (src/constructive_models/Coil.cpp:8743-9040)
for a coil with a single group. -/
def windRoundSections (c : Ctx) (g : Group) (prop : Nat → ℚ) (pattern : List Nat) (reps : Nat)
    (fits : Nat → Bool) : Res (List Piece) :=
  (planGroup c g prop pattern reps false false).bind fun plan =>
    let ws := condWindings plan.entries
    let rels := match c.orientation with
      | .overlapping => lengthProportions (ringAreas plan.entries g.dims.1) ws
      | .contiguous => List.replicate ws.length 1
    if c.orientation = .overlapping ∧ ∃ w ∈ ws, averageOf (ringAreas plan.entries g.dims.1) ws w = 0 then .nan
    else (distribute c plan fits (ws.zip rels) (whole c) (fun _ => 0) 0).bind fun x =>
      if allAssigned c x.2 then .ok x.1
      else .thrown "There are unassigned parallel proportion in a round section, something went wrong"

end Verif.Winding
