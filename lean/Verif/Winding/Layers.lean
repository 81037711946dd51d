import Verif.Winding.Sections

/-! # Winding the layers of rectangular windows

Model of `Coil::wind_by_rectangular_layers` (src/constructive_models/Coil.cpp:9280-9854). -/

namespace Verif.Winding

open Verif.Round

/-- The wire types the winder tells apart: `round` stands for round and litz wires. -/
inductive WireKind where
  | round
  | foil
  | rectangular
  | planar
  deriving DecidableEq, Repr

/-- Outer sizes of a wire; a round or litz wire has its outer diameter in `width`. -/
structure Wire where
  kind : WireKind
  width : Option ℚ
  height : Option ℚ
  deriving DecidableEq, Repr

/-- Models `CoilAlignment`. -/
inductive Alignment where
  | centered
  | innerOrTop
  | outerOrBottom
  | spread
  deriving DecidableEq, Repr

/-- The settings the layer winder reads: `coil_use_real_winding_geometry`,
`_applyConnectionBlocking`, `coil_allow_horizontal_overflow` and
`coil_only_one_turn_per_layer_in_contiguous_rectangular`. -/
structure LayerEnv where
  real : Bool
  blocking : Bool
  overflow : Bool
  oneTurnContiguous : Bool
  deriving DecidableEq, Repr

/-- What the layer winder reads about one conduction section.
* `turns`, `parallels`, `override`, `wire`: of its winding.
* `props`, `style`, `numberLayers`, `orientation`, `dims`, `centre`: of the section.
* `alignment`: `get_turns_alignment` for the section.
* `interlayer`: thickness of the insulation between layers of the winding, if any.
* `capacity k`, `room k`, `shift k`: with connection blocking, how many turns layer `k` has space for before
  rounding to whole rows (9424-9517), the size it gives up and the shift of its centre (9692-9712). -/
structure SectionIn where
  turns : Nat
  parallels : Nat
  override : Option Style
  wire : Wire
  props : List ℚ
  style : Option Style
  numberLayers : Option Nat
  orientation : Orientation
  alignment : Alignment
  dims : ℚ × ℚ
  centre : ℚ × ℚ
  interlayer : Option ℚ
  capacity : Nat → Nat
  room : Nat → ℚ
  shift : Nat → ℚ

/-- Conversion of a quotient of doubles to an unsigned integer after `floor`
(src/constructive_models/Coil.cpp:9324, 9329, 9351, 9361): dividing by zero or a negative result is
undefined behaviour. -/
def floorCount (x d : ℚ) : Res Nat :=
  if d = 0 ∨ ⌊x / d⌋ < 0 then .ub else .ok ⌊x / d⌋.toNat

/-- Conversion without `floor` (src/constructive_models/Coil.cpp:9323, 9328, 9346, 9356): truncation. -/
def truncCount (x d : ℚ) : Res Nat :=
  if d = 0 ∨ x / d ≤ -1 then .ub else .ok ⌊x / d⌋.toNat

/-- How many layers fit in a section, how many turns fit in a layer, and the size of a layer. -/
structure Room where
  fit : Nat
  maxPer : Nat
  width : ℚ
  height : ℚ
  deriving DecidableEq, Repr

/-- Models src/constructive_models/Coil.cpp:9314-9367. -/
def roomFor (env : LayerEnv) (s : SectionIn) : Res Room :=
  match s.wire.kind with
  | .round =>
    match s.wire.width with
    | none => .thrown "Missing wire outer diameter"
    | some d =>
      match s.orientation with
      | .overlapping =>
        (truncCount s.dims.1 d).bind fun fit => (floorCount s.dims.2 d).bind fun per =>
          .ok ⟨fit, per, d, s.dims.2⟩
      | .contiguous =>
        (truncCount s.dims.2 d).bind fun fit => (floorCount s.dims.1 d).bind fun per =>
          .ok ⟨fit, per, s.dims.1, d⟩
  | kind =>
    match s.wire.width, s.wire.height with
    | none, _ => .thrown "Missing wire outer width"
    | some _, none => .thrown "Missing wire outer height"
    | some w, some h =>
      match s.orientation with
      | .overlapping =>
        (truncCount s.dims.1 w).bind fun fit =>
          (if kind = .foil then .ok 1 else floorCount s.dims.2 h).bind fun per =>
            .ok ⟨fit, per, w, s.dims.2⟩
      | .contiguous =>
        (truncCount s.dims.2 h).bind fun fit =>
          (if kind = .rectangular ∧ env.oneTurnContiguous = true then .ok 1 else floorCount s.dims.1 w).bind fun per =>
            .ok ⟨fit, per, s.dims.1, h⟩

/-- Models the first choice of the number of layers (src/constructive_models/Coil.cpp:9369-9394).
A finite number over zero turns per layer does not convert to an integer. -/
def baseLayers (env : LayerEnv) (s : SectionIn) (physical : Nat) (room : Room) : Res Nat :=
  (match s.numberLayers with
    | some n => .ok n
    | none =>
      if room.fit = 0 then
        if room.maxPer = 0 then .ub else .ok ⌈(physical : ℚ) / (room.maxPer : ℚ)⌉.toNat
      else if room.maxPer = 0 then .ok room.fit
      else
        let needed := ⌈(physical : ℚ) / (room.maxPer : ℚ)⌉.toNat
        .ok (if env.overflow = true then needed else min needed room.fit) : Res Nat).bind fun n =>
    .ok (min n physical)

/-- Whether the layers are sized around the connections (`realWindingBlocking`,
src/constructive_models/Coil.cpp:9413-9417). -/
def blocked (env : LayerEnv) (s : SectionIn) (room : Room) : Bool :=
  env.real && env.blocking && s.numberLayers.isNone && decide (room.maxPer > 1) &&
    decide (room.maxPer ≥ s.parallels)

/-- Models the loop that sizes each layer (src/constructive_models/Coil.cpp:9438-9529), from layer `k`,
for a winding with parallels: a layer without space for one row ends it, whatever turns remain. -/
def blockedTurns (parallels : Nat) (capacity : Nat → Nat) (remaining : Nat) (k : Nat) : List Nat :=
  if h : 0 < remaining then
    if hc : capacity k / parallels * parallels = 0 then []
    else
      min (capacity k / parallels * parallels) remaining ::
        blockedTurns parallels capacity (remaining - min (capacity k / parallels * parallels) remaining) (k + 1)
  else []
  termination_by remaining
  decreasing_by omega

/-- Models the growth of the number of layers when parallels are wound together
(src/constructive_models/Coil.cpp:9552-9571). `ceil(x - 1e-9)` on doubles. -/
def growLayers (s : SectionIn) (physical : Nat) (room : Room) (n : Nat) : Res Nat :=
  if s.parallels > 1 ∧ s.numberLayers = none ∧ room.maxPer > 0 ∧ n > 0 then
    (match s.style with
      | some st => .ok st
      | none => layerStyle s.turns s.parallels n none : Res Style).bind fun tentative =>
      let rows := room.maxPer / s.parallels
      if tentative = .parallels ∧ rows > 0 then
        let perParallel := ⌈(physical : ℚ) / (s.parallels : ℚ) - 1 / 10 ^ 9⌉.toNat
        let perLayer := ⌈(perParallel : ℚ) / (n : ℚ) - 1 / 10 ^ 9⌉.toNat
        if perLayer * s.parallels > room.maxPer then
          let needed := ⌈(perParallel : ℚ) / (rows : ℚ) - 1 / 10 ^ 9⌉.toNat
          .ok (if room.fit > 0 then min (max n needed) room.fit else max n needed)
        else .ok n
      else .ok n
  else .ok n

/-- Models the choice of style (src/constructive_models/Coil.cpp:9603-9645). The environment variable
MKF_NO_NFILAR_LAW is taken as unset. -/
def styleFor (env : LayerEnv) (s : SectionIn) (room : Room) (n : Nat) : Res Style :=
  (match s.style with
    | some st => .ok st
    | none => layerStyle s.turns s.parallels n s.override : Res Style).bind fun st₀ =>
    let st₁ := if env.real = true ∧ s.parallels > 1 then .parallels else st₀
    let st₂ := if st₁ = .parallels ∧ room.maxPer < s.parallels then .turns else st₁
    .ok (if blocked env s room = true ∧ s.parallels = 1 then .turns else st₂)

/-- A wound layer; `conduction = false` is insulation. -/
structure Layer where
  conduction : Bool
  index : Nat
  props : List ℚ
  physical : Nat
  style : Style
  alignment : Alignment
  orientation : Orientation
  dims : ℚ × ℚ
  centre : ℚ × ℚ
  deriving DecidableEq, Repr

/-- The number of layers, the style they share, and the turns forced on each of them when connections block. -/
structure LayerPlan where
  room : Room
  count : Nat
  style : Style
  forced : Option (List Nat)
  deriving DecidableEq, Repr

/-- The turns forced on layer `i`; the list has one entry per layer (`numberLayers = realPerLayerTurns.size()`,
src/constructive_models/Coil.cpp:9530, 9651-9656). -/
def LayerPlan.forcedAt (plan : LayerPlan) (i : Nat) : Option Nat :=
  match plan.forced with
  | none => none
  | some per => some (per.getD i 0)

/-- Models the planning part for one section (src/constructive_models/Coil.cpp:9299-9571, 9603-9645):
proportions shorter than the number of parallels are read out of range, and with blocking zero parallels
divides by zero. -/
def planLayers (env : LayerEnv) (s : SectionIn) : Res LayerPlan :=
  if s.props.length < s.parallels then .ub
  else
    (sumTurns s.turns (s.props.take s.parallels)).bind fun physical =>
      (roomFor env s).bind fun room =>
        (baseLayers env s physical room).bind fun n₀ =>
          if blocked env s room = true then
            if s.parallels = 0 ∧ physical > 0 then .ub
            else
              let per := blockedTurns s.parallels s.capacity physical 0
              (styleFor env s room per.length).bind fun st => .ok ⟨room, per.length, st, some per⟩
          else
            (growLayers s physical room n₀).bind fun n =>
              (styleFor env s room n).bind fun st => .ok ⟨room, n, st, none⟩

/-- Models the first centre (src/constructive_models/Coil.cpp:9579-9601). -/
def firstCentre (s : SectionIn) (room : Room) (n : Nat) : ℚ × ℚ :=
  match s.orientation with
  | .overlapping => (roundFloat (s.centre.1 - s.dims.1 / 2 + room.width / 2) 9, roundFloat s.centre.2 9)
  | .contiguous =>
    (roundFloat s.centre.1 9,
      match s.alignment with
      | .centered | .spread => roundFloat (s.centre.2 + (n * room.height) / 2 - room.height / 2) 9
      | .innerOrTop => roundFloat (s.centre.2 + s.dims.2 / 2 - room.height / 2) 9
      | .outerOrBottom => roundFloat (s.centre.2 - s.dims.2 / 2 + n * room.height - room.height / 2) 9)

/-- Moves the centre by half of `d` (src/constructive_models/Coil.cpp:9733-9738, 9753-9758, 9776-9791). -/
def halfStep (o : Orientation) (d : ℚ) (c : ℚ × ℚ) : ℚ × ℚ :=
  match o with
  | .contiguous => (c.1, roundFloat (c.2 - d / 2) 9)
  | .overlapping => (roundFloat (c.1 + d / 2) 9, c.2)

/-- The size of a layer along the axis layers are stacked on. -/
def Room.depth (o : Orientation) (r : Room) : ℚ :=
  match o with
  | .contiguous => r.height
  | .overlapping => r.width

/-- Models the insulation between two layers (src/constructive_models/Coil.cpp:9740-9784): the layer, if
any, and the centre after it. -/
def interlayerOf (s : SectionIn) (room : Room) (i : Nat) (c : ℚ × ℚ) : List Layer × (ℚ × ℚ) :=
  match s.interlayer with
  | none => ([], c)
  | some t =>
    let c' := halfStep s.orientation t c
    ([{ conduction := false, index := i, props := [], physical := 0, style := .turns, alignment := s.alignment
        orientation := s.orientation
        dims := (match s.orientation with
          | .contiguous => (room.width, t)
          | .overlapping => (t, room.height))
        centre := c' }], halfStep s.orientation t c')

/-- The conduction layer pushed for slot `i` (src/constructive_models/Coil.cpp:9672-9722). -/
def layerOf (env : LayerEnv) (s : SectionIn) (plan : LayerPlan) (i physical : Nat) (ps : List ℚ) (c : ℚ × ℚ) : Layer :=
  let isBlocked := blocked env s plan.room
  { conduction := true, index := i, props := ps, physical, style := plan.style
    alignment := if isBlocked = true then .spread else s.alignment
    orientation := s.orientation
    dims := if isBlocked = true then
        (match s.orientation with
          | .overlapping => (plan.room.width, roundFloat (plan.room.height - s.room i) 9)
          | .contiguous => (roundFloat (plan.room.width - s.room i) 9, plan.room.height))
      else (plan.room.width, plan.room.height)
    centre := if isBlocked = true then
        (match s.orientation with
          | .overlapping => (c.1, roundFloat (c.2 + s.shift i) 9)
          | .contiguous => (roundFloat (c.1 + s.shift i) 9, c.2))
      else c }

/-- Models the loop over the layers of a section (src/constructive_models/Coil.cpp:9647-9793), with `left`
layers to go. The filling factor is not modelled. -/
def layerLoop (env : LayerEnv) (s : SectionIn) (plan : LayerPlan) :
    Nat → List ℚ → ℚ × ℚ → Res (List Layer)
  | 0, _, _ => .ok []
  | left + 1, rem, c =>
    let i := plan.count - (left + 1)
    (split i plan.count s.turns s.parallels rem plan.style 1
        (plan.forcedAt i)).bind fun r =>
      if r.2.all (fun p => decide (p = 0)) = true then .thrown "Parallel proportion in layer cannot be all be 0"
      else
        let here := layerOf env s plan i r.1 r.2 c
        if left = 0 then .ok [here]
        else
          let x := interlayerOf s plan.room i (halfStep s.orientation (plan.room.depth s.orientation) c)
          (layerLoop env s plan left (takeAway rem r.2)
              (halfStep s.orientation (plan.room.depth s.orientation) x.2)).bind fun rest =>
            .ok (here :: x.1 ++ rest)

/-- Models the conduction branch for one section (src/constructive_models/Coil.cpp:9292-9795). -/
def windLayers (env : LayerEnv) (s : SectionIn) : Res (List Layer) :=
  (planLayers env s).bind fun plan =>
    layerLoop env s plan plan.count s.props (firstCentre s plan.room plan.count)

/-- Models the loop of `wind_by_rectangular_layers` over the conduction sections
(src/constructive_models/Coil.cpp:9287-9795), given with the winding of each, from the `k`-th; each layer comes with
its winding and section. Insulation between sections (9796-9850) is left out. -/
def windAllLayers (env : LayerEnv) : List (Nat × SectionIn) → Nat → Res (List (Nat × Nat × Layer))
  | [], _ => .ok []
  | x :: rest, k =>
    (windLayers env x.2).bind fun ls =>
      (windAllLayers env rest (k + 1)).bind fun r => .ok (ls.map (fun l => (x.1, k, l)) ++ r)

end Verif.Winding
