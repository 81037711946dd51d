import Verif.Winding.Layers

/-! # Winding the turns of rectangular windows

Model of `Coil::wind_by_rectangular_turns` (src/constructive_models/Coil.cpp:10272-10732). -/

namespace Verif.Winding

open Verif.Round

/-- What the turn winder reads about one conduction layer.
* `wire`: the size of a turn, width and height. With real winding geometry the height is the one
  `helical_stacking_pitch` arrives at (10354-10372, 10419-10452), which is not modelled.
* `sec`: the section the layer belongs to. -/
structure LayerIn where
  winding : Nat
  sec : Nat
  props : List ℚ
  style : Option Style
  alignment : Alignment
  orientation : Orientation
  dims : ℚ × ℚ
  centre : ℚ × ℚ
  wire : ℚ × ℚ
  deriving DecidableEq, Repr

/-- A layer as the layer winder leaves it (src/constructive_models/Coil.cpp:9672-9722), with the size of the wire of
its winding. -/
def LayerIn.ofLayer (wire : Nat → ℚ × ℚ) (x : Nat × Nat × Layer) : LayerIn :=
  ⟨x.1, x.2.1, x.2.2.props, some x.2.2.style, x.2.2.alignment, x.2.2.orientation, x.2.2.dims, x.2.2.centre, wire x.1⟩

/-- What the turn winder reads about the coil.
* `real`: `coil_use_real_winding_geometry`.
* `uOrder`: whether `get_winding_order` of a section is U.
* `entranceTop`: `_terminalEntranceAtTop` of a winding.
* `hasLength`: whether `get_turn_length_in_frame` gives a length in a section at a radius. -/
structure TurnEnv where
  turns : Nat → Nat
  parallels : Nat → Nat
  real : Bool
  uOrder : Nat → Bool
  entranceTop : Nat → Bool
  hasLength : Nat → ℚ → Bool

/-- A wound turn: its winding, parallel and number make its name (10662, 10704); `layer` is the position of its
layer among the conduction layers. -/
structure Turn where
  winding : Nat
  parallel : Nat
  number : Nat
  layer : Nat
  centre : ℚ × ℚ
  dims : ℚ × ℚ
  deriving DecidableEq, Repr

/-- Models `get_layer_bundle_size` (src/constructive_models/Coil.cpp:49-64). -/
def bundleSize (l : LayerIn) : Nat :=
  if l.style = some .parallels then
    max 1 (l.props.filter fun p => decide (roundFloat p 10 > 0)).length
  else 1

/-- Models `compute_spread_turn_stations` (src/constructive_models/Coil.cpp:146-188). -/
def spreadStations (centre length wire : ℚ) (n bundle : Nat) : List ℚ :=
  let bundles := (n + bundle - 1) / bundle
  let slack := length - n * wire
  let gap := if bundles > 1 ∧ slack > 0 then slack / ((bundles : ℚ) - 1) else 0
  let block := n * wire + ((bundles : ℚ) - 1) * gap
  (List.range n).map fun i => centre - block / 2 + wire / 2 + i * wire + ((i / bundle : ℕ) : ℚ) * gap

/-- Where the turns of a layer go: the `i`-th at `start + i * step`, or at given places on the axis turns are placed
on, the other coordinate being that of `start`. -/
structure Places where
  start : ℚ × ℚ
  step : ℚ × ℚ
  stations : List ℚ
  deriving DecidableEq, Repr

/-- Models the placement of the first turn (src/constructive_models/Coil.cpp:10374-10505). Heights grow upwards and
turns are placed downwards. -/
def placesOf (l : LayerIn) (n : Nat) : Places :=
  match l.orientation with
  | .overlapping =>
    let w := l.wire.2
    let total := roundFloat (n * w) 9
    let x := roundFloat l.centre.1 9
    match l.alignment with
    | .centered => ⟨(x, roundFloat (l.centre.2 + total / 2 - w / 2) 9), (0, -w), []⟩
    | .innerOrTop => ⟨(x, roundFloat (l.centre.2 + l.dims.2 / 2 - w / 2) 9), (0, -w), []⟩
    | .outerOrBottom => ⟨(x, roundFloat (l.centre.2 - l.dims.2 / 2 + total - w / 2) 9), (0, -w), []⟩
    | .spread => ⟨(x, 0), (0, 0), (spreadStations l.centre.2 l.dims.2 w n (bundleSize l)).reverse⟩
  | .contiguous =>
    let w := l.wire.1
    let total := roundFloat (n * w) 9
    let y := roundFloat l.centre.2 9
    match l.alignment with
    | .centered => ⟨(roundFloat (l.centre.1 - total / 2 + w / 2) 9, y), (w, 0), []⟩
    | .innerOrTop => ⟨(roundFloat (l.centre.1 - l.dims.1 / 2 + w / 2) 9, y), (w, 0), []⟩
    | .outerOrBottom =>
      ⟨(roundFloat (l.centre.1 - l.dims.1 / 2 + (l.dims.1 - total) + w / 2) 9, y), (w, 0), []⟩
    | .spread => ⟨(0, y), (0, 0), spreadStations l.centre.1 l.dims.1 w n (bundleSize l)⟩

/-- Models the reversal (src/constructive_models/Coil.cpp:10575-10584). -/
def Places.reversed (p : Places) (n : Nat) : Places :=
  ⟨(roundFloat (p.start.1 + ((n : ℚ) - 1) * p.step.1) 9, roundFloat (p.start.2 + ((n : ℚ) - 1) * p.step.2) 9),
    (-p.step.1, -p.step.2), p.stations.reverse⟩

/-- The centre of the `i`-th turn of a layer (src/constructive_models/Coil.cpp:195-215, 10640-10641, 10685-10686). The
running centre is a sum of doubles in the code. -/
def Places.spot (p : Places) (o : Orientation) (i : Nat) : Res (ℚ × ℚ) :=
  if p.stations = [] then .ok (p.start.1 + i * p.step.1, p.start.2 + i * p.step.2)
  else
    match p.stations[i]? with
    | none => .thrown "SPREAD turn stations exhausted"
    | some s =>
      match o with
      | .overlapping => .ok (p.start.1, s)
      | .contiguous => .ok (s, p.start.2)

/-- What is remembered of the layers of each winding (src/constructive_models/Coil.cpp:10309-10323). -/
structure OrderSt where
  ordinal : Nat → Nat
  sectionOrdinal : Nat → Nat
  lastSection : Nat → Option Nat
  finishedTop : Nat → Bool
  lastSingle : Nat → Bool

/-- Models the choice of the end a layer starts from (src/constructive_models/Coil.cpp:10507-10574), with the number of
the layer within its winding and what is remembered for the next one. -/
def startFromTop (env : TurnEnv) (l : LayerIn) (n : Nat) (s : OrderSt) : Bool × OrderSt :=
  let w := l.winding
  let ord := s.ordinal w
  let secOrd :=
    if s.lastSection w = some l.sec then s.sectionOrdinal w
    else if s.lastSection w = none then s.sectionOrdinal w else s.sectionOrdinal w + 1
  let entrance := if env.real = true ∧ l.orientation = .overlapping then env.entranceTop w else false
  let top₁ :=
    if env.uOrder l.sec = true then xor entrance (decide (ord % 2 = 1))
    else if env.real = true then xor entrance (decide (secOrd % 2 = 1))
    else false
  let single := decide (n ≤ 2 * max 1 (env.parallels w))
  let top :=
    if env.real = true ∧ (single = true ∨ s.lastSingle w = true) ∧ ord > 0 ∧ l.orientation = .overlapping then
      s.finishedTop w
    else top₁
  (top, { ordinal := upd s.ordinal w (ord + 1), sectionOrdinal := upd s.sectionOrdinal w secOrd
          lastSection := upd s.lastSection w (some l.sec), finishedTop := upd s.finishedTop w (!top)
          lastSingle := upd s.lastSingle w single })

/-- Whether the parallels present in a layer have the same share (src/constructive_models/Coil.cpp:10619-10638). -/
def nfilar (ps : List ℚ) : Bool :=
  match ps.filter fun p => decide (roundFloat p 10 > 0) with
  | [] => false
  | p :: rest => decide (0 < rest.length) && rest.all fun q => decide (|q - p| ≤ 1 / 10 ^ 9)

/-- The parallels of the turns of a layer, in the order they are wound
(src/constructive_models/Coil.cpp:10586-10588, 10613-10730). MKF_NO_NFILAR_LAW is taken as unset. A layer wound with
parallels together but without any turn runs past its list of proportions. -/
def woundOrder (env : TurnEnv) (l : LayerIn) : Res (List Nat) :=
  let T := env.turns l.winding
  let P := env.parallels l.winding
  if l.props.length < P then .ub
  else if (l.style.getD .turns = .turns) ∧ ¬ (env.real = true ∧ nfilar l.props = true) then
    .ok ((List.range P).map fun j => List.replicate (Round.round (l.props.getD j 0 * T)).toNat j).flatten
  else
    match l.props.find? fun p => decide (roundFloat p 10 ≠ 0) with
    | none => .ub
    | some p =>
      .ok (List.replicate (Round.round (p * T)).toNat
        ((List.range P).filter fun j => decide (roundFloat (l.props.getD j 0) 10 > 0))).flatten

/-- Models the placement of turns one after another (src/constructive_models/Coil.cpp:10642-10730), from the `i`-th of
the layer; `count` is `currentTurnIndex`. Without a length for a turn the function returns false. -/
def placeTurns (env : TurnEnv) (l : LayerIn) (k : Nat) (p : Places) :
    List Nat → Nat → (Nat → Nat → Nat) → Res (List Turn × (Nat → Nat → Nat))
  | [], _, count => .ok ([], count)
  | j :: rest, i, count =>
    (p.spot l.orientation i).bind fun c =>
      if env.hasLength l.sec c.1 = true then
        (placeTurns env l k p rest (i + 1)
            (upd count l.winding (upd (count l.winding) j (count l.winding j + 1)))).bind fun r =>
          .ok (⟨l.winding, j, count l.winding j, k, c, l.wire⟩ :: r.1, r.2)
      else .refused

/-- Models the loop over the conduction layers (src/constructive_models/Coil.cpp:10324-10730), from the `k`-th. -/
def windTurnsFrom (env : TurnEnv) : List LayerIn → Nat → OrderSt → (Nat → Nat → Nat) → Res (List Turn)
  | [], _, _, _ => .ok []
  | l :: rest, k, s, count =>
    if l.props.length < env.parallels l.winding then .ub
    else
      (sumTurns (env.turns l.winding) (l.props.take (env.parallels l.winding))).bind fun n =>
        let top := startFromTop env l n s
        let p := if top.1 = true then placesOf l n else (placesOf l n).reversed n
        (woundOrder env l).bind fun order =>
          (placeTurns env l k p order 0 count).bind fun r =>
            (windTurnsFrom env rest (k + 1) top.2 r.2).bind fun ts => .ok (r.1 ++ ts)

/-- Models `Coil::wind_by_rectangular_turns` (src/constructive_models/Coil.cpp:10272-10732) for a coil without planar
wires; those are rejected above a number of layers (10296-10304). -/
def windTurns (env : TurnEnv) (ls : List LayerIn) : Res (List Turn) :=
  windTurnsFrom env ls 0 ⟨fun _ => 0, fun _ => 0, fun _ => none, fun _ => false, fun _ => false⟩ fun _ _ => 0

end Verif.Winding
