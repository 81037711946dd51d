import Mathlib.Algebra.BigOperators.Group.List.Basic
import Mathlib.Algebra.Order.Field.Rat
import Mathlib.Data.List.Sort
import Verif.Harmonics.Model

/-!
# Model of winding losses

Source: `/repo/src/physical_models/WindingOhmicLosses.cpp`, `WindingSkinEffectLosses.cpp`, the summation of
`WindingProximityEffectLosses.cpp` and `WindingLosses.cpp`, and the pruning of currents of
`/repo/src/processors/Inputs.cpp`.

Doubles are exact rational numbers; a harmonic of amplitude `a` has an RMS of `a / sqrt(2)`, whose square is `a * a / 2`
here.  The resistance per metre of a wire, the formulas of losses, the field and the routes of connections are
parameters.  Numbers that are not finite do not exist here, so the tests for NaN never fire.
-/

namespace Verif.WindingLosses

/-- Exceptions thrown. -/
inductive Err
  | notProcessed   -- CoilNotProcessedException
  | invalid        -- InvalidInputException
  | coil           -- CoilException
  | badAccess      -- std::bad_optional_access
  | runtime        -- std::runtime_error: planar wires, or a marker without its length
  | formula        -- thrown by a formula
  deriving DecidableEq, Repr

/-- Outcome: a value, an exception or undefined behaviour. -/
inductive Res (α : Type) where
  | ok (a : α)
  | throws (e : Err)
  | ub
  deriving DecidableEq, Repr

/-- Sequencing. -/
def Res.bind {α β : Type} : Res α → (α → Res β) → Res β
  | .ok a, f => f a
  | .throws e, _ => .throws e
  | .ub, _ => .ub

/-- In order, stopping at the first failure. -/
def Res.mapM {α β : Type} (f : α → Res β) : List α → Res (List β)
  | [] => .ok []
  | a :: rest => (f a).bind fun b => (Res.mapM f rest).bind fun l => .ok (b :: l)

/-- A computation that reads and writes the caches of the thread. -/
abbrev M (S α : Type) := S → S × Res α

/-- Sequencing. -/
def M.bind {S α β : Type} (m : M S α) (f : α → M S β) : M S β := fun s =>
  match m s with
  | (s, .ok a) => f a s
  | (s, .throws e) => (s, .throws e)
  | (s, .ub) => (s, .ub)

/-- A value. -/
def M.pure {S α : Type} (a : α) : M S α := fun s => (s, .ok a)

/-- An outcome that does not touch the caches. -/
def M.lift {S α : Type} (r : Res α) : M S α := fun s => (s, r)

/-- In order, stopping at the first failure. -/
def M.mapM {S α β : Type} (f : α → M S β) : List α → M S (List β)
  | [] => M.pure []
  | a :: rest => M.bind (f a) fun b => M.bind (M.mapM f rest) fun l => M.pure (b :: l)

/-- `Wire`: what is used of it. `rest` stands for all other fields. -/
structure Wire where
  planar : Bool
  name : Option String
  conductors : Option Nat
  width : ℚ
  height : ℚ
  rest : Nat
  deriving DecidableEq, Repr

/-- `Winding`, with its resolved wire and the lengths of its connections that have one. -/
structure Winding where
  name : String
  parallels : Nat
  wire : Wire
  provided : List ℚ
  deriving DecidableEq, Repr

/-- `Turn`: what is used of it, with its coordinates and the first of its additional coordinates, if that has two values.
A negative parallel and coordinates of fewer than two values are not modelled. -/
structure Turn where
  winding : String
  parallel : Nat
  length : ℚ
  layer : Option String
  sect : Option String
  place : ℚ × ℚ
  second : Option (ℚ × ℚ)
  deriving DecidableEq, Repr

/-- `ConnectionReservedSpace`: what losses read of it. -/
structure Space where
  winding : String
  parallel : Int
  terminal : Bool
  routed : Option ℚ
  deriving DecidableEq, Repr

/-- The coil: its windings, the turns wound, the names of its conduction layers and sections if it is wound by them
(Coil.cpp 13501-13529), and the markers of its connections, whose making is not modelled. -/
structure Coil where
  windings : List Winding
  turns : Option (List Turn)
  layers : Option (List String)
  sections : Option (List String)
  spaces : List Space
  deriving DecidableEq, Repr

/-- `Harmonics`. -/
structure Harmonics where
  amplitudes : List ℚ
  frequencies : List ℚ
  deriving DecidableEq, Repr

/-- The current of a winding: its RMS, the RMS derived from its waveform if there is one, and its harmonics. -/
structure Current where
  rms : Option ℚ
  fromWaveform : Option ℚ
  harmonics : Option Harmonics
  deriving DecidableEq, Repr

/-! ## Indexes by name -/

/-- `Coil::get_winding_index_by_name` (Coil.cpp 5610-5627), the first winding of that name. The cache of
indexes that the coil brings is taken to be empty or right. -/
def windingIndex (ws : List Winding) (name : String) : Res Nat :=
  if (ws.findIdx fun w => w.name == name) < ws.length then .ok (ws.findIdx fun w => w.name == name) else .throws .coil

/-! ## Length of connections -/

/-- One marker (WindingOhmicLosses.cpp 76-95): which winding and parallel it belongs to, whether it is terminal, and its
length; nothing when it belongs to no parallel. -/
def markerOf (ws : List Winding) (s : Space) : Res (Option (Nat × Nat × Bool × ℚ)) :=
  (windingIndex ws s.winding).bind fun w =>
    match ws[w]? with
    | none => .ub
    | some x =>
      if s.parallel < 0 ∨ s.parallel ≥ x.parallels then .ok none
      else match s.routed with
        | none => .throws .runtime
        | some l => .ok (some (w, s.parallel.toNat, s.terminal, l))

/-- Sum of the lengths of markers of a parallel (WindingOhmicLosses.cpp 89-94). -/
def markerSum (ms : List (Option (Nat × Nat × Bool × ℚ))) (w p : Nat) (terminal : Bool) : ℚ :=
  (ms.filterMap fun m => match m with
    | some (w', p', t, l) => if w' = w ∧ p' = p ∧ t = terminal then some l else none
    | none => none).sum

/-- The length of the connections of a parallel (WindingOhmicLosses.cpp 97-108). -/
def connectionLength (ms : List (Option (Nat × Nat × Bool × ℚ))) (x : Winding) (w p : Nat) : ℚ :=
  markerSum ms w p false +
    if x.provided.sum > 0 then x.provided.sum / x.parallels else markerSum ms w p true

/-- `calculate_connection_length_per_winding_per_parallel` (WindingOhmicLosses.cpp 18-111). `real` is the setting. Sums are
written in place of accumulation into vectors of zeros. -/
def connectionLengths (real : Bool) (c : Coil) : Res (List (List ℚ)) :=
  if real then
    if c.windings.any fun x => x.wire.planar then .throws .runtime else
    (Res.mapM (markerOf c.windings) c.spaces).bind fun ms =>
      .ok (c.windings.mapIdx fun w x => (List.range x.parallels).map (connectionLength ms x w))
  else .ok (c.windings.map fun x => (List.range x.parallels).map fun _ => 0)

/-! ## Ohmic losses -/

/-- `calculate_dc_resistance_per_meter` (WindingOhmicLosses.cpp 154-172): the quotient of resistivity and area is a
parameter. -/
def perMeter (resistance : Wire → ℚ) (w : Wire) : Res ℚ :=
  if resistance w ≤ 0 then .throws .invalid else .ok (resistance w)

/-- The current of a winding (WindingOhmicLosses.cpp 288-325). Exceptions of sampling the waveform are not modelled. -/
def rmsOf (currents : List (Option Current)) (w : Nat) : Res ℚ :=
  match currents[w]? with
  | none => .ok 0
  | some none => .ok 0
  | some (some c) => match c.rms with
    | some r => .ok r
    | none => match c.fromWaveform with
      | some r => .ok r
      | none => .throws .invalid

/-- A turn as the loop sees it: its winding, its parallel and its resistance. -/
structure Branch where
  winding : Nat
  parallel : Nat
  resistance : ℚ
  deriving DecidableEq, Repr

/-- A turn of the loop (WindingOhmicLosses.cpp 330-337): a parallel that the winding does not have is an index past the
end of a vector. -/
def branchOf (resistance : Wire → ℚ) (ws : List Winding) (t : Turn) : Res Branch :=
  (windingIndex ws t.winding).bind fun w =>
    match ws[w]? with
    | none => .ub
    | some x => (perMeter resistance x.wire).bind fun r =>
      if t.parallel < x.parallels then .ok ⟨w, t.parallel, r * t.length⟩ else .ub

/-- The resistance of the connections of a parallel (WindingOhmicLosses.cpp 113-139): the wire is asked for its
resistance only when the winding has connections. -/
def connectionResistances (resistance : Wire → ℚ) (ws : List Winding) (lengths : List (List ℚ)) : Res (List (List ℚ)) :=
  Res.mapM (fun xl : Winding × List ℚ =>
    if xl.2.any fun l => decide (l > 0) then (perMeter resistance xl.1.wire).bind fun r => .ok (xl.2.map fun l => r * l)
    else .ok (xl.2.map fun _ => 0)) (ws.zip lengths)

/-- The resistance in series of a parallel (WindingOhmicLosses.cpp 330-346). -/
def series (bs : List Branch) (connections : List (List ℚ)) (w p : Nat) : ℚ :=
  ((bs.filter fun b => b.winding == w && b.parallel == p).map fun b => b.resistance).sum +
    ((connections[w]?.getD [])[p]?).getD 0

/-- The resistances in series of the parallels of a winding, each above zero (WindingOhmicLosses.cpp 209-226,
351-353). -/
def seriesOf (bs : List Branch) (connections : List (List ℚ)) (w : Nat) (x : Winding) : Res (List ℚ) :=
  Res.mapM (fun p => if series bs connections w p > 0 then .ok (series bs connections w p) else .throws .coil)
    (List.range x.parallels)

/-- The resistances in series of all windings (WindingOhmicLosses.cpp 349-353). -/
def seriesFrom (bs : List Branch) (connections : List (List ℚ)) : Nat → List Winding → Res (List (List ℚ))
  | _, [] => .ok []
  | w, x :: rest => (seriesOf bs connections w x).bind fun l => (seriesFrom bs connections (w + 1) rest).bind fun ls => .ok (l :: ls)

/-- The resistance of the parallels together (WindingOhmicLosses.cpp 350-356); infinite, `none`, without any. -/
def together (rs : List ℚ) : Option ℚ := if rs = [] then none else some (1 / (rs.map fun r => 1 / r).sum)

/-- The current of each parallel (WindingOhmicLosses.cpp 357-359). -/
def parallelCurrents (i : ℚ) (rs : List ℚ) : List ℚ :=
  match together rs with
  | none => []
  | some r => rs.map fun s => i * r / s

/-- Losses of one turn, layer, section or winding: ohmic, and skin and proximity effect as frequencies and losses. -/
structure Element where
  ohmic : Option ℚ
  skin : Option (List (ℚ × ℚ))
  proximity : Option (List (ℚ × ℚ))
  deriving DecidableEq, Repr

/-- `WindingLossesOutput`. -/
structure Output where
  total : ℚ
  perTurn : List Element
  perWinding : List Element
  perSection : List Element
  perLayer : List Element
  resistances : List (Option ℚ)
  dividers : List ℚ
  deriving DecidableEq, Repr

/-- The current of the parallel of a turn (WindingOhmicLosses.cpp 369-371). -/
def currentAt (currents : List (List ℚ)) (b : Branch) : ℚ := ((currents[b.winding]?.getD [])[b.parallel]?).getD 0

/-- `calculate_ohmic_losses` (WindingOhmicLosses.cpp 274-422). -/
def ohmic (resistance : Wire → ℚ) (real : Bool) (c : Coil) (excitations : List (Option Current)) : Res Output :=
  match c.turns with
  | none => .throws .notProcessed
  | some turns =>
    (Res.mapM (rmsOf excitations) (List.range c.windings.length)).bind fun rms =>
    (Res.mapM (branchOf resistance c.windings) turns).bind fun bs =>
    (connectionLengths real c).bind fun lengths =>
    (connectionResistances resistance c.windings lengths).bind fun connections =>
    (seriesFrom bs connections 0 c.windings).bind fun ss =>
    let currents := (rms.zip ss).map fun x => parallelCurrents x.1 x.2
    let perWinding := (ss.zip currents).map fun x => ((x.1.zip x.2).map fun y => y.1 * (y.2 * y.2)).sum
    .ok { total := perWinding.sum,
          perTurn := bs.map fun b => ⟨some ((currentAt currents b) * (currentAt currents b) * b.resistance), none, none⟩,
          perWinding := perWinding.map fun l => ⟨some l, none, none⟩,
          perSection := [],
          perLayer := [],
          resistances := ss.map together,
          dividers := bs.map fun b => if rms[b.winding]?.getD 0 = 0 then 0 else currentAt currents b / rms[b.winding]?.getD 0 }

/-! ## Pruning of harmonics -/

/-- The main harmonics of a signal (Utils.cpp 2343-2365), with `rt` the square root. -/
def mainIndexes (rt : ℚ → ℚ) (threshold : ℚ) (h : Harmonics) : Res (List Nat) :=
  match Verif.Harmonics.mainIndexesOfHarmonics rt ⟨h.amplitudes, h.frequencies⟩ threshold none with
  | .ok l => .ok l
  | .throws => .throws .invalid
  | .ub => .ub

/-- The harmonics of one winding that are new, with their frequencies (Inputs.cpp 1474-1479). -/
def collectOne (h : Harmonics) : List Nat → List (Nat × ℚ) → Res (List (Nat × ℚ))
  | [], acc => .ok acc
  | i :: is, acc =>
    if i ∈ acc.map Prod.fst then collectOne h is acc
    else match h.frequencies[i]? with
      | none => .ub
      | some f => collectOne h is (acc ++ [(i, f)])

/-- The harmonics to keep, over all windings (Inputs.cpp 1469-1505, the current). -/
def collect (rt : ℚ → ℚ) (threshold : ℚ) : List Harmonics → List (Nat × ℚ) → Res (List (Nat × ℚ))
  | [], acc => .ok acc
  | h :: hs, acc => (mainIndexes rt threshold h).bind fun is =>
    (collectOne h is acc).bind fun acc => collect rt threshold hs acc

/-- One harmonic kept (Inputs.cpp 1537-1547): nothing, at the frequency of another winding, if this one is too short. -/
def keptOf (h : Harmonics) (k : Nat × ℚ) : Res (ℚ × ℚ) :=
  match h.amplitudes[k.1]? with
  | none => .ok (0, k.2)
  | some a => match h.frequencies[k.1]? with
    | none => .ub
    | some f => .ok (a, f)

/-- The harmonics of one winding once pruned (Inputs.cpp 1518-1548): the first is always kept. -/
def pruneOne (keep : List (Nat × ℚ)) (h : Harmonics) : Res Harmonics :=
  match h.amplitudes[0]?, h.frequencies[0]? with
  | some a, some f => (Res.mapM (keptOf h) keep).bind fun l => .ok ⟨a :: l.map Prod.fst, f :: l.map Prod.snd⟩
  | _, _ => .ub

/-- The current of an excitation with its harmonics, if it has them (Inputs.cpp 1452). -/
def withHarmonics : Option Current → Option (Current × Harmonics)
  | none => none
  | some c => c.harmonics.map fun h => (c, h)

/-- `Inputs::prune_harmonics` (Inputs.cpp 1443-1640) for the currents, without a given main harmonic. The indexes kept
are all different, so the sorting (1529, done again for each winding) has one result. Voltages and magnetizing currents,
which follow the same steps on their own, are not modelled. -/
def prune (rt : ℚ → ℚ) (threshold : ℚ) (excitations : List (Option Current)) : Res (List (Option Current)) :=
  if excitations.all fun x => (withHarmonics x).isSome then
    (collect rt threshold ((excitations.filterMap withHarmonics).map Prod.snd) []).bind fun keep =>
    Res.mapM (fun ch : Current × Harmonics =>
      (pruneOne (keep.insertionSort fun a b => a.1 ≤ b.1) ch.2).bind fun h => .ok (some { ch.1 with harmonics := some h }))
      (excitations.filterMap withHarmonics)
  else .ok excitations

/-! ## Skin effect -/

/-- The losses per metre of each harmonic but the first (WindingSkinEffectLosses.cpp 193-207). `skin` is the formula of
the model: wire, losses without the effect, frequency and square of the RMS. -/
def skinHarmonics {S : Type} (skin : Wire → ℚ → ℚ → ℚ → M S ℚ) (wire : Wire) (r divider : ℚ) :
    List (ℚ × ℚ) → M S (List (ℚ × ℚ)) :=
  M.mapM fun af =>
    if af.2 ≤ 0 then M.lift (.throws .invalid) else
    M.bind (skin wire (af.1 * af.1 / 2 * (divider * divider) * r) af.2 (af.1 * af.1 / 2 * (divider * divider))) fun l =>
    M.pure (af.2, l)

/-- `calculate_skin_effect_losses_per_meter` (WindingSkinEffectLosses.cpp 173-210). Choosing the model
(99-147) belongs to `skin`. -/
def skinPerMeter {S : Type} (resistance : Wire → ℚ) (skin : Wire → ℚ → ℚ → ℚ → M S ℚ) (wire : Wire) (current : Current)
    (divider : ℚ) : M S (List (ℚ × ℚ)) :=
  M.bind (M.lift (perMeter resistance wire)) fun r =>
  match current.harmonics with
  | none => M.lift (.throws .invalid)
  | some h =>
    if h.amplitudes.length ≠ h.frequencies.length then M.lift (.throws .invalid)
    else skinHarmonics skin wire r divider ((h.amplitudes.zip h.frequencies).drop 1)

/-- The losses of a length (WindingSkinEffectLosses.cpp 257-265): a first harmonic of nothing. -/
def overLength (length : ℚ) (l : List (ℚ × ℚ)) : List (ℚ × ℚ) := (0, 0) :: l.map fun fl => (fl.1, fl.2 * length)

/-- Total of the losses per harmonic (WindingSkinEffectLosses.cpp 264, 329; WindingLosses.cpp 17-20). -/
def sumOf (l : List (ℚ × ℚ)) : ℚ := (l.map fun fl => fl.2).sum

/-- The skin losses of a turn (WindingSkinEffectLosses.cpp 239-266). -/
def skinOfTurn {S : Type} (resistance : Wire → ℚ) (skin : Wire → ℚ → ℚ → ℚ → M S ℚ) (ws : List Winding)
    (excitations : List (Option Current)) (td : Turn × ℚ) : M S (List (ℚ × ℚ)) :=
  M.bind (M.lift (windingIndex ws td.1.winding)) fun w =>
  match ws[w]? with
  | none => M.lift .ub
  | some x => match excitations[w]? with
    | some (some current) => M.bind (skinPerMeter resistance skin x.wire current td.2) fun l =>
        M.pure (overLength td.1.length l)
    | _ => M.lift (.throws .invalid)

/-- The divider of a parallel (WindingSkinEffectLosses.cpp 280-284): that of its last turn. -/
def dividerOf (ws : List Winding) (tds : List (Turn × ℚ)) (w p : Nat) : Option ℚ :=
  (tds.filterMap fun td => if windingIndex ws td.1.winding = .ok w ∧ td.1.parallel = p then some td.2 else none).getLast?

/-- Losses added harmonic by harmonic (WindingSkinEffectLosses.cpp 314-316; WindingLosses.cpp
67-69): the frequencies are those of the first, and
a further one is an index past the end. -/
def addHarmonics : List (ℚ × ℚ) → List (ℚ × ℚ) → Res (List (ℚ × ℚ))
  | a, [] => .ok a
  | [], _ :: _ => .ub
  | (f, x) :: a, (_, y) :: b => (addHarmonics a b).bind fun l => .ok ((f, x + y) :: l)

/-- The losses of the connections of the parallels of a winding from one on (WindingSkinEffectLosses.cpp 291-317). -/
def skinConnections {S : Type} (resistance : Wire → ℚ) (skin : Wire → ℚ → ℚ → ℚ → M S ℚ) (ws : List Winding)
    (excitations : List (Option Current)) (tds : List (Turn × ℚ)) (w : Nat) :
    Nat → List ℚ → Option (List (ℚ × ℚ)) → M S (Option (List (ℚ × ℚ)))
  | _, [], acc => M.pure acc
  | p, length :: rest, acc =>
    if length ≤ 0 then skinConnections resistance skin ws excitations tds w (p + 1) rest acc
    else match excitations[w]? with
      | some (some current) => match dividerOf ws tds w p with
        | none => M.lift (.throws .invalid)
        | some d => match ws[w]? with
          | none => M.lift .ub
          | some x => M.bind (skinPerMeter resistance skin x.wire current d) fun l =>
            M.bind (M.lift (addHarmonics (acc.getD (l.map fun fl => (fl.1, 0))) (l.map fun fl => (fl.1, fl.2 * length))))
              fun a => skinConnections resistance skin ws excitations tds w (p + 1) rest (some a)
      | _ => M.lift (.throws .invalid)

/-- The losses of the connections of all windings (WindingSkinEffectLosses.cpp 287-333). -/
def skinConnectionsFrom {S : Type} (resistance : Wire → ℚ) (skin : Wire → ℚ → ℚ → ℚ → M S ℚ) (ws : List Winding)
    (excitations : List (Option Current)) (tds : List (Turn × ℚ)) : Nat → List (List ℚ) → M S (List (Option (List (ℚ × ℚ))))
  | _, [] => M.pure []
  | w, lengths :: rest =>
    M.bind (skinConnections resistance skin ws excitations tds w 0 lengths none) fun a =>
    M.bind (skinConnectionsFrom resistance skin ws excitations tds (w + 1) rest) fun l => M.pure (a :: l)

/-- `calculate_skin_effect_losses` (WindingSkinEffectLosses.cpp 213-344). `waveform` says whether the first winding has a
current with a waveform that is not empty. -/
def skinLosses {S : Type} (resistance : Wire → ℚ) (skin : Wire → ℚ → ℚ → ℚ → M S ℚ) (real : Bool) (rt : ℚ → ℚ)
    (threshold : ℚ) (c : Coil) (excitations : List (Option Current)) (waveform : Bool) (out : Output) : M S Output :=
  match c.turns with
  | none => M.lift (.throws .notProcessed)
  | some turns =>
    if excitations = [] ∨ waveform = false then M.lift (.throws .invalid) else
    let tds := turns.zip out.dividers
    M.bind (M.lift (prune rt threshold excitations)) fun excitations =>
    M.bind (M.mapM (skinOfTurn resistance skin c.windings excitations) tds) fun perTurn =>
    M.bind (M.lift (connectionLengths real c)) fun lengths =>
    M.bind (skinConnectionsFrom resistance skin c.windings excitations tds 0 lengths) fun connections =>
    M.pure { out with
      total := out.total + ((perTurn.map sumOf).sum + (connections.map fun a => sumOf (a.getD [])).sum),
      perTurn := (out.perTurn.zip perTurn).map fun x => { x.1 with skin := some x.2 },
      perWinding := (out.perWinding.zip connections).map fun x => match x.2 with
        | some l => { x.1 with skin := some ((0, 0) :: l) }
        | none => x.1 }

/-! ## Proximity effect -/

/-- `ComplexFieldPoint`: the turn it is in, its place if it has two values, and all else. -/
structure Point where
  turn : Option Int
  place : Option (ℚ × ℚ)
  value : Nat
  deriving DecidableEq, Repr

/-- `ComplexField`: the field at a frequency. -/
structure Field where
  frequency : ℚ
  points : List Point
  deriving DecidableEq, Repr

/-- Square of a distance, which compares as the distance does. -/
def apart (a b : ℚ × ℚ) : ℚ := (a.1 - b.1) * (a.1 - b.1) + (a.2 - b.2) * (a.2 - b.2)

/-- Whether a point is at the second crossing (WindingProximityEffectLosses.cpp 246-250). -/
def isSecond (t : Turn) (p : Point) : Bool :=
  match t.second, p.place with
  | some s, some q => decide (apart q s < apart q t.place)
  | _, _ => false

/-- The points of a turn at each crossing (WindingProximityEffectLosses.cpp 229-258). -/
def splitField (t : Turn) (i : Nat) (f : Field) : Res (ℚ × List Point × List Point) :=
  if f.points.any fun p => p.turn.isNone then .throws .invalid
  else .ok (f.frequency,
    (f.points.filter fun p => p.turn == some (i : Int)).filter (fun p => !isSecond t p),
    (f.points.filter fun p => p.turn == some (i : Int)).filter (isSecond t))

/-- The proximity losses of a turn (WindingProximityEffectLosses.cpp 195-316). `prox` is the formula: wire, frequency and
points; its models are made anew for every call (74-108), so it keeps nothing. The sizes compared at 283 are those of the
same list of fields. -/
def proximityOfTurn (prox : Wire → ℚ → List Point → Res ℚ) (ws : List Winding) (fields : List Field) (ti : Turn × Nat) :
    Res (List (ℚ × ℚ)) :=
  (windingIndex ws ti.1.winding).bind fun w =>
  match ws[w]? with
  | none => .ub
  | some x =>
    (Res.mapM (splitField ti.1 ti.2) fields).bind fun parts =>
    (Res.mapM (fun a => prox x.wire a.1 a.2.1) parts).bind fun first =>
    if parts.any fun a => !a.2.2.isEmpty then
      (Res.mapM (fun a => prox x.wire a.1 a.2.2) parts).bind fun second =>
      .ok ((0, 0) :: (parts.zip (first.zip second)).map fun y =>
        (y.1.1, y.2.1 * (ti.1.length / 2) + y.2.2 * (ti.1.length / 2)))
    else .ok ((0, 0) :: (parts.zip first).map fun y => (y.1.1, y.2 * ti.1.length))

/-- `calculate_proximity_effect_losses` (WindingProximityEffectLosses.cpp 183-326). The field is a parameter. -/
def proximityLosses (prox : Wire → ℚ → List Point → Res ℚ) (ws : List Winding) (turns : List Turn) (fields : List Field)
    (out : Output) : Res Output :=
  (Res.mapM (proximityOfTurn prox ws fields) turns.zipIdx).bind fun perTurn =>
  .ok { out with
    total := out.total + (perTurn.map sumOf).sum,
    perTurn := (out.perTurn.zip perTurn).map fun x => { x.1 with proximity := some x.2 } }

/-! ## Combination -/

/-- One kind of losses of the turns of an element (WindingLosses.cpp 57-83): the frequencies of the first turn. -/
def combineHarmonics : List (List (ℚ × ℚ)) → Res (List (ℚ × ℚ))
  | [] => .ok []
  | l :: rest => (l :: rest).foldl (fun acc x => acc.bind fun a => addHarmonics a x) (.ok (l.map fun fl => (fl.1, 0)))

/-- `combine_turn_losses_per_element` (WindingLosses.cpp 40-91). Reading losses that a turn does not have is undefined.
`blank` is what a default `OhmicLosses` holds, for an element without turns. -/
def combine (blank : ℚ) (turns : List Element) : Res Element :=
  (Res.mapM (fun e : Element => match e.ohmic with
    | some x => .ok x
    | none => .ub) turns).bind fun os =>
  (Res.mapM (fun e : Element => match e.skin with
    | some x => .ok x
    | none => .ub) turns).bind fun ss =>
  (Res.mapM (fun e : Element => match e.proximity with
    | some x => .ok x
    | none => .ub) turns).bind fun ps =>
  (combineHarmonics ss).bind fun s => (combineHarmonics ps).bind fun p =>
  .ok ⟨some (if turns = [] then blank else os.sum), some s, some p⟩

/-- The elements of turns that have a name (Coil.cpp 5439-5473). -/
def named (turns : List Turn) (perTurn : List Element) (nameOf : Turn → Option String) (name : String) : Res (List Element) :=
  if turns.any fun t => (nameOf t).isNone then .throws .badAccess
  else .ok (((turns.zip perTurn).filter fun x => nameOf x.1 == some name).map fun x => x.2)

/-- The conduction layers or sections, if it is wound by them (Coil.cpp 13501-13529). -/
def wound : Option (List String) → Res (List String)
  | none => .throws .notProcessed
  | some l => .ok l

/-- `combine_turn_losses` (WindingLosses.cpp 93-142): what was reported per winding before is replaced. -/
def combineAll (blank : ℚ) (c : Coil) (turns : List Turn) (out : Output) : Res Output :=
  (wound c.layers).bind fun layers =>
  (Res.mapM (fun n => (named turns out.perTurn Turn.layer n).bind (combine blank)) layers).bind fun perLayer =>
  (wound c.sections).bind fun sections =>
  (Res.mapM (fun n => (named turns out.perTurn Turn.sect n).bind (combine blank)) sections).bind fun perSection =>
  (Res.mapM (fun x : Winding => (named turns out.perTurn (fun t => some t.winding) x.name).bind (combine blank)) c.windings).bind
    fun perWinding =>
  .ok { out with perLayer := perLayer, perSection := perSection, perWinding := perWinding }

/-- Everything `calculate_losses` is given besides the coil and the currents: resistance per metre of a wire, the formula
of skin effect, that of proximity effect, the setting of real geometry, the square root and the threshold of harmonics,
the field, and what is in a blank element. -/
structure Setup (S : Type) where
  resistance : Wire → ℚ
  skin : Wire → ℚ → ℚ → ℚ → M S ℚ
  real : Bool
  rt : ℚ → ℚ
  threshold : ℚ
  prox : Wire → ℚ → List Point → Res ℚ
  fields : List Field
  blank : ℚ

/-- The field (WindingLosses.cpp 283): its harmonics are chosen first (CoilMesher.cpp 34-35), for which every
excitation needs a current (Utils.cpp 2223-2225). What is computed then is the parameter `fields`; its exceptions are
not modelled. -/
def fieldOf (fields : List Field) (excitations : List (Option Current)) : Res (List Field) :=
  if excitations.all Option.isSome then .ok fields else .throws .invalid

/-- `WindingLosses::calculate_losses` (WindingLosses.cpp 169-289), for currents already processed (177-194). Choosing the
model of the field and computing it (199-283) is not modelled. -/
def losses {S : Type} (u : Setup S) (c : Coil) (excitations : List (Option Current)) (waveform : Bool) : M S Output :=
  M.bind (M.lift (ohmic u.resistance u.real c excitations)) fun o =>
  M.bind (skinLosses u.resistance u.skin u.real u.rt u.threshold c excitations waveform o) fun o =>
  match c.turns with
  | none => M.lift (.throws .notProcessed)
  | some turns =>
    M.bind (M.lift (fieldOf u.fields excitations)) fun fields =>
    M.bind (M.lift (proximityLosses u.prox c.windings turns fields o)) fun o =>
    M.lift (combineAll u.blank c turns o)

/-- `get_total_winding_losses` of an element (WindingLosses.cpp 10-30). -/
def elementTotal (e : Element) : ℚ := e.ohmic.getD 0 + sumOf (e.skin.getD []) + sumOf (e.proximity.getD [])

/-- `get_total_winding_losses` of elements (WindingLosses.cpp 32-38). -/
def elementsTotal (l : List Element) : ℚ := (l.map elementTotal).sum

end Verif.WindingLosses
