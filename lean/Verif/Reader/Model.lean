import Verif.Reader.Text
import Mathlib.Algebra.Order.Ring.Nat

/-!
# From the columns to an operating point

Model of the rest of `CircuitSimulationReader` (src/processors/CircuitSimulatorInterface.cpp): the window of one period, the winding and the kind
of each column, the columns chosen by the user and the operating point.

Numbers are an ordered field: rounding, infinities and not-a-number are left out.  The sampling of a waveform
(`Inputs::calculate_sampled_waveform`) is any function that may throw.  Of what is computed from each waveform, the processed data and the
harmonics are left out: they are functions of it and of the frequency.
-/

namespace Verif.Reader

inductive Error where
  | emptyColumn | hugeNumber | lengths | insufficient | window | sampling
  deriving DecidableEq

inductive Res (α : Type) where
  | ok (a : α)
  | throw (e : Error)
  | ub
  deriving DecidableEq

section
variable {K : Type} [Field K] [LinearOrder K]

/-- A waveform: its time and its data. -/
structure Wave (K : Type) where
  time : List K
  data : List K
  deriving DecidableEq

/-- `_periodWindowPerTimeAxis` (src/processors/CircuitSimulatorInterface.h:678-683). -/
abbrev Windows := List (Text × Nat × Nat)

/-- `for (int i = n - 1; i >= 0; --i)` until a test succeeds. -/
def searchDown (p : Nat → Bool) : Nat → Option Nat
  | 0 => none
  | n + 1 => if p n then some n else searchDown p n

/-- `for (size_t i = k; i < k + n; ++i)` until a test succeeds. -/
def searchUp (p : Nat → Bool) (k : Nat) : Nat → Option Nat
  | 0 => none
  | n + 1 => if p k then some k else searchUp p (k + 1) n

/-- A test on an element, false past the end: the loops stay within the list. -/
def test (l : List K) (p : K → Bool) (i : Nat) : Bool := (l[i]?).any p

/-- `(data[i] >= 0 && previousData <= 0) || (data[i] <= 0 && previousData >= 0)` (src/processors/CircuitSimulatorInterface.cpp:2139), where the
previous datum is the one at `i + 1` (src/processors/CircuitSimulatorInterface.cpp:2136, 2144). -/
def crosses (data : List K) (i : Nat) : Bool :=
  match data[i]?, data[i + 1]? with
  | some a, some b => (decide (a ≥ 0) && decide (b ≤ 0)) || (decide (a ≤ 0) && decide (b ≥ 0))
  | _, _ => false

/-- The end of a window that starts at an index and a time (src/processors/CircuitSimulatorInterface.cpp:2149-2173). -/
def endWindow (time : List K) (start period : K) (index : Nat) : Res (Nat × Nat) :=
  match searchUp (test time fun t => decide (t ≥ start + period)) index (time.length - index) with
  | some i => .ok (index, i + 1)
  | none => .throw .insufficient

/-- The window of one period (src/processors/CircuitSimulatorInterface.cpp:2115-2173) with the last time, aligned to a crossing through zero.
With a frequency of zero the period is infinite, no time is below the start, no crossing is looked for, and the end, that is not a number, is
never reached. -/
def findWindow (frequency : K) (time data : List K) (last : K) : Res (Nat × Nat) :=
  if frequency = 0 then .throw .insufficient
  else
    let period := 1 / frequency
    let first := (searchDown (test time fun t => decide (t ≤ last - period)) time.length).getD 0
    match searchDown (crosses data) first with
    | none => endWindow time (last - period) period first
    | some i => endWindow time ((time[i]?).getD (last - period)) period i

/-- The part of a waveform within a window, its time from zero (src/processors/CircuitSimulatorInterface.cpp:2177-2198). -/
def cut (w : Wave K) (window : Nat × Nat) : Res (Wave K) :=
  if window.2 > w.data.length ∨ window.1 ≥ window.2 then .throw .window
  else
    let part (l : List K) := (l.drop window.1).take (window.2 - window.1)
    match part w.time with
    | [] => .ub
    | t :: ts => .ok { time := (t :: ts).map (· - t), data := part w.data }

/-- `get_one_period` (src/processors/CircuitSimulatorInterface.cpp:2099-2207) aligned to a crossing through zero and without sampling, with the
windows it leaves. `time.back()` of no time is undefined. -/
def onePeriod (windows : Windows) (w : Wave K) (frequency : K) (axis : Text) : Windows × Res (Wave K) :=
  if w.data.length ≠ w.time.length then (windows, .throw .lengths)
  else match w.time.getLast? with
    | none => (windows, .ub)
    | some last =>
      match windows.lookup axis with
      | some window => (windows, cut w window)
      | none =>
        match findWindow frequency w.time w.data last with
        | .ok window => ((axis, window) :: windows, cut w window)
        | .throw e => (windows, .throw e)
        | .ub => (windows, .ub)

/-- Repeated times are merged, the last of their samples stays (src/processors/CircuitSimulatorInterface.cpp:2243-2248). -/
def collapse : List (K × K) → List (K × K)
  | [] => []
  | [p] => [p]
  | p :: q :: r => if p.1 ≠ q.1 then p :: collapse (q :: r) else collapse (q :: r)

/-- `extract_waveform` with a time (src/processors/CircuitSimulatorInterface.cpp:2223-2254) without sampling. -/
def extractRaw (windows : Windows) (signal time : Column K) (frequency : K) : Windows × Res (Wave K) :=
  if signal.data.length ≠ time.data.length then (windows, .throw .lengths)
  else
    let merged := collapse (time.data.zip signal.data)
    onePeriod windows { time := merged.map (·.1), data := merged.map (·.2) } frequency time.name

/-- `extract_waveform` with sampling (src/processors/CircuitSimulatorInterface.cpp:2200-2203, 2223-2254). -/
def extract (sampled : Wave K → K → Option (Wave K)) (windows : Windows) (signal time : Column K) (frequency : K) :
    Windows × Res (Wave K) :=
  match extractRaw windows signal time frequency with
  | (ws, .ok w) => match sampled w frequency with
    | some s => (ws, .ok s)
    | none => (ws, .throw .sampling)
  | r => r

/-! ## Windings -/

/-- The runs of digits of a name (src/processors/CircuitSimulatorInterface.cpp:2257-2263). -/
def digitRuns : List Char → Text → List Text
  | run, [] => if run = [] then [] else [run]
  | run, c :: r => if c.isDigit then digitRuns (run ++ [c]) r else if run = [] then digitRuns [] r else run :: digitRuns [] r

/-- `get_numbers_in_string` (src/processors/CircuitSimulatorInterface.cpp:2256-2266); `std::stoi` throws above the largest `int`. -/
def numbersIn (name : Text) : Option (List Nat) :=
  let ns := (digitRuns [] name).map natOf
  if ns.any (· > 2147483647) then none else some ns

/-- `s.find(d) != npos`. -/
def occurs (d : Text) : Text → Bool
  | [] => d.isEmpty
  | c :: r => d.isPrefixOf (c :: r) || occurs d r

/-- `windingLabels` (src/processors/CircuitSimulatorInterface.cpp:2275-2285). -/
def windingLabels : List (Text × Nat) :=
  [("pri".toList, 0), ("sec".toList, 1), ("aux".toList, 2), ("ter".toList, 2), ("HV".toList, 0), ("LV".toList, 1), (['a'], 0), (['b'], 1),
    (['c'], 2)]

/-- The number of a name (src/processors/CircuitSimulatorInterface.cpp:2293-2314): the last it has, else that of the first label in it, else 0. -/
def numberOf (name : Text) : Option Nat :=
  (numbersIn name).map fun ns => match ns.getLast? with
    | some n => n
    | none => match windingLabels.find? fun l => occurs l.1 name with
      | some l => l.2
      | none => 0

/-- The first loop of `extract_winding_indexes` (src/processors/CircuitSimulatorInterface.cpp:2290-2317). -/
def numbered : List (Column K) → Res (List (Column K))
  | [] => .ok []
  | c :: rest =>
    match canBeTime c.data with
    | none => .throw .emptyColumn
    | some isTime =>
      match if isTime then some none else (numberOf c.name).map some with
      | none => .throw .hugeNumber
      | some n =>
        match numbered rest with
        | .ok cs => .ok ({ c with winding := n } :: cs)
        | e => e

/-- Insertion in a sorted list without repetitions: `std::sort` and `std::unique` (src/processors/CircuitSimulatorInterface.cpp:2319-2320). -/
def insertNew (n : Nat) : List Nat → List Nat
  | [] => [n]
  | m :: r => if n < m then n :: m :: r else if n = m then m :: r else m :: insertNew n r

def sortedDistinct (l : List Nat) : List Nat := l.foldr insertNew []

/-- The second loop (src/processors/CircuitSimulatorInterface.cpp:2322-2329), from the index `k` on. -/
def reset (cols : List (Column K)) : Nat → List Nat → List (Column K)
  | _, [] => []
  | k, n :: ns => (cols.filter fun c => c.winding == some n).map (fun c => { c with winding := some k }) ++ reset cols (k + 1) ns

/-- `extract_winding_indexes` (src/processors/CircuitSimulatorInterface.cpp:2268-2333); what it returns is not used. -/
def windingIndexes (cols : List (Column K)) : Res (List (Column K)) :=
  match numbered cols with
  | .ok cs => .ok (reset cs 0 (sortedDistinct (cs.filterMap Column.winding)))
  | e => e

/-! ## Kinds -/

/-- `matches_at_word_boundary` (src/processors/CircuitSimulatorInterface.cpp:2357-2387) from a place in the name, with the character before. -/
def atWord (pre : Text) : Option Char → Text → Bool
  | _, [] => false
  | before, c :: r =>
    (pre.isPrefixOf (c :: r) &&
      (match before with | none => true | some b => !b.isAlphanum && b != '_') &&
      (match ((c :: r).drop pre.length).head?, pre with
        | some next, [p] => !(p.isUpper && next.isLower)
        | _, _ => true)) || atWord pre (some c) r

/-- The aliases of times, magnetizing currents, currents and voltages (src/processors/CircuitSimulatorInterface.h:685-690). -/
def timeAliases : List Text := ["TIME", "Time", "time", "[s]"].map String.toList
def magnetizingAliases : List Text := ["Imag", "MAG", "mag", "Im", "magnetizing"].map String.toList
def currentAliases : List Text := ["Inductor current", "CURRENT", "CURR", "Current", "Curr", "current", "curr", "Ipri", "Isec", "I_", "i_", "I(",
  "i(", "[A]", "Ip", "Is", "It", "Id"].map String.toList
def voltageAliases : List Text := ["Inductor voltage", "VOLTAGE", "VOLT", "Voltage", "Volt", "voltage", "volt", "Vpri", "Vsec", "Vout", "V_", "v_",
  "V(", "v(", "[V]", "Vp", "Vs", "Vt"].map String.toList

/-- `guess_type_by_name` (src/processors/CircuitSimulatorInterface.cpp:2389-2432). -/
def kindByName (name : Text) : Option DataType :=
  if timeAliases.any (occurs · name) then some .time
  else if magnetizingAliases.any (occurs · name) then some .magnetizing
  else if currentAliases.any (occurs · name) then some .current
  else if voltageAliases.any (occurs · name) then some .voltage
  else if atWord ['I'] none name then some .current
  else if atWord ['V'] none name then some .voltage
  else none

/-- `error` of a value against another (src/processors/CircuitSimulatorInterface.cpp:2000-2003): zero over zero is not a number. -/
def difference (a b : K) : K := if max |b| |a| = 0 then |a - b| else |a - b| / max |b| |a|

/-- One datum against the distinct values so far (src/processors/CircuitSimulatorInterface.cpp:1997-2012): every value it is close to counts it. -/
def countIn (limit : K) (distinct : List (K × Nat)) (x : K) : List (K × Nat) :=
  let close (v : K) : Bool := decide (difference v x ≤ limit)
  distinct.map (fun p => if close p.1 then (p.1, p.2 + 1) else p) ++ if distinct.any fun p => close p.1 then [] else [(x, 1)]

/-- `can_be_voltage` (src/processors/CircuitSimulatorInterface.cpp:1986-2026) of data that are not empty. -/
def canBeVoltage (limit : K) (data : List K) : Bool :=
  if data.length = 1 then false
  else
    let significant := ((data.foldl (countIn limit) []).filter fun p => decide ((p.2 : K) > (data.length : K) * limit)).length
    significant == 2 || significant == 3

/-- The steps of data, the first from the last (src/processors/CircuitSimulatorInterface.cpp:2029-2039). -/
def steps (data : List K) : List K := List.zipWith (· - ·) data (data.getLast?.toList ++ data)

/-- `can_be_current` (src/processors/CircuitSimulatorInterface.cpp:2028-2042). -/
def canBeCurrent (limit : K) (data : List K) : Bool := canBeVoltage limit (steps data)

/-- `rolling_window_filter` (src/processors/CircuitSimulatorInterface.cpp:2335-2354) with `convolution_valid`
(src/processors/CircuitSimulatorInterface.cpp:73-87) of ones. -/
def rolling (data : List K) : List K :=
  let n := max 1 (data.length / 192)
  let extended := data ++ data.take (n - 1)
  (List.range data.length).map fun i => ((extended.drop i).take n).sum / n

/-- The loop over the data (src/processors/CircuitSimulatorInterface.cpp:2455-2472), with the attempts left. -/
def kindByData : Nat → List K → DataType
  | 0, _ => .unknown
  | n + 1, data =>
    if canBeCurrent (1 / 20) data then .current
    else if canBeVoltage (1 / 20) data then .voltage
    else kindByData n (rolling data)

/-- The reader. -/
structure Reader (K : Type) where
  columns : List (Column K)
  time : Column K
  windows : Windows := []
  deriving DecidableEq

/-- The loop of `extract_column_types` (src/processors/CircuitSimulatorInterface.cpp:2439-2476) with the windows it leaves: columns that can be
times are dropped. -/
def typed (time : Column K) (frequency : K) : Windows → List (Column K) → Windows × Res (List (Column K))
  | ws, [] => (ws, .ok [])
  | ws, c :: rest =>
    match canBeTime c.data with
    | none => (ws, .throw .emptyColumn)
    | some true => typed time frequency ws rest
    | some false =>
      match extractRaw ws c time frequency with
      | (ws, .ub) => (ws, .ub)
      | (ws, .throw e) => (ws, .throw e)
      | (ws, .ok w) =>
        match typed time frequency ws rest with
        | (ws, .ok cs) => (ws, .ok ({ c with kind := some ((kindByName c.name).getD (kindByData 100 w.data)) } :: cs))
        | r => r

/-- `extract_winding_indexes` and `extract_column_types` (src/processors/CircuitSimulatorInterface.cpp:2487-2488, 2553-2554), with the reader left
behind. -/
def recognise (r : Reader K) (frequency : K) : Reader K × Res Unit :=
  match windingIndexes r.columns with
  | .ub => (r, .ub)
  | .throw e => (r, .throw e)
  | .ok cs =>
    match typed r.time frequency r.windows cs with
    | (ws, .ok cs') => ({ r with columns := cs', windows := ws }, .ok ())
    | (ws, .throw e) => ({ r with columns := cs, windows := ws }, .throw e)
    | (ws, .ub) => ({ r with columns := cs, windows := ws }, .ub)

/-- The names of the columns of a winding. -/
structure Names where
  current : Option Text := none
  magnetizing : Option Text := none
  time : Option Text := none
  voltage : Option Text := none
  deriving DecidableEq

/-- The last column of a kind of a winding: assigned in turn, the last stays. -/
def lastOf (cols : List (Column K)) (w : Nat) (k : DataType) : Option (Column K) :=
  cols.reverse.find? fun c => c.winding == some w && c.kind == some k

/-- `extract_map_column_names` (src/processors/CircuitSimulatorInterface.cpp:2481-2510). -/
def mapColumnNames (r : Reader K) (windings : Nat) (frequency : K) : Reader K × Res (List Names) :=
  match recognise r frequency with
  | (r, .ok ()) => (r, .ok ((List.range windings).map fun w =>
      { time := some r.time.name
        current := some (((lastOf r.columns w .current).map Column.name).getD [])
        magnetizing := (lastOf r.columns w .magnetizing).map Column.name
        voltage := some (((lastOf r.columns w .voltage).map Column.name).getD []) }))
  | (r, .throw e) => (r, .throw e)
  | (r, .ub) => (r, .ub)

/-- The columns of a name, as of a kind and a winding (src/processors/CircuitSimulatorInterface.cpp:2517-2538). -/
def assigned (cols : List (Column K)) (w : Nat) (k : DataType) : Option Text → List (Column K)
  | none => []
  | some n => (cols.filter fun c => c.name == n).map fun c => { c with kind := some k, winding := some w }

/-- `assign_column_names` (src/processors/CircuitSimulatorInterface.cpp:2512-2545): the entries of a map come in the order of their keys; keys
other than these four are passed over. -/
def assign (cols : List (Column K)) : Nat → List Names → List (Column K)
  | _, [] => []
  | w, n :: ns => assigned cols w .current n.current ++ assigned cols w .magnetizing n.magnetizing ++ assigned cols w .time n.time ++
      assigned cols w .voltage n.voltage ++ assign cols (w + 1) ns

/-- The waveforms of an excitation, and its frequency. -/
structure Excitation (K : Type) where
  frequency : Option K := none
  current : Option (Wave K) := none
  magnetizing : Option (Wave K) := none
  voltage : Option (Wave K) := none
  deriving DecidableEq

def Excitation.isEmpty (e : Excitation K) : Bool := e.current.isNone && e.voltage.isNone && e.magnetizing.isNone

/-- A waveform set as what its column is (src/processors/CircuitSimulatorInterface.cpp:2590, 2600, 2610). -/
def Excitation.set (e : Excitation K) (k : DataType) (w : Wave K) : Excitation K :=
  match k with
  | .current => { e with current := some w }
  | .magnetizing => { e with magnetizing := some w }
  | .voltage => { e with voltage := some w }
  | _ => e

/-- Whether a column gives a waveform to a winding (src/processors/CircuitSimulatorInterface.cpp:2578, 2592, 2602). -/
def gives (w : Nat) (c : Column K) : Option DataType :=
  if c.winding = some w then
    match c.kind with
    | some .current => some .current
    | some .magnetizing => some .magnetizing
    | some .voltage => some .voltage
    | _ => none
  else none

/-- The loop over the columns for a winding (src/processors/CircuitSimulatorInterface.cpp:2576-2612). -/
def excite (sampled : Wave K → K → Option (Wave K)) (time : Column K) (frequency : K) (w : Nat) :
    Windows → Excitation K → List (Column K) → Windows × Res (Excitation K)
  | ws, e, [] => (ws, .ok e)
  | ws, e, c :: rest =>
    match gives w c with
    | none => excite sampled time frequency w ws { e with frequency := some frequency } rest
    | some k =>
      match extract sampled ws c time frequency with
      | (ws, .ok x) => excite sampled time frequency w ws ({ e with frequency := some frequency }.set k x) rest
      | (ws, .throw err) => (ws, .throw err)
      | (ws, .ub) => (ws, .ub)

/-- The loop over the windings (src/processors/CircuitSimulatorInterface.cpp:2574-2614) with the time of each. -/
def exciteAll (sampled : Wave K → K → Option (Wave K)) (timeOf : Nat → Column K) (frequency : K) (cols : List (Column K)) :
    Windows → List Nat → Windows × Res (List (Excitation K))
  | ws, [] => (ws, .ok [])
  | ws, w :: rest =>
    match excite sampled (timeOf w) frequency w ws {} cols with
    | (ws, .throw e) => (ws, .throw e)
    | (ws, .ub) => (ws, .ub)
    | (ws, .ok x) =>
      match exciteAll sampled timeOf frequency cols ws rest with
      | (ws, .ok xs) => (ws, .ok (x :: xs))
      | r => r

/-- Excitations without waveforms are dropped from the end, but not the first (src/processors/CircuitSimulatorInterface.cpp:2618-2626). -/
def dropEmpty : List (Excitation K) → List (Excitation K)
  | [] => []
  | x :: xs => x :: (xs.reverse.dropWhile Excitation.isEmpty).reverse

/-- `timeForWinding` (src/processors/CircuitSimulatorInterface.cpp:2563-2572): the last time column assigned to the winding, else that of the
file. -/
def timeForWinding (r : Reader K) (w : Nat) : Column K := (lastOf r.columns w .time).getD r.time

/-- `extract_operating_point` (src/processors/CircuitSimulatorInterface.cpp:2547-2635): its excitations, with the reader left behind. -/
def operatingPoint (sampled : Wave K → K → Option (Wave K)) (r : Reader K) (windings : Nat) (frequency : K)
    (names : Option (List Names)) : Reader K × Res (List (Excitation K)) :=
  match names with
  | some ns =>
    let r := { r with columns := assign r.columns 0 ns }
    match exciteAll sampled (timeForWinding r) frequency r.columns r.windows (List.range windings) with
    | (ws, .ok xs) => ({ r with windows := ws }, .ok (dropEmpty xs))
    | (ws, .throw e) => ({ r with windows := ws }, .throw e)
    | (ws, .ub) => ({ r with windows := ws }, .ub)
  | none =>
    match recognise r frequency with
    | (r, .throw e) => (r, .throw e)
    | (r, .ub) => (r, .ub)
    | (r, .ok ()) =>
      match exciteAll sampled (fun _ => r.time) frequency r.columns r.windows (List.range windings) with
      | (ws, .ok xs) => ({ r with windows := ws }, .ok (dropEmpty xs))
      | (ws, .throw e) => ({ r with windows := ws }, .throw e)
      | (ws, .ub) => ({ r with windows := ws }, .ub)

end

end Verif.Reader
