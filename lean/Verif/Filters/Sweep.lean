import Verif.Filters.Basic

/-!
# The sweep of turns of the filters by losses (src/advisers/MagneticFilterLosses.cpp:42-255, 277-492)

Both filters, core and DC losses and core, DC and skin losses, share the loop; they differ in how the next number of turns is found and in
which winding losses are added, and both are given here.
-/

namespace Verif.Filters.Sweep

open Verif.Requirements

variable {K : Type} [Field K] [LinearOrder K]

/-- What `compute_core_losses_with_negative_guard` answers (src/advisers/MagneticFilterInternal.h:299-338): not to be scored, or losses. An
exception of the model is left out of it. -/
inductive Pick (K : Type)
  | unscorable
  | losses (x : K)

/-- What the physical models answer for one candidate, by operating point and number of turns of the first winding. -/
structure Bench (K : Type) where
  /-- `is_inductor` (src/advisers/MagneticFilterInternal.h:134-148) -/
  inductor : Bool
  /-- `is_pqi_or_ui_shape` (src/advisers/MagneticFilterInternal.h:185-187) -/
  integrated : Bool
  /-- absolute value of the processed peak of the current of the first winding -/
  peak : ℕ → Option K
  /-- `calculate_saturation_current` of the magnetic with that many turns; `none` is an exception, which is caught -/
  saturation : ℕ → ℕ → Option K
  /-- nominal magnetizing inductance -/
  inductance : ℕ → ℕ → Outcome K
  /-- is there a description of the turns after `fast_wind`? -/
  wound : ℕ → Bool
  /-- losses of the core -/
  core : ℕ → ℕ → Outcome (Pick K)
  /-- ohmic losses, with those of the skin effect in the second filter -/
  winding : ℕ → ℕ → Outcome K

/-- What does not change along the sweep. -/
structure Setup (K : Type) where
  bench : Bench K
  /-- requirement of magnetizing inductance -/
  required : Dim K
  /-- `defaults.magnetizingInductanceThresholdValidity` -/
  tolerance : K
  /-- `get_core_adviser_saturation_margin` -/
  margin : K
  /-- `defaults.coreAdviserThresholdValidity` -/
  threshold : K
  /-- the number of turns after another (src/constructive_models/NumberTurns.cpp:22-34) -/
  advance : ℕ → ℕ

/-- What is kept between operating points (src/advisers/MagneticFilterLosses.cpp:62-77). `next` is what `numberTurns` will give, `total` is
`newTotalLosses` and `core` is `coreLosses`, where `none` is infinity, `budget` is `iteration`, and `coil` is the number of turns of the
first winding of the local coil. -/
structure St (K : Type) where
  next : ℕ
  total : Option K
  core : Option K
  previous : ℕ
  budget : ℕ
  coil : ℕ

/-- The best losses of an operating point and the turns that gave them (lines 105-109). -/
abbrev Best (K : Type) := Option (K × ℕ)

/-- How one turn of the loop ends. -/
inductive Step (K : Type)
  /-- the condition of the loop holds -/
  | again (s : St K) (best : Best K)
  /-- `break`, or the condition does not hold -/
  | leave (s : St K) (best : Best K)
  /-- `return {false, 0.0}` -/
  | reject
  | throws
  | undefined

/-- `size_t` less one. -/
def pred64 (n : ℕ) : ℕ := if n = 0 then 2 ^ 64 - 1 else n - 1

/-- `new < current * threshold`, where the first may not be infinite and the second may (line 228). -/
def improves (threshold : K) (current : Option K) (new : K) : Bool :=
  match current with
  | none => true
  | some c => decide (new < c * threshold)

/-- Keeps the smaller losses, the first of equals (lines 215-220). -/
def keepBest (best : Best K) (new : K) (turns : ℕ) : Best K :=
  match best with
  | none => some (new, turns)
  | some (b, n) => if new < b then some (new, turns) else some (b, n)

/-- `saturationPeakCurrent` (lines 95-97). -/
def peakOf (b : Bench K) (op : ℕ) : K := if b.inductor then (b.peak op).getD 0 else 0

/-- Does the cap of saturation stop the sweep (lines 122-140)? A current of zero, which is also what an exception leaves, does not. -/
def saturates (u : Setup K) (op turns : ℕ) : Bool :=
  if 0 < peakOf u.bench op then
    match u.bench.saturation op turns with
    | some i => decide (0 < i ∧ i < u.margin * peakOf u.bench op)
    | none => false
  else false

/-- The losses of the turn, from the core on (lines 156-228): `s` has the turns already set and `previous` already updated. -/
def evaluate (u : Setup K) (op turns : ℕ) (current : Option K) (s : St K) (best : Best K) : Step K :=
  if u.bench.wound turns = false then
    if u.bench.integrated = false then .reject
    else match u.bench.core op turns with
      | .throws => .throws
      | .undefined => .undefined
      | .value .unscorable => .reject
      | .value (.losses c) => if c < 0 then .throws else .reject
  else match u.bench.core op turns with
    | .throws => .throws
    | .undefined => .undefined
    | .value .unscorable => .reject
    | .value (.losses c) =>
      if c < 0 then .throws
      else if u.bench.integrated then .leave { s with core := some c, total := some c } best
      else match u.bench.winding op turns with
        | .throws => .throws
        | .undefined => .undefined
        | .value w =>
          if w < 0 then .throws
          else
            let s' := { s with core := some c, total := some (c + w), budget := pred64 s.budget }
            let best' := keepBest best (c + w) turns
            if s'.budget = 0 then .leave s' best'
            else if improves u.threshold current (c + w) then .again s' best' else .leave s' best'

/-- One turn of the loop (lines 112-228). -/
def step (u : Setup K) (op : ℕ) (s : St K) (best : Best K) : Step K :=
  let turns := s.next
  let s1 := { s with next := u.advance turns, coil := turns }
  if saturates u op turns then .leave { s1 with coil := s.previous } best
  else match u.bench.inductance op turns with
    | .throws => .throws
    | .undefined => .undefined
    | .value l =>
      match check u.tolerance u.required l with
      | none => .throws
      | some true => evaluate u op turns s.total { s1 with previous := turns } best
      | some false =>
        match resolve u.required .nominal with
        | none => .throws
        | some r =>
          if r < l then .leave { s1 with coil := s.previous } best
          else evaluate u op turns s.total s1 best

/-- How the loop ends. `running` when `fuel` turns were not enough. -/
inductive Run (K : Type)
  | left (s : St K) (best : Best K)
  | reject
  | throws
  | undefined
  | running

/-- The loop (lines 111-228). -/
def loop (u : Setup K) (op : ℕ) : ℕ → St K → Best K → Run K
  | 0, _, _ => .running
  | fuel + 1, s, best =>
    match step u op s best with
    | .again s' best' => loop u op fuel s' best'
    | .leave s' best' => .left s' best'
    | .reject => .reject
    | .throws => .throws
    | .undefined => .undefined

/-- What is written for an operating point once its loop ended (lines 231-250): the losses pushed and the turns of the coil given to the
magnetic, or nothing. -/
def record (s : St K) (best : Best K) : St K × Option (K × ℕ) :=
  match best with
  | some (x, n) => ({ s with coil := n }, some (x, n))
  | none =>
    match s.core, s.total with
    | some c, some t => if 0 < c then (s, some (t, s.coil)) else (s, none)
    | _, _ => (s, none)

/-- What has been written so far: the losses pushed, and the turns of the coil of the magnetic if it was given one. -/
structure Written (K : Type) where
  losses : List K
  coil : Option ℕ

/-- What the whole filter ends in. -/
inductive Verdict (K : Type)
  | answer (a : Answer K) (w : Written K)
  | throws
  | undefined
  | running

/-- `finalize_losses_scoring` (src/advisers/MagneticFilterInternal.h:343-371), without the outputs. `limit` is the largest power mean times
0.05 over 0.9. Over no operating point the mean is not a number, and nothing is less than it. -/
def finalize (limit : K) (ops : ℕ) (w : Written K) : Answer K :=
  if w.losses.length < ops then rejected
  else if ops = 0 then ⟨false, .nan⟩
  else ⟨decide (w.losses.sum / ops < limit), .num (w.losses.sum / ops)⟩

/-- The operating points from `op` on, `left` of them (lines 89-251). -/
def points (u : Setup K) (fuel : ℕ) (limit : K) (ops : ℕ) : ℕ → ℕ → St K → Written K → Verdict K
  | _, 0, _, w => .answer (finalize limit ops w) w
  | op, left + 1, s, w =>
    match loop u op fuel s none with
    | .running => .running
    | .throws => .throws
    | .undefined => .undefined
    | .reject => .answer rejected w
    | .left s' best =>
      match record s' best with
      | (s'', some (x, n)) => points u fuel limit ops (op + 1) left s'' ⟨w.losses ++ [x], some n⟩
      | (s'', none) => points u fuel limit ops (op + 1) left s'' w

/-- The filter (lines 61-255), once the windings match those of the first operating point. `start` is the number of turns the magnetic comes
with, `budget` is `defaults.coreAdviserSkinEffectMaxIterations`. -/
def filter (u : Setup K) (fuel : ℕ) (limit : K) (budget start ops : ℕ) : Verdict K :=
  points u fuel limit ops 0 ops ⟨start, none, none, start, budget, start⟩ ⟨[], none⟩

/-- The number of turns after another when there are no other windings to fit (src/constructive_models/NumberTurns.cpp:29-34): the least
multiple of `step` that is `step` more or over. -/
def nextMultiple (step n : ℕ) : ℕ := (n + step + (step - 1)) / step * step

end Verif.Filters.Sweep
