import Mathlib.Algebra.Order.Field.Basic

/-!
# The filters by losses that look for the best number of turns

Sources: src/advisers/MagneticFilterLosses.cpp 42-255 (core and direct current losses) and 277-492 (and skin effect), and
src/advisers/MagneticFilterInternal.h 304-371, all in /repo.  Numbers are exact.
-/

namespace Verif.LossSweep

variable {K : Type} [Field K] [LinearOrder K] [IsStrictOrderedRing K]

/-- What `compute_core_losses_with_negative_guard` answers (src/advisers/MagneticFilterInternal.h 304-338). Simplified: losses that are not finite are
left out. -/
inductive Pick (K : Type)
  | unscored
  | value (c : K)

/-- An operating point, with what the models answer for each number of turns of the first winding: peak of its current, or zero if it is not for an inductor
(src/advisers/MagneticFilterLosses.cpp 95-97), saturation current (`none`: exception), inductance, whether winding leaves turns, losses of the core and of
the winding (`none`: not finite). Simplified: exceptions of the other models are left out. -/
structure Point (K : Type) where
  peak : K
  saturation : ℕ → Option K
  inductance : ℕ → K
  laidOut : ℕ → Bool
  core : ℕ → Pick K
  winding : ℕ → Option K

/-- What does not depend on the operating point: step of the search, whether the shape has integrated windings, saturation margin, check of the inductance,
inductance that is asked for, and largest mean power. -/
structure Setup (K : Type) where
  step : ℕ
  integrated : Bool
  margin : K
  passes : K → Bool
  required : K
  power : K

/-- Turns that come after (src/constructive_models/NumberTurns.cpp 22-33, without other windings). -/
def advance (step n : ℕ) : ℕ := (n + step + (step - 1)) / step * step

/-- The step of the filter with skin effect (src/advisers/MagneticFilterLosses.cpp 303); that of the other one is 1. -/
def skinStep (start : ℕ) : ℕ := max 1 ((start + 9) / 10)

/-- What is kept from one operating point to the next (src/advisers/MagneticFilterLosses.cpp 61-77): turns to be tried next, those of the coil, the last ones
that met the inductance, total losses and core losses of the last ones (`none`: infinite), iterations left, and turns of the magnetic. -/
structure State (K : Type) where
  next : ℕ
  coil : ℕ
  previous : ℕ
  new : Option K
  core : Option K
  iteration : ℕ
  magnetic : ℕ

/-- What comes of trying a number of turns. -/
inductive Tried (K : Type)
  | stop (s : State K)
  | reject
  | throws
  | evaluated (s : State K) (total : K)

/-- The saturation current is too small (src/advisers/MagneticFilterLosses.cpp 122-134). -/
def capped (S : Setup K) (p : Point K) (n : ℕ) : Bool :=
  decide (0 < p.peak) && match p.saturation n with
    | none => false
    | some i => decide (0 < i ∧ i < S.margin * p.peak)

/-- The inductance does not meet the requirement and is over it (src/advisers/MagneticFilterLosses.cpp 144-145). -/
def tooHigh (S : Setup K) (p : Point K) (n : ℕ) : Bool := !S.passes (p.inductance n) && decide (S.required < p.inductance n)

/-- The state with the next turns in the coil (src/advisers/MagneticFilterLosses.cpp 113-116 and 152-154). -/
def moved (S : Setup K) (p : Point K) (s : State K) : State K :=
  { s with
    next := advance S.step s.next
    coil := s.next
    previous := if S.passes (p.inductance s.next) then s.next else s.previous }

/-- The state once the sweep goes back (src/advisers/MagneticFilterLosses.cpp 135-138 and 146-149). -/
def reverted (S : Setup K) (s : State K) : State K := { s with next := advance S.step s.next, coil := s.previous }

/-- The losses with the turns in the coil (src/advisers/MagneticFilterLosses.cpp 156-212). -/
def evaluate (S : Setup K) (p : Point K) (s : State K) : Tried K :=
  if S.integrated = false ∧ p.laidOut s.coil = false then .reject
  else match p.core s.coil with
    | .unscored => .reject
    | .value c =>
      if c < 0 then .throws
      else if p.laidOut s.coil = false then .reject
      else if S.integrated then .stop { s with core := some c, new := some c }
      else match p.winding s.coil with
        | none => .throws
        | some w => if w < 0 then .throws else .evaluated { s with core := some c, new := some (c + w) } (c + w)

/-- One turn of the loop (src/advisers/MagneticFilterLosses.cpp 112-212). -/
def body (S : Setup K) (p : Point K) (s : State K) : Tried K :=
  if capped S p s.next then .stop (reverted S s)
  else if tooHigh S p s.next then .stop (reverted S s)
  else evaluate S p (moved S p s)

/-- The best so far (src/advisers/MagneticFilterLosses.cpp 215-220). -/
def improve (b : Option (K × ℕ)) (total : K) (n : ℕ) : Option (K × ℕ) :=
  match b with
  | none => some (total, n)
  | some (v, t) => if total < v then some (total, n) else some (v, t)

/-- The condition of the loop (src/advisers/MagneticFilterLosses.cpp 228; the threshold in src/Defaults.h 26). -/
def continues (current : Option K) (total : K) : Bool :=
  match current with
  | none => true
  | some c => decide (total < c * (9 / 10))

/-- What comes of the loop. -/
inductive Swept (K : Type)
  | done (s : State K) (b : Option (K × ℕ))
  | reject
  | throws

/-- The loop (src/advisers/MagneticFilterLosses.cpp 111-228), with the iterations that are left as they are before being decreased; none left does not
happen (see `budget`). -/
def loop (S : Setup K) (p : Point K) : ℕ → State K → Option (K × ℕ) → Swept K
  | 0, s, b => .done s b
  | k + 1, s, b =>
    match body S p s with
    | .stop s' => .done s' b
    | .reject => .reject
    | .throws => .throws
    | .evaluated s' total =>
      if k = 0 ∨ continues s.new total = false then .done { s' with iteration := k } (improve b total s'.coil)
      else loop S p k { s' with iteration := k } (improve b total s'.coil)

/-- The iterations that are left: a `size_t` that is zero wraps around when decreased (src/advisers/MagneticFilterLosses.cpp 75 and 222-226). -/
def budget (i : ℕ) : ℕ := if i = 0 then 2 ^ 64 else i

/-- After the loop (src/advisers/MagneticFilterLosses.cpp 231-250): the state, and the losses of the operating point if there are any. -/
def settle (s : State K) (b : Option (K × ℕ)) : State K × List (Option K) :=
  match b with
  | some (v, t) => ({ s with coil := t, magnetic := t }, [some v])
  | none =>
    match s.core with
    | none => (s, [])
    | some c => if 0 < c then ({ s with magnetic := s.coil }, [s.new]) else (s, [])

/-- What the filter answers: rejected (`{false, 0.0}`), exception, or a score, which is not a number without operating points. -/
inductive Verdict (K : Type)
  | rejected
  | throws
  | nan
  | score (valid : Bool) (mean : K)
  deriving DecidableEq

/-- What is answered and the turns that the magnetic is left with. -/
structure Answer (K : Type) where
  turns : ℕ
  verdict : Verdict K
  deriving DecidableEq

/-- The sum, if all are finite (src/advisers/MagneticFilterInternal.h 353-359). -/
def sum : List (Option K) → Option K
  | [] => some 0
  | none :: _ => none
  | some v :: vs => (sum vs).map (v + ·)

/-- `finalize_losses_scoring` (src/advisers/MagneticFilterInternal.h 343-371; the factors in src/Defaults.h 26 and 28). -/
def finalize (S : Setup K) (n : ℕ) (losses : List (Option K)) : Verdict K :=
  if losses.length < n then .rejected
  else match sum losses with
    | none => .throws
    | some v => if n = 0 then .nan else .score (decide (v / n < S.power * (5 / 100) / (9 / 10))) (v / n)

/-- The loop over the operating points (src/advisers/MagneticFilterLosses.cpp 89-254). -/
def points (S : Setup K) (n : ℕ) : List (Point K) → State K → List (Option K) → Answer K
  | [], s, losses => ⟨s.magnetic, finalize S n losses⟩
  | p :: ps, s, losses =>
    match loop S p (budget s.iteration) s none with
    | .reject => ⟨s.magnetic, .rejected⟩
    | .throws => ⟨s.magnetic, .throws⟩
    | .done s' b => points S n ps (settle s' b).1 (losses ++ (settle s' b).2)

/-- The state at the beginning (src/advisers/MagneticFilterLosses.cpp 61-77; the iterations in src/Defaults.h 108). -/
def initial (start : ℕ) : State K := ⟨start, start, start, none, none, 10, start⟩

/-- `evaluate_magnetic` of both filters (src/advisers/MagneticFilterLosses.cpp 42-255 and 277-492), for a magnetic with as many windings as excitations and
`start` turns in its first winding. -/
def filter (S : Setup K) (ps : List (Point K)) (start : ℕ) : Answer K := points S ps.length ps (initial start) []

/-- The turns of the windings after the filter: only those of the first one are set (src/advisers/MagneticFilterLosses.cpp 114 and 233). -/
def windings (S : Setup K) (ps : List (Point K)) (turns : List ℕ) : List ℕ :=
  match turns with
  | [] => []
  | n :: rest => (filter S ps n).turns :: rest

end Verif.LossSweep
