import Verif.Advice.Catalogue
import Mathlib.Data.List.Sort

/-!
# Model of the fast design (src/advisers/MagneticAdviser.cpp:197-504)

What stays of the catalogue after the area product and the stored energy (222-260), what gapping, turns, inductance and saturation make of
the rest (346-380) and what winding and losses give for each core (405, 417) are inputs, and range over everything they could give.
Exceptions before the loop end the call and are not modelled. Filters only look at the wound design.
-/

namespace Verif.Advice.Fast

open Verif Verif.Scoring Verif.Advice

variable {C M K : Type} [Field K] [LinearOrder K]

/-- What `post_process_core` gives for one core: whether the coil has turns, and for each operating point the losses of core and windings,
when they are there. -/
structure Post (M K : Type) where
  design : M
  wound : Bool
  losses : List (Option (Num K) × Option (Num K))
  deriving DecidableEq

/-- What surrounds the fast design. -/
structure Env (C M K : Type) where
  /-- `CoreType::TOROIDAL` -/
  toroidal : C → Bool
  /-- `MaterialType::FERRITE` -/
  ferrite : C → Bool
  /-- gapping of the cores that are no toroids (346-348) -/
  gapped : List C → List C
  /-- turns, inductance, saturation and further windings (356-380) -/
  turned : List C → List C
  /-- `post_process_core` with the interleaving level; `none` when it throws -/
  post : C → ℕ → Option (Post M K)
  /-- repetitions of the coil of a core when it comes to be wound (415) -/
  repetitions : C → ℕ
  /-- `_filters[kind]->evaluate_magnetic` on the wound design -/
  evaluate : ℕ → M → Eval K

/-- Sum of two doubles. -/
def add : Num K → Num K → Num K
  | .nan, _ => .nan
  | _, .nan => .nan
  | .pinf, .ninf => .nan
  | .ninf, .pinf => .nan
  | .pinf, _ => .pinf
  | _, .pinf => .pinf
  | .ninf, _ => .ninf
  | _, .ninf => .ninf
  | .fin x, .fin y => .fin (x + y)

/-- What is there is added. -/
def addSome (t : Num K) : Option (Num K) → Num K
  | some x => add t x
  | none => t

/-- `totalLosses` (src/advisers/MagneticAdviser.cpp:474-482). -/
def total (losses : List (Option (Num K) × Option (Num K))) : Num K :=
  losses.foldl (fun t o => addSome (addSome t o.1) o.2) (.fin 0)

/-- The cap of candidates (src/advisers/MagneticAdviser.cpp:274-277). -/
def capped (results : ℕ) (cores : List C) : List C := cores.take (max (results * 20) 200)

/-- Ferrite toroids are left out for topologies that store energy (src/advisers/MagneticAdviser.cpp:300-324). -/
def storing (env : Env C M K) (energy : Bool) (cores : List C) : List C :=
  if energy then cores.filter (fun c => !(env.toroidal c && env.ferrite c)) else cores

/-- Gapping, which leaves the toroids behind the others (src/advisers/MagneticAdviser.cpp:334-353). -/
def arranged (env : Env C M K) (cores : List C) : List C :=
  (if (cores.filter (fun c => !env.toroidal c)).isEmpty then [] else env.gapped (cores.filter (fun c => !env.toroidal c))) ++
    cores.filter (fun c => env.toroidal c)

/-- The strictly required filters on a wound design (src/advisers/MagneticAdviser.cpp:442-471): whether one of them rejects it. One that throws
does not. -/
def rejected (env : Env C M K) (flow : List (Op K)) (m : M) : Bool :=
  flow.any (fun op => op.strict && match env.evaluate op.kind m with | .answer valid _ => !valid | .threw _ => false)

/-- A core wound: interleaved when there are several windings, and else, or when that does not fit, not
(src/advisers/MagneticAdviser.cpp:393-399 and 405-420). `none` when it throws. -/
def wind (env : Env C M K) (windings : ℕ) (c : C) : Option (Post M K) :=
  (env.post c (if 1 < windings then 2 else 1)).bind
    (fun p => if p.wound = false ∧ 1 < windings ∧ env.repetitions c ≠ 1 then env.post c 1 else some p)

/-- One core of the loop (src/advisers/MagneticAdviser.cpp:403-492). -/
def evaluated (env : Env C M K) (flow : List (Op K)) (windings : ℕ) (c : C) : Option (M × K) :=
  match wind env windings c with
  | none => none
  | some p =>
    if p.wound = false then none
    else if rejected env flow p.design then none
    else match total p.losses with
      | .fin x => if 0 < x then some (p.design, x) else none
      | _ => none

/-- Models `get_advised_magnetic_fast` (src/advisers/MagneticAdviser.cpp:201-504) from the cap of candidates on. The early return on no
candidates (320-322) is what the rest does with none. -/
def fast (env : Env C M K) (flow : List (Op K)) (energy : Bool) (windings results : ℕ) (cores : List C) : List (M × K) :=
  (((env.turned (arranged env (storing env energy (capped results cores)))).filterMap (evaluated env flow windings)).insertionSort
    (fun a b => a.2 ≤ b.2)).take results

end Verif.Advice.Fast
