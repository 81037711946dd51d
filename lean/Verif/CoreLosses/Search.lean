import Mathlib.Algebra.Order.Field.Basic
import Verif.CoreLosses.Select

/-!
# Core losses: searches for the frequency or the flux density of some losses (src/physical_models/CoreLosses.cpp)
-/

namespace Verif.CoreLosses

variable {K : Type} [Field K] [LinearOrder K]

/-- The frequencies tried (CoreLosses.cpp 2842). -/
def frequencies : List ℕ := (List.range 398).map fun i => 10000 + 5000 * i

/-- The amplitudes tried, in millitesla (CoreLosses.cpp 2873). -/
def millitesla : List ℕ := (List.range 199).map fun i => 5 + 5 * i

/-- The relative error (CoreLosses.cpp 2847, 2881): infinite, or not a number, when the losses sought are null. -/
def errorOf (target x : K) : Option K := if target = 0 then none else some (|x - target| / target)

/-- The search among frequencies (CoreLosses.cpp 2842-2853), from the least error and where it was, if there is one; the losses at
each frequency are numbers. -/
def searchAll (losses : ℕ → K) (target : K) : List ℕ → Option (K × ℕ) → Option (K × ℕ)
  | [], best => best
  | i :: l, best =>
    searchAll losses target l <| match errorOf target (losses i), best with
      | none, _ => best
      | some e, none => some (e, i)
      | some e, some b => if e < b.1 then some (e, i) else best

/-- `_get_frequency_from_core_losses` (CoreLosses.cpp 2832-2854); minus one is what is given when nothing is found. -/
def searchFrequency (losses : ℕ → K) (target : K) : ℤ :=
  match searchAll losses target frequencies none with
  | some b => b.2
  | none => -1

/-- The search among amplitudes (CoreLosses.cpp 2873-2893), which ends as soon as the error is over the previous one; an infinite one
is. -/
def searchUntil (losses : ℕ → K) (target : K) : List ℕ → Option K → Option (K × ℕ) → Option (K × ℕ)
  | [], _, best => best
  | i :: l, previous, best =>
    match errorOf target (losses i) with
    | none => best
    | some e =>
      let best' := match best with
        | none => some (e, i)
        | some b => if e < b.1 then some (e, i) else best
      match previous with
      | none => searchUntil losses target l (some e) best'
      | some p => if p < e then best' else searchUntil losses target l (some e) best'

/-- `_get_magnetic_flux_density_from_core_losses` (CoreLosses.cpp 2856-2894): the peak, in millitesla, of what is given; an empty
descriptor when nothing is found. -/
def searchFlux (losses : ℕ → K) (target : K) : Option ℕ := (searchUntil losses target millitesla none none).map Prod.snd

end Verif.CoreLosses
