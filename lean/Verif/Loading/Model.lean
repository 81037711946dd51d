import Mathlib.Algebra.Order.Field.Rat
import Verif.Excitation.Process

/-! # Model of loading a file of a magnetic with its outputs
(src/constructive_models/Mas.cpp:10-54)

What is modelled is which magnetizing inductance each operating point is processed with. Parsing, the migration and the building of
the coil and of the magnetic come before and are not modelled here. -/

namespace Verif.Loading

open Verif.Excitation
open Verif.Waveforms (Res)

variable {K : Type}

/-- The inductances of the outputs (src/constructive_models/Mas.cpp:31-37): an output that has none adds nothing. An output is what its
magnetizing inductance resolves to, if it has inductances. -/
def perPoint (outs : List (Option K)) : List K := outs.filterMap id

/-- What `Inputs` is asked to process with (src/constructive_models/Mas.cpp:39-49). `computed`: what the model of the magnetizing
inductance answers for the core and the coil. -/
def askedFor (outs : List (Option K)) (computed : Res K) : Res (Asked K) :=
  match perPoint outs with
  | [] => computed.bind fun L => .ok (.one L)
  | L :: Ls => .ok (.each (L :: Ls))

/-- The inductance that an operating point is processed with when a file is loaded (src/constructive_models/Mas.cpp:31-49,
src/processors/Inputs.cpp:2314-2334). -/
def loaded (outs : List (Option K)) (computed required : Res K) (index : Nat) : Res K :=
  (askedFor outs computed).bind fun a => inductanceFor a required index

end Verif.Loading
