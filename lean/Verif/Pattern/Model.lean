import Mathlib.Data.List.Basic

/-! # Model of the derivation of the winding pattern (src/support/Utils.cpp, `magnetic_autocomplete`) -/

namespace Verif.Pattern

/-- What the derivation reads of a section: is it a conduction section, and the names of its windings. -/
structure Section where
  conduction : Bool
  windings : List String
  deriving DecidableEq

/-- The search for a winding by name (src/support/Utils.cpp:2933-2939). `none` is `index == windings.size()`. -/
def windingIndex (name : String) : List String → Nat → Option Nat
  | [], _ => none
  | w :: ws, i => if w = name then some i else windingIndex name ws (i + 1)

/-- The loop over the sections (src/support/Utils.cpp:2924-2945). `none` is `derivable = false`. -/
def sequence (names : List String) : List Section → Option (List Nat)
  | [] => some []
  | s :: ss =>
    if s.conduction = false then sequence names ss
    else match s.windings with
      | [name] =>
        match windingIndex name names 0 with
        | some i => (sequence names ss).map (i :: ·)
        | none => none
      | _ => none

/-- The inner loop with its flag: does every element from `i` on equal the one at its index modulo `u`?
(src/support/Utils.cpp:2953-2956). `none`: index out of range. -/
def repeatsFrom (s : List Nat) (u : Nat) (i : Nat) : Option Bool :=
  if _h : i < s.length then
    match s[i]?, s[i % u]? with
    | some a, some b => if a = b then repeatsFrom s u (i + 1) else some false
    | _, _ => none
  else some true
  termination_by s.length - i

/-- The search for the unit length from `u` on (src/support/Utils.cpp:2948-2961). -/
def unitFrom (s : List Nat) (u : Nat) : Option Nat :=
  if _h : u ≤ s.length / 2 then
    if s.length % u ≠ 0 then unitFrom s (u + 1)
    else match repeatsFrom s u u with
      | none => none
      | some true => some u
      | some false => unitFrom s (u + 1)
  else some s.length
  termination_by s.length / 2 + 1 - u

/-- Outcome of the derivation: wind with a pattern and a number of repetitions, or wind by default. -/
inductive Out where
  | wind (pattern : List Nat) (repetitions : Nat)
  | default
  | ub
  deriving DecidableEq

/-- Models the derivation (src/support/Utils.cpp:2920-2967). `sections = none`: no sections description. -/
def derive (names : List String) (sections : Option (List Section)) : Out :=
  match sections with
  | none => .default
  | some ss =>
    match sequence names ss with
    | none => .default
    | some [] => .default
    | some s =>
      match unitFrom s 1 with
      | none => .ub
      | some u => .wind (s.take u) (s.length / u)

end Verif.Pattern
