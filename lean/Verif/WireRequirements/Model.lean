import Verif.SectionInterface.Model

/-! # Model of the insulation requirements for wires
(src/constructive_models/Insulation.cpp:1747-1923, src/processors/Inputs.cpp:3417-3449) -/

namespace Verif.WireRequirements

open Verif.SectionInterface (Cls Res)

variable {K : Type} [Zero K]

/-- The part of `Inputs` that is read or written. Isolation sides are numbered in their order
(`get_isolation_side_from_index`, src/support/Utils.cpp:2033-2039); the number of enumerators is not bounded in
the model. `insulation = some none` are insulation requirements without insulation type. -/
structure Inputs where
  windings : Nat
  sides : Option (List Nat)
  insulation : Option (Option Cls)
  deriving DecidableEq, Repr

/-- `WireSolidInsulationRequirements`. -/
structure Req (K : Type) where
  grade : Option Int
  layers : Option Int
  breakdown : K
  deriving DecidableEq, Repr

/-- The isolation sides after `get_isolation_sides_used` has filled or extended them
(src/processors/Inputs.cpp:3417-3439). -/
def fillSides (windings : Nat) : Option (List Nat) → List Nat
  | none => List.range (max windings 1)
  | some l => l ++ (List.range windings).drop l.length

/-- The sides without repetition, in order of first appearance (src/processors/Inputs.cpp:3440-3446). -/
def distinct : List Nat → List Nat → List Nat
  | [], acc => acc
  | s :: l, acc => distinct l (if s ∈ acc then acc else acc ++ [s])

/-- `get_requirements_for_functional` (src/constructive_models/Insulation.cpp:1784-1790). -/
def functionalReq : Req K := ⟨some 1, some 1, 0⟩

/-- `get_requirements_for_basic` (src/constructive_models/Insulation.cpp:1792-1800). -/
def basicReq (v : K) (fiw : Bool) : Req K := ⟨if fiw then some 3 else none, some 1, v⟩

/-- `get_requirements_for_reinforced` (src/constructive_models/Insulation.cpp:1802-1810). -/
def reinforcedReq (v : K) (fiw : Bool) : Req K := ⟨if fiw then some 3 else none, some 3, v⟩

/-- The test of one pair of neighbours (src/constructive_models/Insulation.cpp:1763-1778). -/
def pairNeedsMargin (a b : Req K) : Bool :=
  decide (a.layers.getD 0 + b.layers.getD 0 < 3) && decide (a.grade.getD 0 + b.grade.getD 0 < 4)

/-- Models `needs_margin` (src/constructive_models/Insulation.cpp:1747-1782) from position `index` on; `first` is
`pattern[0]`. `none`: a winding index out of range of the combination (undefined behaviour). -/
def needsMarginFrom (combo : List (Req K)) (first : Nat) (repetitions : Nat) : List Nat → Option Bool
  | [] => some false
  | [i] =>
    if repetitions = 0 then some false
    else
      match combo[i]?, combo[first]? with
      | some a, some b => some (pairNeedsMargin a b)
      | _, _ => none
  | i :: j :: l =>
    match combo[i]?, combo[j]? with
    | some a, some b => if pairNeedsMargin a b = true then some true
        else needsMarginFrom combo first repetitions (j :: l)
    | _, _ => none

/-- Models `InsulationCoordinator::needs_margin` (src/constructive_models/Insulation.cpp:1747-1782). -/
def needsMargin (combo : List (Req K)) (pattern : List Nat) (repetitions : Nat) : Option Bool :=
  match pattern with
  | [] => some false
  | p :: l => needsMarginFrom combo p repetitions (p :: l)

/-- Models `remove_combination_that_need_margin` (src/constructive_models/Insulation.cpp:1812-1821). -/
def removeNeedingMargin (pattern : List Nat) (repetitions : Nat) :
    List (List (Req K)) → Option (List (List (Req K)))
  | [] => some []
  | c :: l =>
    match needsMargin c pattern repetitions with
    | none => none
    | some b =>
      match removeNeedingMargin pattern repetitions l with
      | none => none
      | some r => some (if b then r else c :: r)

/-- One combination: the windings on one side are left functional, the others get the requirement `q`
(src/constructive_models/Insulation.cpp:1866-1876, 1900-1910). -/
def oneSideBare (perWinding : List Nat) (bare : Nat) (q : Req K) : List (Req K) :=
  perWinding.map (fun s => if s = bare then functionalReq else q)

/-- The combinations added for a type other than functional once the voltages are known
(src/constructive_models/Insulation.cpp:1861-1913). `v` is the withstand voltage of the type of the inputs,
`vb` the one used after the step for basic insulation. -/
def combosFor (cls : Cls) (perWinding used : List Nat) (v vb : K) (fiw : Bool) : List (List (Req K)) :=
  (if cls = .reinforced ∨ cls = .double then
    used.map (fun s => oneSideBare perWinding s (reinforcedReq v fiw)) else []) ++
  (if cls ≠ .reinforced then
    (if cls = .double ∨ used.length = 1 then [perWinding.map (fun _ => basicReq vb fiw)] else []) ++
    (if used.length > 1 then used.map (fun s => oneSideBare perWinding s (basicReq vb fiw)) else [])
   else [])

/-- Models `get_solid_insulation_requirements_for_wires` (src/constructive_models/Insulation.cpp:1823-1923).
`wv c` is what `calculate_withstand_voltage` answers when the inputs have insulation type `c` (`none`: throws;
without insulation requirements it answers 0). The second component is the state the inputs are left in. -/
def requirements (inp : Inputs) (wv : Cls → Option K) (fiw allowMargin : Bool) (pattern : List Nat)
    (repetitions : Nat) : Res (List (List (Req K))) × Inputs :=
  let perWinding := fillSides inp.windings inp.sides
  let used := distinct perWinding []
  let inp1 : Inputs := { inp with sides := some perWinding }
  let bare : List (Req K) := List.replicate inp.windings functionalReq
  match inp.insulation with
  | none => (.ok [bare], inp1)
  | some none => (.throw, inp1)
  | some (some ty) =>
    match wv ty with
    | none => (.throw, inp1)
    | some v =>
      let cls : Cls := if (ty = .basic ∨ ty = .supplementary) ∧ allowMargin = false then .double else ty
      let start : List (List (Req K)) := if allowMargin then [bare] else []
      let inp2 : Inputs := { inp1 with insulation := some (some .double) }
      let finish (all : List (List (Req K))) (st : Inputs) : Res (List (List (Req K))) × Inputs :=
        if allowMargin then (.ok all, st)
        else
          match removeNeedingMargin pattern repetitions all with
          | none => (.ub, st)
          | some r => (.ok r, st)
      if cls = .functional then finish start inp1
      else if cls = .double then
        match wv .basic with
        | none => (.throw, { inp1 with insulation := some (some .basic) })
        | some vb => finish (start ++ combosFor cls perWinding used v vb fiw) inp2
      else finish (start ++ combosFor cls perWinding used v v fiw) inp1

end Verif.WireRequirements
