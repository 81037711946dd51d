import Verif.Common.SMap
import Mathlib.Algebra.Order.Field.Basic

/-! # Model of the score normalisations (src/support/Utils.cpp, src/advisers/CrossReferencerCommon.h)

Numbers are an ordered field `K`; `log10` is a parameter `lg` (the real logarithm in the theorems about the
logarithmic mode). NaN and the infinities are explicit. -/

namespace Verif.Scoring

variable {K : Type} [Field K] [LinearOrder K]

/-- A `double`: finite, NaN or infinite. -/
inductive Num (K : Type) where
  | fin (x : K)
  | nan
  | pinf
  | ninf
  deriving DecidableEq, Repr

/-- `a < b` on doubles. -/
def Num.ltB : Num K → Num K → Bool
  | .fin x, .fin y => decide (x < y)
  | .fin _, .pinf => true
  | .ninf, .fin _ => true
  | .ninf, .pinf => true
  | _, _ => false

/-- Models `std::max_element` on a non-empty range (first of the largest), as a value. -/
def maxElement : Num K → List (Num K) → Num K
  | best, [] => best
  | best, x :: l => maxElement (if Num.ltB best x then x else best) l

/-- Models `std::min_element` on a non-empty range (first of the smallest), as a value. -/
def minElement : Num K → List (Num K) → Num K
  | best, [] => best
  | best, x :: l => minElement (if Num.ltB x best then x else best) l

/-- `std::log10` of a positive number; anything computed from the logarithm of a number that is not positive
(`-inf` or NaN in the code) is the outcome `none`, "not a finite number". -/
def log10 (lg : K → K) (x : K) : Option K := if 0 < x then some (lg x) else none

/-- `1e-10`, the clamp of src/support/Utils.cpp:3010-3012, 3028-3030, 3077-3079, 3087-3089, and
`Defaults::crossReferencerScoringAbsoluteFloor`. -/
def floor10 : K := 1 / 10 ^ 10

/-! ## `normalize_scoring` of Utils.cpp -/

/-- The score of one value (src/support/Utils.cpp:3031-3053 and 3090-3112) once minimum and maximum are
known. `none`: not a finite number. -/
def score (lg : K → K) (weight : K) (invert log : Bool) (mn mx value : K) : Option K :=
  if mx ≠ mn then
    if log then
      match log10 lg value, log10 lg mn, log10 lg mx with
      | some lv, some ln, some lx =>
        if invert then some (weight * (1 - (lv - ln) / (lx - ln)))
        else some (weight * (lv - ln) / (lx - ln))
      | _, _, _ => none
    else if invert then some (weight * (1 - (value - mn) / (mx - mn)))
    else some (weight * (value - mn) / (mx - mn))
  else some weight

/-- The clamp of an exact zero in logarithmic mode (src/support/Utils.cpp:3010-3012, 3028-3030). -/
def clampZero (log : Bool) (x : K) : K := if log = true ∧ x = 0 then floor10 else x

/-- Models `normalize_scoring` on vectors (src/support/Utils.cpp:3067-3116). The outer `none` is the
exception on a NaN value; infinite raw values are not modelled (also `none` per entry). The code throws when
the loop reaches the NaN; nothing is written before that, so the position does not matter. -/
def normalizeList (lg : K → K) (weight : K) (invert log : Bool) (scoring : List (Num K)) :
    Option (List (Option K)) :=
  match scoring with
  | [] => some []
  | x :: l =>
    let mx := maxElement x l
    let mn := minElement x l
    if (x :: l).any (fun v => decide (v = .nan)) then none
    else some ((x :: l).map (fun v =>
      match mn, mx, v with
      | .fin a, .fin b, .fin y => score lg weight invert log (clampZero log a) b (clampZero log y)
      | _, _, _ => none))

/-- Models `normalize_scoring` on maps (src/support/Utils.cpp:2994-3057): the same with the difference of the
(logarithms of the) ends computed once. -/
def normalizeMap {N : Type} (lg : K → K) (weight : K) (invert log : Bool) (scoring : SMap N (Num K)) :
    Option (SMap N (Option K)) :=
  match scoring with
  | [] => some []
  | x :: l =>
    let mx := maxElement x.2 (l.map Prod.snd)
    let mn := minElement x.2 (l.map Prod.snd)
    if (x :: l).any (fun v => decide (v.2 = .nan)) then none
    else some ((x :: l).map (fun v => (v.1,
      match mn, mx, v.2 with
      | .fin a, .fin b, .fin y => score lg weight invert log (clampZero log a) b (clampZero log y)
      | _, _, _ => none)))

/-- Models the loop `(*mases)[i].second += normalized[i]` (src/support/Utils.cpp:3122-3124, 3130-3132, and
src/advisers/CoreAdviser.cpp:113-116). `none`: reading past the end of the scores. -/
def addScores {I : Type} : List (I × K) → List K → Option (List (I × K))
  | [], _ => some []
  | _ :: _, [] => none
  | (i, t) :: ms, s :: ss => (addScores ms ss).map ((i, t + s) :: ·)

/-! ## Cross-referencers -/

/-- `Defaults::crossReferencerScoringDataRelativeFloorRatio` (1e-6). -/
def floorRatio : K := 1 / 10 ^ 6

/-- `Defaults::crossReferencerNeutralScoreWhenEqual` (0.5). -/
def neutral : K := 1 / 2

/-- Models the `std::stable_sort` by descending total (src/advisers/CrossReferencerCommon.h:65-66,
110-113). -/
def sortDesc {I : Type} (l : List (I × K)) : List (I × K) := l.mergeSort (fun a b => decide (b.2 ≤ a.2))

/-- The contribution added to one candidate (src/advisers/CrossReferencerCommon.h:80-109). -/
def contribution (lg : K → K) (weight : K) (invert log : Bool) (mn mx raw : K) : Option K :=
  let dataFloor := max floor10 (mx * floorRatio)
  let s := max dataFloor raw
  let mn := max dataFloor mn
  if mx ≠ mn then
    if log then
      match log10 lg s, log10 lg mn, log10 lg mx with
      | some ls, some ln, some lx =>
        if invert then some (weight * (1 - (ls - ln) / (lx - ln)))
        else some (weight * (ls - ln) / (lx - ln))
      | _, _, _ => none
    else if invert then some (weight * (1 - (s - mn) / (mx - mn)))
    else some (weight * (s - mn) / (mx - mn))
  else some (weight * neutral)

/-- The replacement of NaN and infinite scores by the maximum (src/advisers/CrossReferencerCommon.h:73-77). -/
def project (mx : K) : Num K → K
  | .fin x => x
  | _ => mx

/-- Outcome of the cross-referencer normalisation. -/
inductive Out (I K : Type) where
  | ok (l : List (I × K))
  /-- some total is not a finite number -/
  | notFinite
  /-- undefined behaviour: empty score vector, or shorter than the candidate list -/
  | ub

/-- Add the contributions to the totals, or fail. -/
def addContributions {I : Type} (f : Num K → Option K) : List (I × K) → List (Num K) → Out I K
  | [], _ => .ok []
  | _ :: _, [] => .ub
  | (i, t) :: ms, s :: ss =>
    match addContributions f ms ss with
    | .ok l => match f s with
      | some c => .ok ((i, t + c) :: l)
      | none => .notFinite
    | r => r

/-- The minimum when it is a finite number, otherwise the floor: `std::max(floor, NaN)` and
`std::max(floor, -inf)` are both `floor` (src/advisers/CrossReferencerCommon.h:87). -/
def minOr (floor : K) : Num K → K
  | .fin a => a
  | _ => floor

/-- Models `normalize_scoring<Item>` (src/advisers/CrossReferencerCommon.h:52-114). The minimum over a
vector with a NaN at the front is NaN and `std::max(floor, NaN)` is the floor; `-inf` likewise. -/
def crossNormalize {I : Type} (lg : K → K) (weight : K) (invert log : Bool) (ranked : List (I × K))
    (newScoring : List (Num K)) : Out I K :=
  match newScoring with
  | [] => .ub
  | x :: l =>
    match maxElement x l with
    | .fin mx =>
      let mn := minOr (max floor10 (mx * floorRatio)) (minElement x l)
      match addContributions (fun v => contribution lg weight invert log mn mx (project mx v)) ranked
          (x :: l) with
      | .ok r => .ok (sortDesc r)
      | r => r
    | _ => .ok (sortDesc (ranked.map (fun p => (p.1, p.2 + weight))))

/-- The reported score of one raw value of one filter
(src/advisers/CrossReferencerCommon.h:162-195). `none`: not a finite number. -/
def reported (lg : K → K) (weight : Option K) (invert log : Bool) (mn mx raw : K) : Option K :=
  let mn := max floor10 (max mn (mx * floorRatio))
  let apply (n : K) : K :=
    let n := if invert then 1 - n else n
    match weight with
    | some w => w * n
    | none => n
  if mn = mx then
    some (match weight with
      | some w => w * neutral
      | none => neutral)
  else if log then
    match log10 lg raw, log10 lg mn, log10 lg mx with
    | some lr, some ln, some lx => some (apply ((lr - ln) / (lx - ln)))
    | _, _, _ => none
  else some (apply ((raw - mn) / (mx - mn)))

/-- Models the body of `compute_normalized_scorings` for one filter
(src/advisers/CrossReferencerCommon.h:146-203): one reported score per recorded name. `weight = none` is the
unweighted report. NaN raw values cannot be recorded (`add_scoring` throws, 234-238); infinite ones are not
modelled. -/
def reportFilter {N : Type} (lg : K → K) (weight : Option K) (invert log : Bool) (aux : SMap N K) :
    SMap N (Option K) :=
  match aux with
  | [] => []
  | x :: l =>
    let vals := (x :: l).map (fun p => Num.fin p.2)
    match maxElement (Num.fin x.2) (vals.drop 1), minElement (Num.fin x.2) (vals.drop 1) with
    | .fin mx, .fin mn => (x :: l).map (fun p => (p.1, reported lg weight invert log mn mx p.2))
    | _, _ => (x :: l).map (fun p => (p.1, none))

end Verif.Scoring
