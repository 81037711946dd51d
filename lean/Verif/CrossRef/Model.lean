import Verif.Scoring.Model
import Mathlib.Algebra.Order.AbsoluteValue.Basic
import Mathlib.Algebra.Order.Group.Unbundled.Abs

/-! # Core cross-referencer

Models src/advisers/CoreCrossReferencer.cpp. Numbers are elements of an ordered field. What the reluctance, core
losses and saturation models compute for a core (with the inputs of the call) are fields of the core record. Not
modelled: the exceptions on cores without window area or processed description, the reported values
(`_scoredValues`), the log, and changes of the public `_filterConfiguration` (every filter is inverted and linear as
by default, src/advisers/CoreCrossReferencer.h:25-32). -/

namespace Verif.CrossRef

open Verif.Scoring (Num)

variable {K : Type}

/-- What the cross-referencer reads of a core. `losses`: average core losses and peak flux density over the operating
points, `none` when they cannot be computed (the NaN pair of src/advisers/CoreCrossReferencer.cpp:410-422). `bsat` is
`get_magnetic_flux_density_saturation` at the maximum temperature; it is assumed not to be zero (a zero makes the
saturation score NaN and `add_scoring` throw). -/
structure Core (K : Type) where
  name : String
  shape : String
  material : String
  manufacturer : String
  permeance : K
  windowArea : K
  effectiveArea : K
  depth : K
  height : K
  width : K
  losses : Option (K × K)
  bsat : K
  deriving DecidableEq

/-- Models `CoreCrossReferencerFilters`. -/
inductive Filter where
  | permeance
  | windowArea
  | envelopingVolume
  | effectiveArea
  | coreLosses
  | saturation
  deriving DecidableEq, Repr

/-- The members `_scorings` and `_validScorings` (src/advisers/CoreCrossReferencer.h:33-34). An entry is only ever
made by `add_scoring`, which sets the score and marks it valid (src/advisers/CrossReferencerCommon.h:229-238), so one
optional score per filter and core name stands for both. The scores are absolute values, so the special case of -1
does not arise. -/
abbrev Memo (K : Type) := Filter → String → Option K

/-- The state of a new object. -/
def Memo.empty : Memo K := fun _ _ => none

/-- `add_scoring` (src/advisers/CrossReferencerCommon.h:229-238). -/
def Memo.set (m : Memo K) (f : Filter) (name : String) (s : K) : Memo K :=
  fun g x => if g = f ∧ x = name then some s else m g x

variable [Field K] [LinearOrder K]

/-- `reference != 0 && fabs(reference - x) / reference < limit`
(src/advisers/CoreCrossReferencer.cpp:109, 173, 237). Also used where the code has no explicit guard (line 494): there
a zero reference gives infinity or NaN, which is not below the limit either. -/
def within (ref x limit : K) : Bool := decide (ref ≠ 0 ∧ |ref - x| / ref < limit)

/-- `1 + (peak - bsat) / bsat` (src/advisers/CoreCrossReferencer.cpp:447, 486). -/
def saturationRatio (peak bsat : K) : K := 1 + (peak - bsat) / bsat

/-- The verdict of one filter on one core at a limit: the score when accepted
(src/advisers/CoreCrossReferencer.cpp:109-118, 173-182, 237-246, 304-314, 493-530). -/
def judge (ref : Core K) (limit : K) : Filter → Core K → Option K
  | .permeance, c =>
    if within ref.permeance c.permeance limit then some |ref.permeance - c.permeance| else none
  | .windowArea, c =>
    if within ref.windowArea c.windowArea limit then some |ref.windowArea - c.windowArea| else none
  | .effectiveArea, c =>
    if within ref.effectiveArea c.effectiveArea limit then some |ref.effectiveArea - c.effectiveArea| else none
  | .envelopingVolume, c =>
    if within ref.depth c.depth limit && within ref.height c.height limit && within ref.width c.width limit then
      some (|ref.depth - c.depth| / ref.depth + |ref.height - c.height| / ref.height +
        |ref.width - c.width| / ref.width)
    else none
  | .coreLosses, c =>
    match ref.losses, c.losses with
    | some (r, _), some (l, peak) =>
      if peak < c.bsat ∧ (within r l limit = true ∨ 1 ≤ limit) then some |r - l| else none
    | _, _ => none
  | .saturation, c =>
    match ref.losses, c.losses with
    | some (_, rp), some (_, peak) => some |saturationRatio rp ref.bsat - saturationRatio peak c.bsat|
    | _, _ => none

/-- The loop of a filter over the candidates: a remembered score is used as it is, otherwise the core is judged and
an accepted score remembered (src/advisers/CoreCrossReferencer.cpp:82-132, 153-196, 217-260, 286-328). Returns the memory, the
candidates kept and their scores. -/
def cullLoop (f : Filter) (jd : Core K → Option K) : Memo K → List (Core K × K) →
    Memo K × List (Core K × K) × List (Num K)
  | m, [] => (m, [], [])
  | m, (c, t) :: l =>
    match m f c.name with
    | some s =>
      let r := cullLoop f jd m l
      (r.1, (c, t) :: r.2.1, .fin s :: r.2.2)
    | none =>
      match jd c with
      | some s =>
        let r := cullLoop f jd (m.set f c.name s) l
        (r.1, (c, t) :: r.2.1, .fin s :: r.2.2)
      | none => cullLoop f jd m l

/-- The end of a filter: normalise and sort when something is left
(src/advisers/CoreCrossReferencer.cpp:134-136). `none`: the normalisation does not give numbers. -/
def rescore (weight : K) (kept : List (Core K × K)) (scores : List (Num K)) : Option (List (Core K × K)) :=
  match kept with
  | [] => some []
  | _ :: _ =>
    match Scoring.crossNormalize id weight true false kept scores with
    | .ok r => some r
    | _ => none

/-- Models the `filter_core` of the four geometric filters (src/advisers/CoreCrossReferencer.cpp:57-334). `skip`: the
guard of the enveloping volume filter. -/
def geometricFilter (ref : Core K) (limit weight : K) (f : Filter) (skip : Bool) (m : Memo K) (ranked : List (Core K × K)) :
    Option (Memo K × List (Core K × K)) :=
  if weight ≤ 0 ∨ skip = true then some (m, ranked)
  else
    let r := cullLoop f (judge ref limit f) m ranked
    (rescore weight r.2.1 r.2.2).map (fun out => (r.1, out))

/-- The loop of the losses filter (src/advisers/CoreCrossReferencer.cpp:461-531): like `cullLoop`, with a second score
for saturation. -/
def lossLoop (jd sat : Core K → Option K) : Memo K → List (Core K × K) →
    Memo K × List (Core K × K) × List (Num K) × List (Num K)
  | m, [] => (m, [], [], [])
  | m, (c, t) :: l =>
    match m .coreLosses c.name with
    | some s =>
      let r := lossLoop jd sat m l
      let ss : Num K := match m .saturation c.name with
        | some x => .fin x
        | none => .nan
      (r.1, (c, t) :: r.2.1, .fin s :: r.2.2.1, ss :: r.2.2.2)
    | none =>
      match jd c, sat c with
      | some s, some x =>
        let r := lossLoop jd sat ((m.set .coreLosses c.name s).set .saturation c.name x) l
        (r.1, (c, t) :: r.2.1, .fin s :: r.2.2.1, .fin x :: r.2.2.2)
      | _, _ => lossLoop jd sat m l

/-- Models `MagneticCoreFilterCoreLosses::filter_core`. The first normalisation sorts the candidates; the second one
adds the saturation scores, still in the order before that sort, position by position (src/advisers/CoreCrossReferencer.cpp:425-556). -/
def lossFilter (ref : Core K) (limit weight satWeight : K) (m : Memo K) (ranked : List (Core K × K)) :
    Option (Memo K × List (Core K × K)) :=
  if weight ≤ 0 ∨ ref.losses = none then some (m, ranked)
  else
    let r := lossLoop (judge ref limit .coreLosses) (judge ref limit .saturation) m ranked
    match rescore weight r.2.1 r.2.2.1 with
    | none => none
    | some out => (rescore satWeight out r.2.2.2).map (fun out => (r.1, out))

/-- `if (size > 1.1 * n) resize(static_cast<size_t>(1.1 * n))` (src/advisers/CoreCrossReferencer.cpp:655-657), with
1.1 taken as exact. -/
def prune (n : Nat) (l : List (Core K × K)) : List (Core K × K) :=
  if 11 * n < 10 * l.length then l.take (11 * n / 10) else l

/-- `if (size > n) resize(n)` (src/advisers/CoreCrossReferencer.cpp:665-667). -/
def cut (n : Nat) (l : List (Core K × K)) : List (Core K × K) := if n < l.length then l.take n else l

/-- Models `apply_filters` (src/advisers/CoreCrossReferencer.cpp:621-670). -/
def applyFilters (ref : Core K) (w : Filter → K) (n : Nat) (cores : List (Core K × K)) (limit : K) (m : Memo K) :
    Option (Memo K × List (Core K × K)) :=
  match geometricFilter ref limit (w .permeance) .permeance false m cores with
  | none => none
  | some (m, l) =>
    match geometricFilter ref limit (w .windowArea) .windowArea false m l with
    | none => none
    | some (m, l) =>
      match geometricFilter ref limit (w .envelopingVolume) .envelopingVolume
          (decide (ref.depth ≤ 0 ∨ ref.height ≤ 0 ∨ ref.width ≤ 0)) m l with
      | none => none
      | some (m, l) =>
        match geometricFilter ref limit (w .effectiveArea) .effectiveArea false m l with
        | none => none
        | some (m, l) =>
          match lossFilter ref limit (w .coreLosses) (w .saturation) m (prune n l) with
          | none => none
          | some (m, l) => some (m, cut n l)

/-- Options of the object and of the call that select candidates. -/
structure Options (K : Type) where
  onlyManufacturer : Option String
  onlyReferenceMaterial : Bool
  /-- `core.fits(maximumDimensions, false)`; constantly true without maximum dimensions -/
  fits : Core K → Bool
  /-- `_limit` -/
  limit : K

/-- The candidates (src/advisers/CoreCrossReferencer.cpp:584-598). -/
def candidates (o : Options K) (ref : Core K) (catalogue : List (Core K)) : List (Core K × K) :=
  (catalogue.filter (fun c =>
    (decide (ref.shape ≠ c.shape) || decide (ref.material ≠ c.material)) &&
    (match o.onlyManufacturer with
      | none => true
      | some x => c.manufacturer == x) &&
    (!o.onlyReferenceMaterial || decide (ref.material = c.material)) && o.fits c)).map (fun c => (c, 0))

/-- The next limit (src/advisers/CoreCrossReferencer.cpp:610-614). -/
def nextLimit (limit : K) : K := if limit < 1 / 100 then 1 / 4 else limit * 2

/-- The widening loop (src/advisers/CoreCrossReferencer.cpp:605-616) with `fuel` evaluations of its condition left;
`none`: out of fuel, or the normalisation does not give numbers. -/
def searchLoop (maxLimit : K) (n : Nat) (apply : K → Memo K → Option (Memo K × List (Core K × K))) :
    Nat → K → Memo K → List (Core K × K) → Option (K × Memo K × List (Core K × K))
  | 0, _, _, _ => none
  | fuel + 1, limit, m, out =>
    if limit ≤ maxLimit ∧ out.length < n then
      match apply (nextLimit limit) m with
      | none => none
      | some (m', out') => searchLoop maxLimit n apply fuel (nextLimit limit) m' out'
    else some (limit, m, out)

/-- Models `get_cross_referenced_core` (src/advisers/CoreCrossReferencer.cpp:562-619): last limit used, memory left
behind, result. -/
def crossReference (o : Options K) (ref : Core K) (w : Filter → K) (n : Nat) (catalogue : List (Core K)) (fuel : Nat)
    (m : Memo K) : Option (K × Memo K × List (Core K × K)) :=
  searchLoop o.limit n (applyFilters ref w n (candidates o ref catalogue)) fuel 0 m []

end Verif.CrossRef
