import Mathlib.Algebra.Order.Field.Basic

/-! # Model of `find_closest_index` and `get_closest` (src/support/Utils.cpp)

Numbers are an arbitrary linearly ordered field `K`. -/

namespace Verif.Closest

variable {K : Type} [Field K] [LinearOrder K] [IsStrictOrderedRing K]

/-- Outcome of a call: an index, or undefined behaviour. -/
inductive Out where
  | index (i : Nat)
  | ub
  deriving DecidableEq, Repr

/-- The binary search loop of `find_closest_index` (src/support/Utils.cpp:3151-3184), literally; `mid` is the
value of the variable before the iteration. Reading past the end is `ub`. -/
def search (v : List K) (x : K) (i j mid : Nat) : Out :=
  if _h : i < j then
    let m := (i + j) / 2
    match v[m]? with
    | none => .ub
    | some vm =>
      if vm = x then .index m
      else if x < vm then
        if m > 0 then
          match v[m - 1]? with
          | none => .ub
          | some vp =>
            if vp < x ∧ vm - x ≤ x - vp then .index m
            else search v x i m m
        else search v x i m m
      else
        if m < v.length - 1 then
          match v[m + 1]? with
          | none => .ub
          | some vn =>
            if x < vn ∧ vn - x ≤ x - vm then .index (m + 1)
            else search v x (m + 1) j m
        else search v x (m + 1) j m
  else .index mid
termination_by j - i

/-- Models `find_closest_index` (src/support/Utils.cpp:3143-3187). `vector.front()` on an empty vector is
undefined behaviour. -/
def findClosestIndex (v : List K) (x : K) : Out :=
  match v.head?, v.getLast? with
  | some front, some back =>
    if x ≤ front then .index 0
    else if back ≤ x then .index (v.length - 1)
    else search v x 0 v.length 0
  | _, _ => .ub

/-- Models `get_closest` (src/support/Utils.cpp:3189-3194). -/
def getClosest (val1 val2 value : K) : K :=
  if val2 - value ≤ value - val1 then val2 else val1

end Verif.Closest
