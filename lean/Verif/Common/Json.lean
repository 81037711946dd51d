/-!
# JSON values (`nlohmann::json`)

Objects are kept as the list of their members in iteration order; `nlohmann::json` keeps them in a
`std::map`, so keys are unique (`Json.WF`).  Numbers are opaque strings of digits: nothing modelled
computes with them.
-/

namespace Verif

/-- A JSON value. -/
inductive Json where
  | null
  | bool (b : Bool)
  | num (repr : String)
  | str (s : String)
  | arr (elems : List Json)
  | obj (members : List (String × Json))

namespace Json

/-- `find(key)` on an object's members. -/
def lookup (key : String) : List (String × Json) → Option Json
  | [] => none
  | (k, v) :: ms => if key = k then some v else lookup key ms

/-- `j.contains(key)` and `j[key]`: `contains` is false on anything that is not an object. -/
def get? (j : Json) (key : String) : Option Json :=
  match j with
  | .obj ms => lookup key ms
  | _ => none

end Json

end Verif
