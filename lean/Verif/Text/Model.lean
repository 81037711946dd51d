/-! # Model of the byte-level text helpers of `src/support/Utils.cpp`

Strings are lists of bytes (or of an arbitrary alphabet with decidable equality where the code only
compares characters). -/

namespace Verif.Text

variable {α : Type} [DecidableEq α]

/-! ## `strip_cr` and `normalize_micro_sign` -/

/-- Models `strip_cr` (src/support/Utils.cpp:39-43): drop one trailing carriage return. -/
def stripCr (cr : α) (s : List α) : List α :=
  if s.getLast? = some cr then s.dropLast else s

/-- Models the loop body and loop of `normalize_micro_sign` (src/support/Utils.cpp:52-63).
`i` is the loop index, `result` the string built so far. `none` is undefined behaviour: `result.back()`
on an empty string. -/
def microLoop (i : Nat) (result : List UInt8) : List UInt8 → Option (List UInt8)
  | [] => some result
  | c :: rest =>
    if c = 0xB5 then
      if i = 0 then microLoop (i + 1) (result ++ [0xC2] ++ [c]) rest
      else match result.getLast? with
        | none => none
        | some b =>
          if b ≠ 0xC2 then microLoop (i + 1) (result ++ [0xC2] ++ [c]) rest
          else microLoop (i + 1) (result ++ [c]) rest
    else microLoop (i + 1) (result ++ [c]) rest

/-- Models `normalize_micro_sign` (src/support/Utils.cpp:49-65). -/
def normalizeMicroSign (s : List UInt8) : Option (List UInt8) := microLoop 0 [] s

/-! ## `parse_ndjson` -/

/-- Models `std::string::find(char, start)`: the first index at or after `start` holding `c`. -/
def findFrom (s : List α) (c : α) (start : Nat) : Option Nat :=
  if h : start < s.length then
    if s[start] = c then some start else findFrom s c (start + 1)
  else none
termination_by s.length - start

theorem findFrom_bounds (s : List α) (c : α) (start p : Nat) (h : findFrom s c start = some p) :
    start ≤ p ∧ p < s.length := by
  fun_induction findFrom s c start with
  | case1 start h1 h2 => simp at h; omega
  | case2 start h1 h2 ih => have := ih h; omega
  | case3 => simp at h

/-- Models the `while` loop of `parse_ndjson` (src/support/Utils.cpp:77-96). `win` is the `_WIN32`
compilation switch. `consume` stands for parse + migrate + callback: it transforms the consumer's state and
says whether it completed (`false`: an exception left it, the state is what the call left behind). -/
def ndjsonLoop {σ : Type} (win : Bool) (nl cr : α) (consume : σ → List α → σ × Bool) (db : List α)
    (start : Nat) (st : σ) : σ × Bool :=
  if _hs : start < db.length then
    let pos := findFrom db nl start
    let end_ := pos.getD db.length
    let lineEnd := if win = true ∧ end_ > start ∧ db[end_ - 1]? = some cr then end_ - 1 else end_
    let r := if lineEnd > start then consume st ((db.drop start).take (lineEnd - start)) else (st, true)
    if r.2 = false then r
    else match hp : findFrom db nl start with
      | none => r
      | some p =>
        have := findFrom_bounds db nl start p hp
        ndjsonLoop win nl cr consume db (p + 1) r.1
  else (st, true)
termination_by db.length - start

/-- Models `parse_ndjson` (src/support/Utils.cpp:76-97). -/
def parseNdjson {σ : Type} (win : Bool) (nl cr : α) (consume : σ → List α → σ × Bool) (db : List α)
    (st : σ) : σ × Bool :=
  ndjsonLoop win nl cr consume db 0 st

/-! ## `split` -/

/-- Models `std::string::find(delimiter)` (leftmost occurrence; the empty needle is found at 0). -/
def findSub (d : List α) : List α → Option Nat
  | [] => if d = [] then some 0 else none
  | x :: s => if d.isPrefixOf (x :: s) then some 0 else (findSub d s).map (· + 1)

/-- Models the loop of `split` (src/support/Utils.cpp:2371-2376) with the tokens collected so far; `fuel`
bounds the number of iterations, `none` means that the loop is still running after `fuel` iterations. -/
def splitLoop (d : List α) : Nat → List α → List (List α) → Option (List (List α))
  | 0, _, _ => none
  | fuel + 1, s, tokens =>
    match findSub d s with
    | none => some (tokens ++ [s])
    | some pos => splitLoop d fuel (s.drop (pos + d.length)) (tokens ++ [s.take pos])

/-- Models `split` (src/support/Utils.cpp:2367-2379); each iteration removes at least one character when the
delimiter is not empty, so `s.length + 1` iterations suffice (`split_terminates`). -/
def split (s d : List α) : Option (List (List α)) := splitLoop d (s.length + 1) s []

end Verif.Text
