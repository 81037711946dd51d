import Verif.Winding.Turns
import Verif.Winding.Sections

/-! # Names of the parts of a coil, and looking them up

Models how sections, layers and turns are named (src/constructive_models/Coil.cpp) and how they are found by name. -/

namespace Verif.Names

open Verif.Winding

/-- A name, as its characters. -/
abbrev Name := List Char

/-- `std::to_string` of an unsigned integer. -/
def decimal (n : Nat) : Name := Nat.toDigits 10 n

/-! ## Sections -/

/-- The name of a conduction section (Coil.cpp:8518, 8924). -/
def sectionName (winding : Name) (i : Nat) : Name := winding ++ " section ".toList ++ decimal i

/-- The name of a section of insulation (Coil.cpp:8643, 9004). -/
def insulationName (before after : Name) (k : Nat) : Name :=
  "Insulation between ".toList ++ before ++ " and ".toList ++ after ++ " section ".toList ++ decimal k

/-- The names given in the loop over the entries of a group (Coil.cpp:8471-8664, 8518, 8643); the arguments are those of
`windEntries`, with `count` the sections each winding has had. -/
def entryNames (names : Nat → Name) (ins : Nat → Nat → Option (ℚ × ℚ)) (first : Option Nat) :
    List Entry → Option Nat → Nat → (Nat → Nat) → List Name
  | [], _, _, _ => []
  | .cond w _ :: rest, _, k, count =>
    sectionName (names w) (count w) :: entryNames names ins first rest (some w) (k + 1) (upd count w (count w + 1))
  | .ins :: rest, prev, k, count =>
    let next := match rest with
      | e :: _ => e.winding
      | [] => first
    match prev, next with
    | some a, some b =>
      (if (ins a b).isSome then [insulationName (names a) (names b) k] else []) ++
        entryNames names ins first rest none (k + 1) count
    | _, _ => entryNames names ins first rest none (k + 1) count

/-- The names given to the sections of all groups (Coil.cpp:8442-8666). -/
def groupNames (names : Nat → Name) (c : Ctx) (prop : Nat → ℚ) (pattern : List Nat) (reps : Nat) (multi : Bool) :
    List Group → Res (List Name)
  | [] => .ok []
  | g :: gs =>
    if multi = true ∧ g.members = [] then groupNames names c prop pattern reps multi gs
    else
      (planGroup c (mirrored multi g) prop pattern reps multi true).bind fun plan =>
        (groupNames names c prop pattern reps multi gs).bind fun rest =>
          .ok (entryNames names c.insulation (plan.entries.head?.bind Entry.winding) plan.entries none 0 (fun _ => 0) ++ rest)

/-- The names of the sections of a rectangular window. -/
def sectionNames (names : Nat → Name) (c : Ctx) (gs : List Group) (prop : Nat → ℚ) (pattern : List Nat) (reps : Nat) :
    Res (List Name) :=
  groupNames names c prop pattern reps (decide (gs.length > 1)) gs

/-! ## Layers -/

/-- The name of a layer of a section (Coil.cpp:9671, 9759, 9839): conduction, or insulation between layers or filling the
section. -/
def layerName (sect : Name) (conduction : Bool) (i : Nat) : Name :=
  (if conduction then sect ++ " layer ".toList else sect ++ " insulation layer ".toList) ++ decimal i

/-- What a section is filled with: the layers wound in it, or a number of layers of insulation. -/
inductive Filling where
  | wound (layers : List Layer)
  | insulation (layers : Nat)

/-- The names of the layers of one section (Coil.cpp:9671, 9759 for layers of a winding, 9835-9841 for insulation). -/
def layerNamesOf (sect : Name) : Filling → List Name
  | .wound ls => ls.map fun l => layerName sect l.conduction l.index
  | .insulation n => (List.range n).map fun i => layerName sect false i

/-- The names of the layers of all sections. -/
def layerNames (sections : List (Name × Filling)) : List Name :=
  (sections.map fun x => layerNamesOf x.1 x.2).flatten

/-! ## Turns -/

/-- The name of a turn (Coil.cpp:10662, 10704, 11127, 11183, 11395, 11446). -/
def turnName (winding : Name) (parallel number : Nat) : Name :=
  winding ++ " parallel ".toList ++ decimal parallel ++ " turn ".toList ++ decimal number

/-- A place where a conductor passes, as far as naming is concerned: its winding, parallel and layer. -/
structure Station where
  winding : Name
  parallel : Nat
  layer : Option Name
  deriving DecidableEq, Repr

/-- The length of the run of stations that starts a list and shares its layer (Coil.cpp:4966-4973). -/
def runLength : List (Option Name) → Nat
  | [] => 0
  | none :: _ => 1
  | some l :: rest => 1 + (rest.takeWhile fun x => decide (x = some l)).length

/-- The numbers of a run of `stations` and whether each is an ending (Coil.cpp:4977-4991). -/
def runNumbers (turn stations : Nat) : List (Nat × Bool) :=
  if stations ≥ 2 then (List.range (stations - 1)).map (fun k => (turn + k, false)) ++ [(turn + stations - 2, true)]
  else [(turn, false)]

theorem runLength_pos {x : Option Name} {l : List (Option Name)} : 0 < runLength (x :: l) := by
  cases x <;> simp [runLength]

/-- The numbers of the stations of a conductor, from a turn on (Coil.cpp:4961-4993). -/
def stationNumbers (turn : Nat) (ls : List (Option Name)) : List (Nat × Bool) :=
  match ls with
  | [] => []
  | x :: rest =>
    let n := runLength (x :: rest)
    runNumbers turn n ++ stationNumbers (turn + (if n ≥ 2 then n - 1 else 1)) ((x :: rest).drop n)
  termination_by ls.length
  decreasing_by
    simp only [List.length_drop]
    have := @runLength_pos x rest
    simp only [List.length_cons]
    omega

/-- The name of a numbered station (Coil.cpp:4975-4989). -/
def stationName (winding : Name) (parallel : Nat) (x : Nat × Bool) : Name :=
  winding ++ " parallel ".toList ++ decimal parallel ++ " turn ".toList ++ decimal x.1 ++
    (if x.2 then "_ending".toList else [])

/-- `name_turns_by_beginning` (Coil.cpp:4949-4996), with real winding geometry: the name of each station. The map of
conductors is written as a filter, and a station takes the number at its place among those of its conductor. -/
def nameByBeginning (stations : List Station) : List Name :=
  stations.mapIdx fun i s =>
    let same := fun t : Station => decide (t.winding = s.winding ∧ t.parallel = s.parallel)
    let numbers := stationNumbers 0 ((stations.filter same).map fun t => t.layer)
    stationName s.winding s.parallel (numbers.getD ((stations.take i).countP same) (0, false))

/-! ## Looking up by name -/

/-- What a lookup can do. -/
inductive Found (α : Type) where
  | ok (a : α)
  | noSuchName
  | notWound
  deriving DecidableEq, Repr

/-- A turn: its name, and all else. -/
structure Turn where
  name : Name
  rest : Nat
  deriving DecidableEq, Repr

/-- A coil, as far as lookups are concerned: the names of its windings, its turns, and what it remembers
(Coil.h:269-271). -/
structure Coil where
  windings : List Name
  turns : Option (List Turn)
  windingIndex : Name → Option Nat
  turnIndex : Name → Option Nat
  turnByName : Name → Option Turn

/-- A coil that has not been asked for anything. -/
def Coil.fresh (windings : List Name) (turns : Option (List Turn)) : Coil :=
  ⟨windings, turns, fun _ => none, fun _ => none, fun _ => none⟩

/-- The index of the first element that satisfies a test. -/
def firstIndex {α : Type} (p : α → Bool) (l : List α) : Option Nat :=
  if l.findIdx p < l.length then some (l.findIdx p) else none

/-- `get_turn_by_name` (Coil.cpp:5539-5559). -/
def getTurn (n : Name) (c : Coil) : Coil × Found Turn :=
  match c.turnByName n with
  | some t => (c, .ok t)
  | none => match c.turns with
    | none => (c, .notWound)
    | some ts => match ts.find? fun t => decide (t.name = n) with
      | none => (c, .noSuchName)
      | some t => ({ c with turnByName := Function.update c.turnByName n (some t) }, .ok t)

/-- The search for a turn (Coil.cpp:5649-5655). -/
def searchTurn (n : Name) (ts : List Turn) (c : Coil) : Coil × Found Nat :=
  match firstIndex (fun t => decide (t.name = n)) ts with
  | some i => ({ c with turnIndex := Function.update c.turnIndex n (some i) }, .ok i)
  | none => (c, .noSuchName)

/-- `get_turn_index_by_name` (Coil.cpp:5629-5656). -/
def getTurnIndex (n : Name) (c : Coil) : Coil × Found Nat :=
  match c.turns with
  | none => (c, .notWound)
  | some ts => match c.turnIndex n with
    | some i =>
      match ts[i]? with
      | some t => if t.name = n then (c, .ok i) else searchTurn n ts { c with turnIndex := fun _ => none }
      | none => searchTurn n ts { c with turnIndex := fun _ => none }
    | none => searchTurn n ts c

/-- `get_winding_index_by_name` (Coil.cpp:5610-5627). -/
def getWindingIndex (n : Name) (c : Coil) : Coil × Found Nat :=
  match c.windingIndex n with
  | some i => (c, .ok i)
  | none => match firstIndex (fun m => decide (m = n)) c.windings with
    | some i => ({ c with windingIndex := Function.update c.windingIndex n (some i) }, .ok i)
    | none => (c, .noSuchName)

/-- What can happen to a coil: lookups, new windings (`set_functional_description`, Coil.h:564), new turns (winding, or
`set_turns_description`), and the clearing of indexes by winding with windings wound together
(Coil.cpp:7718-7719, 7732-7733, 8134-8135, 9256-9257, 9269-9270, 10240-10241, 10254-10255). -/
inductive Op where
  | getTurn (n : Name)
  | getTurnIndex (n : Name)
  | getWindingIndex (n : Name)
  | setWindings (ws : List Name)
  | setTurns (ts : Option (List Turn))
  | forget

/-- One step. -/
def Op.run : Op → Coil → Coil
  | .getTurn n, c => (Names.getTurn n c).1
  | .getTurnIndex n, c => (Names.getTurnIndex n c).1
  | .getWindingIndex n, c => (Names.getWindingIndex n c).1
  | .setWindings ws, c => { c with windings := ws }
  | .setTurns ts, c => { c with turns := ts }
  | .forget, c => { c with windingIndex := fun _ => none, turnIndex := fun _ => none }

/-- The coil after a history. -/
def runAll : List Op → Coil → Coil
  | [], c => c
  | o :: rest, c => runAll rest (o.run c)

end Verif.Names
