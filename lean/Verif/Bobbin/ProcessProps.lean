import Mathlib.Tactic.Linarith
import Mathlib.Tactic.Ring
import Mathlib.Tactic.FieldSimp
import Mathlib.Tactic.NormNum
import Mathlib.Algebra.Order.Field.Rat
import Verif.Bobbin.Model

/-!
# What processing a bobbin makes of its dimensions (C177)
-/

namespace Verif.Bobbin

set_option linter.unusedSectionVars false
set_option linter.unusedSimpArgs false

variable {K : Type} [Field K] [LinearOrder K] [IsStrictOrderedRing K]

/-! ## The specification: the drawing of each family -/

/-- The declared size across the outside of the window. -/
def Spec.outer : Family → String
  | .e | .er | .el | .p | .u | .efd => "e"
  | .rm | .pq | .ec => "D1"
  | .ep | .etd | .pm => "d1"
  | .t => "A"

/-- The declared size of the hole the column of the core goes through. -/
def Spec.hole : Family → String
  | .e | .er | .el | .p | .u => "f"
  | .efd => "f1"
  | .rm | .pq | .ec => "D3"
  | .ep | .etd | .pm => "d3"
  | .t => "B"

/-- The declared size from outside to outside of the walls. -/
def Spec.overall : Family → String
  | .e | .er | .el | .p | .u => "l2"
  | .efd => "d"
  | .rm => "H2"
  | .pq | .ec => "H1"
  | .ep | .pm => "h"
  | .etd => "h1"
  | .t => "C"

/-- The wall that is declared apart, in the families that have one. -/
def Spec.secondWall : Family → Option String
  | .rm => some "H4"
  | .pm => some "s2"
  | _ => none

/-- A declared size; one that is not declared counts as nothing. -/
def Spec.size (d : String → Option K) (key : String) : K :=
  match d key with
  | some x => x
  | none => 0

/-- The thickness of the second wall, the same as that of the first unless it is declared apart. -/
def Spec.otherWall (d : String → Option K) (family : Family) (wall : K) : K :=
  match Spec.secondWall family with
  | some key => Spec.size d key
  | none => wall

theorem dim_size (d : String → Option K) (key : String) : dim d key = Spec.size d key := by
  unfold dim Spec.size
  cases d key <;> rfl

/-- The only window of a rectangular bobbin, as the drawing has it. -/
structure Spec.Drawn (d : String → Option K) (family : Family) (p : Desc K) (w : Window K) (x width height edge : K) : Prop where
  windows : p.windows = [w]
  edge_eq : p.columnWidth = some edge
  width_eq : w.width = some width
  height_eq : w.height = some height
  centre : w.coordinates = some [x, 0]
  /-- the window starts where the column of the bobbin ends -/
  starts : x - width / 2 = edge
  /-- and ends at the declared outer edge -/
  stops : x + width / 2 = Spec.size d (Spec.outer family) / 2
  /-- the column of the bobbin is around the hole -/
  around : edge - p.columnThickness = Spec.size d (Spec.hole family) / 2
  /-- the window and both walls make up the declared height -/
  stacked : p.wallThickness + height + Spec.otherWall d family p.wallThickness = Spec.size d (Spec.overall family)
  area : w.area = some (width * height)

/-! ## Lemmas -/

theorem processFamily_drawn (π : K) (family : Family) (d : String → Option K) (h : family ≠ .t) :
    ∃ (w : Window K) (x width height edge : K), Spec.Drawn d family (processFamily π family d) w x width height edge := by
  cases family <;> first
    | exact absurd rfl h
    | (refine ⟨_, _, _, _, _, rfl, rfl, rfl, rfl, rfl, ?_, ?_, ?_, ?_, congrArg some (mul_comm _ _)⟩ <;>
        (try simp only [processFamily, processE, processRm, processEp, processEtd, processPm, processPq, processEfd, rectangularDesc,
          Spec.outer, Spec.hole, Spec.overall, Spec.otherWall, Spec.secondWall, ← dim_size]) <;> ring)

theorem processData_value (π : K) (b : Bobbin K) (h : (processData π b).2 = .value ()) :
    ∃ (f : Func K) (w : Window K) (a : K), b.functional = some f ∧ (processFamily π f.family f.dimensions).windows.head? = some w ∧
      w.area = some a ∧ 0 < a ∧ (processData π b).1 = { b with processed := some (processFamily π f.family f.dimensions) } := by
  unfold processData at h ⊢
  cases hf : b.functional with
  | none => simp [hf] at h
  | some f =>
    simp only [hf] at h ⊢
    cases hw : (processFamily π f.family f.dimensions).windows with
    | nil => simp [hw] at h
    | cons w ws =>
      simp only [hw] at h ⊢
      cases ha : w.area with
      | none => simp [ha] at h
      | some a =>
        simp only [ha] at h ⊢
        by_cases hp : 0 < a
        · rw [if_pos hp]
          exact ⟨f, w, a, rfl, by rw [hw]; rfl, ha, hp, rfl⟩
        · simp [if_neg hp] at h

theorem processData_desc (π : K) (b : Bobbin K) (f : Func K) (hf : b.functional = some f) (h : (processData π b).2 = .value ()) :
    (processData π b).1.processed = some (processFamily π f.family f.dimensions) := by
  obtain ⟨f', w, a, hf', -, -, -, hb⟩ := processData_value π b h
  obtain rfl : f' = f := by rw [hf] at hf'; exact (Option.some.inj hf').symm
  rw [hb]

/-! ## The properties -/

/-- C177. A bobbin that processing accepts has its only window where the drawing of the family has it: from the surface of the column to
the declared outer edge, with the column around the hole and the walls within the declared height. Its area is that of the window. -/
theorem processed_as_drawn (π : K) (b : Bobbin K) (f : Func K) (hf : b.functional = some f) (ht : f.family ≠ .t)
    (h : (processData π b).2 = .value ()) :
    ∃ (p : Desc K) (w : Window K) (x width height edge : K), (processData π b).1.processed = some p ∧
      Spec.Drawn f.dimensions f.family p w x width height edge ∧ 0 < width * height := by
  obtain ⟨f', w, a, hf', hw, ha, hp, hb⟩ := processData_value π b h
  obtain rfl : f' = f := by rw [hf] at hf'; exact (Option.some.inj hf').symm
  obtain ⟨w', x, width, height, edge, hd⟩ := processFamily_drawn π f'.family f'.dimensions ht
  refine ⟨_, w', x, width, height, edge, by rw [hb], hd, ?_⟩
  rw [hd.windows] at hw
  obtain rfl : w' = w := by simpa using hw
  rw [hd.area] at ha
  obtain rfl := Option.some.inj ha
  exact hp

/-- C177. The bobbin of a toroid has the whole bore as its window, half of the ring as its column, and no thickness of its own. -/
theorem processed_toroid (π : K) (b : Bobbin K) (f : Func K) (hf : b.functional = some f) (ht : f.family = .t)
    (h : (processData π b).2 = .value ()) :
    ∃ (p : Desc K) (w : Window K) (r : K), (processData π b).1.processed = some p ∧ p.windows = [w] ∧ p.columnThickness = 0 ∧
      p.wallThickness = 0 ∧ r = Spec.size f.dimensions "B" / 2 ∧ w.shape = some .round ∧ w.radialHeight = some r ∧ w.angle = some 360 ∧
      w.area = some (π * r ^ 2) ∧ 0 < π * r ^ 2 ∧ p.columnDepth = some (Spec.size f.dimensions "C" / 2) ∧
      (∃ c : K, p.columnWidth = some c ∧ 2 * (r + 2 * c) = Spec.size f.dimensions "A") := by
  obtain ⟨f', w, a, hf', hw, ha, hp, hb⟩ := processData_value π b h
  obtain rfl : f' = f := by rw [hf] at hf'; exact (Option.some.inj hf').symm
  rw [ht] at hw hb
  simp only [processFamily, processT, List.head?_cons, Option.some.injEq] at hw
  subst hw
  simp only [Option.some.injEq] at ha
  subst ha
  refine ⟨_, _, _, by rw [hb], rfl, rfl, rfl, by rw [dim_size], rfl, rfl, rfl, rfl, hp, ?_, _, rfl, ?_⟩
  · simp only [processFamily, processT, dim_size]
  · simp only [dim_size]; ring

/-- C177. A bobbin that is refused is left as it was, and one that is accepted changes in nothing but its processed description. -/
theorem refused_unchanged (π : K) (b : Bobbin K) :
    ((processData π b).2 ≠ .value () → (processData π b).1 = b) ∧ (processData π b).1.functional = b.functional ∧
      (processData π b).2 ≠ .undefined := by
  unfold processData
  cases hf : b.functional with
  | none => simp [hf]
  | some f =>
    simp only
    cases hw : (processFamily π f.family f.dimensions).windows with
    | nil => simp [hf]
    | cons w ws =>
      simp only
      cases ha : w.area with
      | none => simp [hf]
      | some a =>
        simp only
        by_cases hp : 0 < a
        · simp [if_pos hp, hf]
        · simp [if_neg hp, hf]

/-- C177. A bobbin is accepted exactly when the area that the drawing gives is positive. -/
theorem accepted_iff (π : K) (b : Bobbin K) :
    (processData π b).2 = .value () ↔
      ∃ (f : Func K) (w : Window K) (a : K), b.functional = some f ∧ (processFamily π f.family f.dimensions).windows = [w] ∧
        w.area = some a ∧ 0 < a := by
  constructor
  · intro h
    obtain ⟨f, w, a, hf, hw, ha, hp, -⟩ := processData_value π b h
    have hone : ∃ w', (processFamily π f.family f.dimensions).windows = [w'] := by
      cases f.family <;> exact ⟨_, rfl⟩
    obtain ⟨w', hw'⟩ := hone
    rw [hw'] at hw
    obtain rfl : w' = w := by simpa using hw
    exact ⟨f, w', a, hf, hw', ha, hp⟩
  · rintro ⟨f, w, a, hf, hw, ha, hp⟩
    unfold processData
    simp only [hf, hw, ha, if_pos hp]

/-- C177. Processing again changes nothing. -/
theorem processed_twice (π : K) (b : Bobbin K) : processData π (processData π b).1 = processData π b := by
  by_cases h : (processData π b).2 = .value ()
  · obtain ⟨f, w, a, hf, hw, ha, hp, hb⟩ := processData_value π b h
    have hw' : ∃ ws, (processFamily π f.family f.dimensions).windows = w :: ws := by
      cases hl : (processFamily π f.family f.dimensions).windows with
      | nil => simp [hl] at hw
      | cons x xs => simp [hl] at hw; exact ⟨xs, by rw [hw]⟩
    obtain ⟨ws, hw'⟩ := hw'
    rw [hb]
    unfold processData
    simp only [hf, hw', ha, if_pos hp]
  · rw [(refused_unchanged π b).1 h]

/-- C177, in part. A bobbin whose window is accepted has positive dimensions when one of them is. What is missing: both may be negative,
see `negative_window_accepted`. -/
theorem positive_window_partial (π : K) (b : Bobbin K) (f : Func K) (hf : b.functional = some f) (ht : f.family ≠ .t)
    (h : (processData π b).2 = .value ()) :
    ∃ (p : Desc K) (w : Window K) (width height : K), (processData π b).1.processed = some p ∧ p.windows = [w] ∧ w.width = some width ∧
      w.height = some height ∧ (0 < width ↔ 0 < height) ∧ width ≠ 0 ∧ height ≠ 0 := by
  obtain ⟨p, w, x, width, height, edge, hp, hd, ha⟩ := processed_as_drawn π b f hf ht h
  refine ⟨p, w, width, height, hp, hd.windows, hd.width_eq, hd.height_eq, ⟨fun hw => ?_, fun hh => ?_⟩, ?_, ?_⟩
  · exact (pos_iff_pos_of_mul_pos ha).mp hw
  · exact (pos_iff_pos_of_mul_pos ha).mpr hh
  · rintro rfl; simp at ha
  · rintro rfl; simp at ha

/-- C177. Reading a bobbin from JSON processes it over whatever processed description it came with, as long as it has a functional one. -/
theorem construct_processes (π : K) (b : Bobbin K) (hf : b.functional.isSome) (p : Option (Desc K)) :
    (construct π true { b with processed := p }).2 = (processData π b).2 ∧
      ((processData π b).2 = .value () → (construct π true { b with processed := p }).1 = (processData π b).1) := by
  have : (construct π true { b with processed := p }) = processData π { b with processed := p } := by
    unfold construct
    simp [hf]
  rw [this]
  unfold processData
  obtain ⟨f, hf⟩ := Option.isSome_iff_exists.mp hf
  simp only [hf]
  cases hw : (processFamily π f.family f.dimensions).windows with
  | nil => simp
  | cons w ws =>
    simp only
    cases ha : w.area with
    | none => simp
    | some a =>
      simp only
      by_cases hp : 0 < a
      · simp [if_pos hp, hf]
      · simp [if_neg hp]

/-- C177. Without a functional description, or when told not to, a bobbin keeps the processed description it came with. -/
theorem construct_keeps (π : K) (b : Bobbin K) (processes : Bool) (h : b.functional = none ∨ processes = false) :
    construct π processes b = (b, .value ()) := by
  unfold construct
  rcases h with h | h <;> simp [h]

/-! ## Concrete bobbins -/

/-- Dimensions of a bobbin as pairs of a name and a value. -/
def table (l : List (String × ℚ)) : String → Option ℚ := fun key => (l.find? fun p => p.1 == key).map Prod.snd

/-- A bobbin of family E: column of 10, hole in a window 30 wide, walls and column of 1, 20 high. -/
def bobbinE : Bobbin ℚ :=
  { functional := some { family := .e, shape := "E 30", dimensions := table [("e", 30), ("f", 10), ("s1", 1), ("s2", 1), ("l2", 20)] } }

/-- The window of `bobbinE` is 9 wide, and 18 high. -/
example : (processData 3 bobbinE).2 = .value () ∧
    ((processData 3 bobbinE).1.processed.bind fun p => p.windows.head?.bind fun w => w.width) = some 9 ∧
    ((processData 3 bobbinE).1.processed.bind fun p => p.windows.head?.bind fun w => w.area) = some 162 := by
  decide +kernel

/-- A toroid of 20 outside and 10 inside. -/
def bobbinT : Bobbin ℚ :=
  { functional := some { family := .t, shape := "T 20", dimensions := table [("A", 20), ("B", 10), ("C", 5)] } }

example : (processData 3 bobbinT).2 = .value () ∧ ∃ f : Func ℚ, bobbinT.functional = some f ∧ f.family = .t := by
  exact ⟨by decide +kernel, _, rfl, rfl⟩

/-- A bobbin of family E that declares neither its overall width nor its height. -/
def bobbinShort : Func ℚ := { family := .e, shape := "E 30", dimensions := table [("f", 10), ("s1", 1), ("s2", 1)] }

/-- A bobbin of family E that does not declare the thickness of its column. -/
def bobbinThin : Func ℚ := { family := .e, shape := "E 30", dimensions := table [("e", 30), ("f", 10), ("s2", 1), ("l2", 20)] }

/-- C177, against the code. A bobbin that declares neither its overall width nor its height is accepted with a window of negative width
and height: the product of both is positive. -/
theorem negative_window_accepted :
    ∃ (b : Bobbin ℚ) (p : Desc ℚ) (w : Window ℚ) (width height : ℚ), (processData 3 b).2 = .value () ∧
      (processData 3 b).1.processed = some p ∧ p.windows = [w] ∧ w.width = some width ∧ w.height = some height ∧ width < 0 ∧ height < 0 := by
  have h : (processData 3 { functional := some bobbinShort }).2 = .value () := by decide +kernel
  exact ⟨{ functional := some bobbinShort }, processE bobbinShort.dimensions, (processE bobbinShort.dimensions).windows[0], -6, -2, h,
    processData_desc 3 _ bobbinShort rfl h, rfl, by decide +kernel, by decide +kernel, by decide +kernel, by decide +kernel⟩

/-- C177, against the code. A bobbin that does not declare the thickness of its column is accepted as having none. -/
theorem missing_thickness_accepted :
    ∃ (b : Bobbin ℚ) (f : Func ℚ) (p : Desc ℚ), b.functional = some f ∧ f.dimensions "s1" = none ∧ (processData 3 b).2 = .value () ∧
      (processData 3 b).1.processed = some p ∧ p.columnThickness = 0 := by
  have h : (processData 3 { functional := some bobbinThin }).2 = .value () := by decide +kernel
  exact ⟨{ functional := some bobbinThin }, bobbinThin, processE bobbinThin.dimensions, rfl, by decide +kernel, h,
    processData_desc 3 _ bobbinThin rfl h, by decide +kernel⟩

end Verif.Bobbin
