import Verif.Standards.Lemmas

/-! # What is required of the inputs and of the tables

The order on inputs ("at least as demanding") and the conditions the tables have to meet. `Verif.Standards.Sound`
checks that the shipped tables meet them. -/

set_option linter.unusedSectionVars false

namespace Verif.Standards

open Verif.Insulation Verif.Round

/-- Degrees of pollution, the least demanding first. -/
def Pd.rank : Pd → Nat
  | .pd1 => 1 | .pd2 => 2 | .pd3 => 3

/-- Overvoltage categories, the least demanding first. -/
def Ovc.rank : Ovc → Nat
  | .i => 1 | .ii => 2 | .iii => 3 | .iv => 4

/-- Material groups, the best resistance to tracking first. -/
def Cti.rank : Cti → Nat
  | .groupI => 1 | .groupII => 2 | .groupIIIA => 3 | .groupIIIB => 4

/-- Insulation classes, the least demanding first; reinforced and double insulation are alternatives. -/
def Cls.rank : Cls → Nat
  | .functional => 0 | .basic => 1 | .supplementary => 2 | .reinforced => 3 | .double => 3

/-- The second class is at least as demanding as the first. -/
def Cls.le (c d : Cls) : Prop := c = d ∨ c.rank < d.rank

instance (c d : Cls) : Decidable (c.le d) := by unfold Cls.le; infer_instance

variable {K : Type} [Field K] [LinearOrder K]

/-- `j` is at least as demanding as `i`, at the same frequency and with the same wiring technology. -/
structure Harsher (i j : Query K) : Prop where
  wiring : i.wiring = j.wiring
  freq : i.freq = j.freq
  pd : i.pd.rank ≤ j.pd.rank
  ovc : i.ovc.rank ≤ j.ovc.rank
  cls : i.cls.le j.cls
  cti : i.cti.rank ≤ j.cti.rank
  altitude : i.altitude ≤ j.altitude
  main : i.main ≤ j.main
  vrms : i.vrms ≤ j.vrms
  vpeak : i.vpeak ≤ j.vpeak
  vrms0 : i.vrms0 ≤ j.vrms0
  vpeak0 : i.vpeak0 ≤ j.vpeak0

/-- The voltages are not negative. -/
structure Query.Nonneg (q : Query K) : Prop where
  vrms : 0 ≤ q.vrms
  vpeak : 0 ≤ q.vpeak

/-- The physical constants: a square root that is not negative, and a skin depth with `δ² f ≤ 1/200` m²/s
(copper at 20 °C has `δ² f = ρ / (π μ) = 0.0042`). -/
structure Phys.Lawful (P : Phys K) : Prop where
  sqrt2 : 0 ≤ P.sqrt2
  skin : ∀ f, 0 < f → 0 ≤ P.skin f ∧ P.skin f ^ 2 * f ≤ 1 / 200

/-- All values of a table at least `m`. -/
def AtLeast (m : K) (t : Table K) : Prop := ∀ r ∈ t, m ≤ r.2

variable [IsStrictOrderedRing K]

/-- Table F.1, or with "the next row" for the strong classes. -/
def f1Rows (T : T60664 K) (o : Ovc) (strong : Bool) : Table K :=
  if strong then nextRows (· * (16 / 10)) (T.f1 o) else T.f1 o

/-- Where the planar table `t` ends, the table of the other construction continues at least as high; for F.2 only
at the impulse voltages of F.1, the arguments it is used with. -/
structure HandsOver (T : T60664 K) (t : Table K) : Prop where
  f2 : ∀ o b, ∀ r ∈ f1Rows T o b, ∀ p x v w, inside t x = true → inside t r.2 = false → interp t x = .ok v →
    lookupLe (T.f2 p) r.2 = some w → v ≤ w
  f8 : ∀ x y v w, inside t x = true → inside t y = false → interp t x = .ok v → lookupLe T.f8 y = some w → v ≤ w
  p4t1 : ∀ x y v w, inside t x = true → inside t y = false → interp t x = .ok v → interp T.p4t1 y = .ok w → v ≤ w

/-- The conditions on the tables of IEC 60664. -/
structure Sound664 (T : T60664 K) : Prop where
  a2 : Rows T.a2
  a2_ge : AtLeast 1 T.a2
  f1 : ∀ o b, Increasing (f1Rows T o b)
  f1_le : ∀ o o' b b', o.rank ≤ o'.rank → (b = true → b' = true) → StepBelow (f1Rows T o b) (f1Rows T o' b')
  f2 : ∀ p, Increasing (T.f2 p) ∧ AtLeast 0 (T.f2 p)
  f2_le : ∀ p p', p.rank ≤ p'.rank → StepBelow (T.f2 p) (T.f2 p')
  f3 : Increasing T.f3
  f5 : ∀ p c t, T.f5 p c = some t → Increasing t ∧ AtLeast 0 t
  f5_le : ∀ p p' c c' t t', p.rank ≤ p'.rank → c.rank ≤ c'.rank → T.f5 p c = some t → T.f5 p' c' = some t' →
    StepBelowLt t t'
  f8 : Increasing T.f8
  f8_ge : AtLeast (1 / 10 ^ 6) T.f8
  p4t1 : Rows T.p4t1
  /-- table 1 of part 4 is never below table F.8 at a row of F.8 -/
  p4t1_f8 : ∀ r ∈ T.f8, ∀ w, interp T.p4t1 r.1 = .ok w → r.2 ≤ w
  p4t2 : (∀ r ∈ T.p4t2, Rows r.2 ∧ AtLeast 0 r.2) ∧ Keys lineFrequency T.p4t2
  p5t2 : Rows T.p5t2
  p5t3 : Rows T.p5t3
  p5_nonneg : AtLeast 0 T.p5t2 ∧ AtLeast 0 T.p5t3
  p5t2_over : HandsOver T T.p5t2
  p5t3_over : HandsOver T T.p5t3
  p5_inside : ∀ x, inside T.p5t2 x = inside T.p5t3 x
  /-- the table for high altitudes is not below the other, from the smallest impulse voltage on -/
  p5_le : ∃ x₀, (∀ o b, AtLeast x₀ (f1Rows T o b)) ∧
    ∀ x, x₀ ≤ x → ∀ v w, interp T.p5t2 x = .ok v → interp T.p5t3 x = .ok w → v ≤ w
  p5t4 : ∀ p c t, T.p5t4 p c = some t → Rows t ∧ AtLeast 0 t
  p5t4_le : ∀ p p' c c' t t', p.rank ≤ p'.rank → c.rank ≤ c'.rank → T.p5t4 p c = some t → T.p5t4 p' c' = some t' →
    Below t t' ∧ (∀ x, inside t' x = true → inside t x = true) ∧
    ∀ u x y v w, T.f5 p' c' = some u → inside t x = true → inside t' y = false → x ≤ y → interp t x = .ok v →
      lookupLt u y = some w → v ≤ w

/-- The conditions on the tables of IEC 62368. -/
structure Sound623 (T : T62368 K) : Prop where
  t10 : ∀ b p, Rows (T.t10 b p) ∧ AtLeast 0 (T.t10 b p)
  t10_le : ∀ b b' p p', (b = true → b' = true) → p.rank ≤ p'.rank → Below (T.t10 b p) (T.t10 b' p')
  t11 : ∀ b, Rows (T.t11 b) ∧ AtLeast 0 (T.t11 b)
  t11_le : Below (T.t11 false) (T.t11 true)
  t12 : ∀ o, Increasing (T.t12 o)
  t12_le : ∀ o o', o.rank ≤ o'.rank → StepBelow (T.t12 o) (T.t12 o')
  t14 : ∀ b p, Rows (T.t14 b p) ∧ AtLeast 0 (T.t14 b p)
  t14_le : ∀ b b' p p', (b = true → b' = true) → p.rank ≤ p'.rank → Below (T.t14 b p) (T.t14 b' p')
  t16 : Rows T.t16
  t17 : ∀ p c, Rows (T.t17 p c) ∧ AtLeast 0 (T.t17 p c)
  t17_le : ∀ p p' c c', p.rank ≤ p'.rank → c.rank ≤ c'.rank → Below (T.t17 p c) (T.t17 p' c')
  t18 : Chain18 T.t18 ∧ ∀ r ∈ T.t18, AtLeast 0 r.2
  t25 : ∀ b, Rows (T.t25 b)
  t25_le : Below (T.t25 false) (T.t25 true)
  t26 : ∀ b, Rows (T.t26 b)
  t26_le : Below (T.t26 false) (T.t26 true)
  t27 : ∀ b, Increasing (T.t27 b)
  t27_le : StepBelowLt (T.t27 false) (T.t27 true)
  g13 : ∀ b, Rows (T.g13 b)
  g13_le : Below (T.g13 false) (T.g13 true)

/-- The conditions on the tables of IEC 61558. -/
structure Sound615 (T : T61558 K) : Prop where
  t14 : ∀ o c, Rows (T.t14 o c)
  /-- the columns of table 14 compare up to its last row; extrapolated, they cross -/
  t14_le : ∀ o o' c c', o.rank ≤ o'.rank → c.le c' → ∀ x, x ≤ 1000 → ∀ v w, interp (T.t14 o c) x = .ok v →
    interp (T.t14 o' c') x = .ok w → v ≤ w
  t20 : ∀ o c p, Increasing (T.t20 o c p) ∧ AtLeast 0 (T.t20 o c p)
  t20_le : ∀ o o' c c' p p', o.rank ≤ o'.rank → c.le c' → p.rank ≤ p'.rank → p ≠ .pd1 → c ≠ .functional →
    StepBelow (T.t20 o c p) (T.t20 o' c' p')
  t21 : ∀ g c p, c ≠ .functional → Rows (T.t21 g c p) ∧ AtLeast 0 (T.t21 g c p)
  t21_le : ∀ g g' c c' p p', g.rank ≤ g'.rank → c.le c' → p.rank ≤ p'.rank → c ≠ .functional →
    Below (T.t21 g c p) (T.t21 g' c' p')
  t22 : ∀ c, c ≠ .functional → c ≠ .basic → Rows (T.t22 c) ∧ AtLeast 0 (T.t22 c)
  t22_le : ∀ c c', c.le c' → c ≠ .functional → c ≠ .basic → Below (T.t22 c) (T.t22 c')
  t103 : ∀ b, Increasing (T.t103 b) ∧ AtLeast 0 (T.t103 b)
  t103_le : StepBelow (T.t103 false) (T.t103 true)
  t104 : ∀ b, Increasing (T.t104 b)
  t104_le : StepBelow (T.t104 false) (T.t104 true)
  tHigh : ∀ b p, (∀ r ∈ T.tHigh b p, AtLeast 0 r.2) ∧ Keys lineFrequency (T.tHigh b p)
  tHigh_le : ∀ b b' p p', (b = true → b' = true) → p.rank ≤ p'.rank → FreqBelow (T.tHigh b p) (T.tHigh b' p')

/-- Table 16 of IEC 60335, or with "the next row" for the strong classes. -/
def t16Rows (T : T60335 K) (strong : Bool) : Table K := if strong then nextRows id T.t16 else T.t16

/-- The conditions on the tables of IEC 60335. -/
structure Sound603 (T : T60335 K) : Prop where
  t7 : ∀ c, Increasing (T.t7 c) ∧ AtLeast 0 (T.t7 c)
  t7_le : ∀ c c', c.le c' → c ≠ .functional → StepBelow (T.t7 c) (T.t7 c')
  t15 : ∀ o, Increasing (T.t15 o)
  t15_le : ∀ o o', o.rank ≤ o'.rank → o' ≠ .iv → StepBelow (T.t15 o) (T.t15 o')
  t16 : ∀ b, Increasing (t16Rows T b)
  t16_le : StepBelow (t16Rows T false) (t16Rows T true)
  /-- the rows that the special cases replace: none below 0.2 mm, and 0.8 mm stays between the neighbours -/
  t16_ge : ∀ b, AtLeast (2 / 10000) (t16Rows T b)
  t16_low : ∀ b x v, lookupLe (t16Rows T b) x = some v → x ≤ (if b then 800 else 1500) → v ≤ 8 / 10000
  t16_high : ∀ b x v, lookupLe (t16Rows T b) x = some v → (if b then 800 else 1500) < x → 8 / 10000 ≤ v
  t17 : ∀ p c, Increasing (T.t17 p c) ∧ AtLeast 0 (T.t17 p c)
  t17_le : ∀ p p' c c', p.rank ≤ p'.rank → c.rank ≤ c'.rank → StepBelow (T.t17 p c) (T.t17 p' c')
  t18 : ∀ p c, Increasing (T.t18 p c) ∧ AtLeast 0 (T.t18 p c)
  t18_le : ∀ p p' c c', p.rank ≤ p'.rank → c.rank ≤ c'.rank → StepBelow (T.t18 p c) (T.t18 p' c')
  t18_t17 : ∀ p p' c c', p.rank ≤ p'.rank → c.rank ≤ c'.rank → StepBelow (T.t18 p c) (T.t17 p' c')
  t19 : ∀ o, Increasing (T.t19 o)
  t19_le : ∀ o o', o.rank ≤ o'.rank → o' ≠ .iv → StepBelow (T.t19 o) (T.t19 o')

/-- The conditions on all the tables. -/
structure Sound (T : Tables K) : Prop where
  t664 : Sound664 T.t664
  t623 : Sound623 T.t623
  t615 : Sound615 T.t615
  t603 : Sound603 T.t603

end Verif.Standards
