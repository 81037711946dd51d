import Verif.WireAdvice.Lemmas

/-! # Specification of the wire adviser

Which candidates are acceptable and what their score is, said without the filters. -/

set_option linter.unusedSectionVars false

namespace Verif.WireAdvice

variable {K : Type} [Field K] [LinearOrder K]

/-- The share of a value among others: one for all if they do not differ; otherwise it goes linearly from zero to one, from the
smallest to the largest or, inverted, from the largest to the smallest. -/
def Share (invert : Bool) (vs : List K) (v s : K) : Prop :=
  ∃ lo ∈ vs, ∃ hi ∈ vs, (∀ x ∈ vs, lo ≤ x ∧ x ≤ hi) ∧ (lo = hi → s = 1) ∧
    (lo < hi → s * (hi - lo) = if invert then hi - v else v - lo)

/-- The outer width and height of a wire. -/
def Sizes (w : Wire K) (a b : K) : Prop := maxWidth w = some a ∧ maxHeight w = some b

/-- One turn of the wire is smaller than the section; there are not more foils than parallels are allowed. -/
def Alone (cfg : Config K) (e : Env K) (sec : Section K) (turns : ℤ) (c : Cand K) : Prop :=
  (c.wire.type = .foil → c.parallels * turns ≤ cfg.maxParallels) ∧
  ∃ w h, Sizes c.wire w h ∧ w < sec.first ∧
    (sec.coord ≠ some .polar → h < sec.second) ∧ (sec.coord = some .polar → e.angle h w < sec.second)

/-- The part of the section all turns take: areas of wires by parallels by turns by section. -/
def Part (e : Env K) (sec : Section K) (q : Asked) (c : Cand K) (p : K) : Prop :=
  ∃ w h, Sizes c.wire w h ∧ p * sectionArea e.pi sec * q.sections = w * h * c.parallels * q.turns

/-- All turns fit in the sections. -/
def Fits (e : Env K) (sec : Section K) (q : Asked) (c : Cand K) : Prop := ∃ p, Part e sec q c p ∧ p < 1

/-- The turns overflow the sections by less than a half. -/
def Almost (e : Env K) (sec : Section K) (q : Asked) (c : Cand K) : Prop := ∃ p, Part e sec q c p ∧ p < 3 / 2

/-- The insulation is as required, if it is. -/
def Insulated (cfg : Config K) (e : Env K) (c : Cand K) : Prop := cfg.insulation = true → e.insulated c.wire = some true

/-- The section of two dimensions has an area. -/
def Sound (e : Env K) (sec : Section K) : Prop := 0 < sectionArea e.pi sec

/-- Does some candidate pass that fits? -/
def SomeFit (cfg : Config K) (e : Env K) (sec : Section K) (q : Asked) (d : List (Cand K)) : Prop :=
  ∃ c ∈ d, Alone cfg e sec q.turns c ∧ Insulated cfg e c ∧ Fits e sec q c

/-- The candidates that are acceptable: those that fit, or those that almost do if there are none. -/
def Acceptable (cfg : Config K) (e : Env K) (sec : Section K) (q : Asked) (d : List (Cand K)) (c : Cand K) : Prop :=
  Alone cfg e sec q.turns c ∧ Insulated cfg e c ∧
    (SomeFit cfg e sec q d → Fits e sec q c) ∧ (¬ SomeFit cfg e sec q d → Almost e sec q c)

/-- What the candidates are compared by: the part of the section they take, their resistance, their losses by skin effect and
their factor of proximity. -/
structure Measures (K : Type) where
  part : Cand K → K
  resistance : Cand K → K
  skin : Cand K → K
  proximity : Cand K → K

/-- The measures of a candidate are those the models answer at a frequency. -/
def Measured (e : Env K) (sec : Section K) (q : Asked) (f : K) (harmonics : Bool) (m : Measures K) (c : Cand K) : Prop :=
  Part e sec q c (m.part c) ∧ e.resistance c.wire f = some (.fin (m.resistance c)) ∧
  (harmonics = true → e.skin c.wire = some (.fin (m.skin c))) ∧
  ∃ d, smallest c.wire = some d ∧ f ≠ 0 ∧ m.proximity c * f = d * ((c.wire.conductors.getD 1 : ℕ) * c.parallels * q.turns) ^ 2

/-- The score of a candidate among all `g`: one for being smaller than the section, one for the insulation if that is looked at, and a
share for each of the measures, the smaller the better. That of the section is one if there are candidates that fit. -/
def Scored (insulation harmonics fit : Bool) (m : Measures K) (g : List (Cand K)) (c : Cand K) (s : K) : Prop :=
  ∃ a r k p : K, (fit = true → a = 1) ∧ (fit = false → Share true (g.map m.part) (m.part c) a) ∧
    Share true (g.map m.resistance) (m.resistance c) r ∧
    (harmonics = true → Share true (g.map m.skin) (m.skin c) k) ∧ (harmonics = false → k = 0) ∧
    Share true (g.map m.proximity) (m.proximity c) p ∧ s = 1 + (if insulation then 1 else 0) + a + r + k + p

end Verif.WireAdvice
