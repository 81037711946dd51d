import Verif.WireAdvice.PlanarProps

/-! # Concrete cases and disagreements

A small world of wires over the rationals: cases that meet the hypotheses of the theorems, and cases where what a user would expect
does not hold. -/

namespace Verif.WireAdvice

open Verif.Scoring (Num)

/-- Models of wires that answer always: the area of the conductor, its inverse as resistance. -/
def world : Env ℚ where
  pi := 22 / 7
  area w _ := some (match w.type with
    | .round => (w.diameter.getD 0) ^ 2 * 11 / 14
    | _ => w.width.getD 0 * w.height.getD 0)
  resistance w _ := some (.fin (1 / (match w.type with
    | .round => (w.diameter.getD 1) ^ 2 * 11 / 14
    | _ => w.width.getD 1 * w.height.getD 1)))
  skin _ := some (.fin 1)
  insulated _ := some true
  angle a _ := a

/-- Everything is allowed but rectangular wires in toroids. -/
def everything : Allowed := ⟨true, true, true, true, true, false⟩

/-- Four parallels with a density of twelve. -/
def usual : Config ℚ := ⟨12, 4, none, false⟩

/-- A section of ten by ten. -/
def square : Section ℚ := ⟨some .cartesian, 10, 10⟩

/-- A current at a frequency. -/
def current (f rms : ℚ) : Current ℚ := ⟨some ⟨some f, some rms⟩, true⟩

/-- A round wire. -/
def thin : Wire ℚ := { type := .round, diameter := some 1, outerDiameter := some (6 / 5), conductors := some 1 }

/-- A thicker round wire. -/
def thick : Wire ℚ := { type := .round, diameter := some 2, outerDiameter := some (11 / 5), conductors := some 1 }

/-- A rectangular wire. -/
def bar : Wire ℚ := { type := .rectangular, width := some 1, height := some 1, outerWidth := some 1, outerHeight := some 1, conductors := some 1 }

/-- A planar wire. -/
def track : Wire ℚ := { type := .planar, height := some (1 / 10000), conductors := some 1 }

/-- Two turns in one section. -/
def two : Asked := ⟨2, 1⟩

/-- What is advised, as parallels and scores. -/
def shown (x : Res (List (Cand ℚ × ℚ) × ℚ)) : Res (List (Option ℚ × ℤ × ℚ) × ℚ) :=
  x.bind fun y => .ok (y.1.map fun c => (metric c.1, c.1.parallels, c.2), y.2)

/-- **C287, C288.** Two wires, each with the parallels it needs and one more. -/
example : shown (advise everything usual world square (current 1000 15) two 3 [thin, thick]) =
    .ok ([(some (11 / 5), 1, 5), (some (11 / 5), 2, 29 / 7), (some (6 / 5), 2, 26 / 7)], 121 / 625) := by decide +kernel

/-- The hypotheses about the section. -/
example : Sound world square ∧ two.sections ≠ 0 ∧ 0 < two.turns ∧ frequencyOf (current 1000 15) = .ok 1000 ∧ HasData (current 1000 15) 1000 15 := by
  refine ⟨?_, by decide, by decide, rfl, ⟨_, rfl, rfl, rfl⟩⟩
  unfold Sound; decide +kernel

/-- The hypotheses about the thick wire: it is offered with one parallel, and advised with two. -/
example : Offered everything usual world square (current 1000 15) thick ⟨thick, 1⟩ := by
  refine ⟨rfl, by simp [UsedAs, thick], Or.inr ⟨by decide, 1, by decide +kernel, by decide, by decide +kernel, Or.inl rfl⟩⟩

/-- The hypotheses of totality. -/
example : Ready usual world 1000 true thin :=
  ⟨rfl, ⟨6 / 5, 6 / 5, rfl, rfl⟩, ⟨1, rfl⟩, ⟨_, rfl⟩, fun _ => ⟨1, rfl⟩, fun h => by simp [usual] at h⟩

/-- **C289.** A rectangular wire is advised with one parallel whatever the current: here a bar of one square, with a density of twelve, for a
current of fifteen. -/
theorem rectangular_over_density : ∃ (r : List (Cand ℚ × ℚ)) (p : ℚ) (x : Cand ℚ × ℚ),
    advise everything usual world square (current 1000 15) two 1 [bar] = .ok (r, p) ∧ x ∈ r ∧ world.area x.1.wire 1000 = some 1 ∧
      x.1.parallels * usual.density * 1 < 15 :=
  ⟨[(⟨bar, 1⟩, 5)], 1 / 50, (⟨bar, 1⟩, 5), by decide +kernel, by decide +kernel, by decide +kernel, by decide +kernel⟩

/-- **C289.** For a winding without current the first advice is a wire with zero parallels. -/
theorem no_current_no_parallels : ∃ (p t : ℚ), advise everything usual world square (current 1000 0) two 1 [thin] = .ok ([(⟨thin, 0⟩, t)], p) :=
  ⟨0, 5, by decide +kernel⟩

/-- **C293.** Rectangular wires are not looked at in a section without coordinates, though its area is that of cartesian ones. -/
theorem no_coordinates_no_rectangular :
    sectionArea world.pi { square with coord := none } = sectionArea world.pi square ∧
    shown (advise everything usual world { square with coord := none } (current 1000 15) two 9 [bar]) = .ok ([], 0) ∧
    shown (advise everything usual world square (current 1000 15) two 9 [bar]) = .ok ([(some 2, 1, 5), (some 2, 2, 4)], 1 / 25) :=
  ⟨by decide +kernel, by decide +kernel, by decide +kernel⟩

/-- **C297.** One rectangular wire without conducting area makes the whole search throw; a round one does not. -/
theorem rectangular_needs_area :
    advise everything usual world square (current 1000 15) two 9 [thin, { bar with hasArea := false }] = .throws ∧
    shown (advise everything usual world square (current 1000 15) two 9 [{ thin with hasArea := false }]) =
      .ok ([(some (6 / 5), 2, 5), (some (6 / 5), 3, 4)], 54 / 625) :=
  ⟨by decide +kernel, by decide +kernel⟩

/-- **C297.** A direct current makes the search throw. -/
theorem direct_current_throws : advise everything usual world square (current 0 15) two 9 [thin] = .throws := by decide +kernel

/-- **C292.** What is reported after a search of planar wires depends on the searches before: here a winding of three turns, after one
of one turn or alone. -/
theorem planar_remembers : ∃ (r₁ r₂ : List (Cand ℚ × ℚ)) (before after alone : ℚ),
    advisePlanar world 12 4 ⟨1, 1⟩ square (current 1000 (1 / 1000)) ⟨1, 1⟩ 9 [track] 0 = .ok (r₁, before) ∧
    advisePlanar world 12 4 ⟨1, 1⟩ square (current 1000 (1 / 1000)) ⟨3, 1⟩ 9 [track] before = .ok (r₂, after) ∧
    advisePlanar world 12 4 ⟨1, 1⟩ square (current 1000 (1 / 1000)) ⟨3, 1⟩ 9 [track] 0 = .ok (r₂, alone) ∧ alone < after := by
  have h1 : ∃ r, advisePlanar world 12 4 ⟨1, 1⟩ square (current 1000 (1 / 1000)) ⟨1, 1⟩ 9 [track] 0 = .ok (r, 1 / 31250) := by
    have : shown (advisePlanar world 12 4 ⟨1, 1⟩ square (current 1000 (1 / 1000)) ⟨1, 1⟩ 9 [track] 0) =
      .ok ([(some (80001 / 10000), 1, 496 / 175), (some (80001 / 10000), 2, 461 / 175), (some (80001 / 10000), 3, 1208 / 525),
        (some (80001 / 10000), 4, 321 / 175)], 1 / 31250) := by decide +kernel
    unfold shown at this
    obtain ⟨⟨r, p⟩, h2, h3⟩ := bind_ok.mp this
    simp only [Res.ok.injEq, Prod.mk.injEq] at h3
    exact ⟨r, by rw [h2, h3.2]⟩
  obtain ⟨r₁, h1⟩ := h1
  obtain ⟨r₂, h2⟩ : ∃ r, advisePlanar world 12 4 ⟨1, 1⟩ square (current 1000 (1 / 1000)) ⟨3, 1⟩ 9 [track] 0 = .ok (r, 3 / 125000) := by
    have : shown (advisePlanar world 12 4 ⟨1, 1⟩ square (current 1000 (1 / 1000)) ⟨3, 1⟩ 9 [track] 0) =
      .ok ([(some (20001 / 10000), 1, 496 / 175), (some (20001 / 10000), 2, 461 / 175), (some (20001 / 10000), 3, 1208 / 525),
        (some (20001 / 10000), 4, 321 / 175)], 3 / 125000) := by decide +kernel
    unfold shown at this
    obtain ⟨⟨r, p⟩, h2, h3⟩ := bind_ok.mp this
    simp only [Res.ok.injEq, Prod.mk.injEq] at h3
    exact ⟨r, by rw [h2, h3.2]⟩
  obtain ⟨r₃, h3⟩ : ∃ r, advisePlanar world 12 4 ⟨1, 1⟩ square (current 1000 (1 / 1000)) ⟨3, 1⟩ 9 [track] (1 / 31250) = .ok (r, 1 / 31250) := by
    have : shown (advisePlanar world 12 4 ⟨1, 1⟩ square (current 1000 (1 / 1000)) ⟨3, 1⟩ 9 [track] (1 / 31250)) =
      .ok ([(some (20001 / 10000), 1, 496 / 175), (some (20001 / 10000), 2, 461 / 175), (some (20001 / 10000), 3, 1208 / 525),
        (some (20001 / 10000), 4, 321 / 175)], 1 / 31250) := by decide +kernel
    unfold shown at this
    obtain ⟨⟨r, p⟩, h2, h3⟩ := bind_ok.mp this
    simp only [Res.ok.injEq, Prod.mk.injEq] at h3
    exact ⟨r, by rw [h2, h3.2]⟩
  have e : r₃ = r₂ := by
    unfold advisePlanar at h2 h3
    obtain ⟨d, a1, h2⟩ := bind_ok.mp h2
    obtain ⟨l, a2, h2⟩ := bind_ok.mp h2
    obtain ⟨d', b1, h3⟩ := bind_ok.mp h3
    obtain ⟨l', b2, h3⟩ := bind_ok.mp h3
    rw [a1] at b1
    simp only [Res.ok.injEq] at b1
    subst b1
    rw [a2] at b2
    simp only [Res.ok.injEq] at b2
    subst b2
    rw [(finish_spec h3).1, (finish_spec h2).1]
  exact ⟨r₁, r₂, 1 / 31250, 1 / 31250, 3 / 125000, h1, e ▸ h3, h2, by norm_num⟩

/-- **C295.** Twelve turns in four sections, three in each: they have room in their sections, as the same winding of three turns in one
shows, but nothing is offered. -/
theorem planar_sections_ignored :
    copperWidth ⟨1, 1⟩ square (turnsPerSection (K := ℚ) ⟨12, 4⟩) = copperWidth ⟨1, 1⟩ square (turnsPerSection (K := ℚ) ⟨3, 1⟩) ∧
    planarDataset world 12 4 ⟨1, 1⟩ square (current 1000 (1 / 1000)) ⟨12, 4⟩ [track] = .ok [] ∧
    (planarDataset world 12 4 ⟨1, 1⟩ square (current 1000 (1 / 1000)) ⟨3, 1⟩ [track]).bind (fun d => .ok d.length) = .ok 4 :=
  ⟨by decide +kernel, by decide +kernel, by decide +kernel⟩

/-- **C295.** The candidates of a planar wire: one without parallels, and with two, three and four. -/
example : (planarDataset world 12 4 ⟨1, 1⟩ square (current 1000 (1 / 1000)) ⟨3, 1⟩ [track]).bind
    (fun d => .ok (d.map fun c => (c.1.wire.name, c.1.wire.width, c.1.parallels))) =
    .ok [(some "Planar x2 parallels", some 2, 2), (some "Planar x3 parallels", some 2, 3), (some "Planar x4 parallels", some 2, 4),
      (none, some 2, 1)] := by decide +kernel

/-- **C296.** Litz wires for fifty amperes at 100 kHz, with a root that is exact enough for the numbers here. -/
example : synthesize (22 / 7 : ℚ) (fun x => if x < 1 / 10 ^ 6 then 2 / 10 ^ 4 else 4 / 10 ^ 3) true (current 100000 50) 25 (4 * 10 ^ 6) =
    .ok [(1 / 10 ^ 4, 1591)] := by decide +kernel

end Verif.WireAdvice
