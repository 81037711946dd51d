import Verif.Strips.Model
import Verif.SectionInterface.Props
import Mathlib.Tactic.Linarith
import Mathlib.Tactic.NormNum

/-! # Properties of the insulation between windings -/

namespace Verif.Strips

open Verif.SectionInterface

set_option linter.unusedSimpArgs false
set_option linter.unusedSectionVars false
set_option linter.unusedVariables false

variable {K : Type} [Field K] [LinearOrder K] [IsStrictOrderedRing K] [FloorRing K]

/-! ## Tapes -/

/-- The thicknesses a material states. -/
def Stated (tapes : Tapes K) (t : K) : Prop := ∃ v, (some t, v) ∈ tapes

theorem thinnerThickness_spec (tapes : Tapes K) : ∀ acc : Option K,
    (thinnerThickness tapes acc = none ↔ acc = none ∧ ∀ t, ¬ Stated tapes t) ∧
    ∀ x, thinnerThickness tapes acc = some x → (acc = some x ∨ Stated tapes x) ∧
      (∀ a, acc = some a → x ≤ a) ∧ ∀ t, Stated tapes t → x ≤ t := by
  induction tapes with
  | nil =>
    intro acc
    constructor
    · simp [thinnerThickness, Stated]
    · intro x h
      simp only [thinnerThickness] at h
      exact ⟨Or.inl h, fun a e => by rw [h] at e; cases e; exact le_refl _, by rintro t ⟨v, h⟩; simp at h⟩
  | cons p l ih =>
    intro acc
    obtain ⟨o, v⟩ := p
    cases o with
    | none =>
      obtain ⟨h1, h2⟩ := ih acc
      have hs : ∀ t, Stated ((none, v) :: l) t ↔ Stated l t := by intro t; simp [Stated]
      simp only [thinnerThickness, hs]
      exact ⟨h1, h2⟩
    | some th =>
      have hs : ∀ t, Stated ((some th, v) :: l) t ↔ t = th ∨ Stated l t := by
        intro t
        constructor
        · rintro ⟨u, h⟩
          rcases List.mem_cons.mp h with e | e
          · left; simp at e; exact e.1
          · exact Or.inr ⟨u, e⟩
        · rintro (e | ⟨u, h⟩)
          · exact ⟨v, by simp [e]⟩
          · exact ⟨u, by simp [h]⟩
      have key : ∃ acc' : K, thinnerThickness ((some th, v) :: l) acc = thinnerThickness l (some acc') ∧
          (acc' = th ∨ acc = some acc') ∧ acc' ≤ th ∧ ∀ a, acc = some a → acc' ≤ a := by
        cases acc with
        | none => exact ⟨th, rfl, Or.inl rfl, le_refl _, by simp⟩
        | some a =>
          by_cases h : th < a
          · exact ⟨th, by simp [thinnerThickness, h], Or.inl rfl, le_refl _, fun b e => by cases e; exact h.le⟩
          · exact ⟨a, by simp [thinnerThickness, h], Or.inr rfl, not_lt.mp h, fun b e => by cases e; exact le_refl _⟩
      obtain ⟨acc', e, h1, h2, h3⟩ := key
      obtain ⟨i1, i2⟩ := ih (some acc')
      rw [e]
      constructor
      · constructor
        · intro h; have := (i1.mp h).1; simp at this
        · rintro ⟨_, h⟩; exact absurd ((hs th).mpr (Or.inl rfl)) (h th)
      · intro x hx
        obtain ⟨j1, j2, j3⟩ := i2 x hx
        have jx := j2 acc' rfl
        refine ⟨?_, fun a ha => le_trans jx (h3 a ha), fun t ht => ?_⟩
        · rcases j1 with j | j
          · cases j
            rcases h1 with h | h
            · exact Or.inr ((hs _).mpr (Or.inl h))
            · exact Or.inl h
          · exact Or.inr ((hs _).mpr (Or.inr j))
        · rcases (hs t).mp ht with r | r
          · rw [r]; exact le_trans jx h2
          · exact j3 t r

/-- **C334.** `get_thinner_tape_thickness` gives the least of the thicknesses the material states, and `DBL_MAX` exactly
when it states none. -/
theorem thinnest_spec (tapes : Tapes K) :
    (thinnest tapes = none ↔ ∀ t, ¬ Stated tapes t) ∧
    ∀ x, thinnest tapes = some x ↔ Stated tapes x ∧ ∀ t, Stated tapes t → x ≤ t := by
  obtain ⟨h1, h2⟩ := thinnerThickness_spec tapes none
  refine ⟨by unfold thinnest; rw [h1]; simp, fun x => ⟨fun h => ?_, fun ⟨hx, hm⟩ => ?_⟩⟩
  · obtain ⟨a, _, c⟩ := h2 x h
    exact ⟨by simpa using a, c⟩
  · cases hc : thinnest tapes with
    | none => exact absurd hx ((h1.mp hc).2 x)
    | some y =>
      obtain ⟨a, _, c⟩ := h2 y hc
      have ha : Stated tapes y := by simpa using a
      rw [le_antisymm (c x hx) (hm y ha)]

theorem thinnerTapeLoop_fst (tapes : Tapes K) : ∀ acc : Option (K × K),
    (thinnerTapeLoop tapes acc).map Prod.fst = thinnerThickness tapes (acc.map Prod.fst) ∧
    ∀ p, thinnerTapeLoop tapes acc = some p → acc = some p ∨ (some p.1, p.2) ∈ tapes := by
  induction tapes with
  | nil => intro acc; exact ⟨rfl, fun p h => Or.inl h⟩
  | cons q l ih =>
    intro acc
    obtain ⟨o, v⟩ := q
    cases o with
    | none =>
      obtain ⟨a, b⟩ := ih acc
      refine ⟨a, fun p h => ?_⟩
      rcases b p h with h | h
      · exact Or.inl h
      · exact Or.inr (by simp [h])
    | some th =>
      have key : ∀ acc' : K × K, thinnerTapeLoop ((some th, v) :: l) acc = thinnerTapeLoop l (some acc') →
          (acc' = (th, v) ∨ acc = some acc') →
          ∀ p, thinnerTapeLoop ((some th, v) :: l) acc = some p → acc = some p ∨ (some p.1, p.2) ∈ (some th, v) :: l := by
        intro acc' e hd p hp
        rw [e] at hp
        rcases (ih (some acc')).2 p hp with h | h
        · cases h
          rcases hd with hd | hd
          · right; rw [hd]; simp
          · exact Or.inl hd
        · exact Or.inr (by simp [h])
      cases acc with
      | none => exact ⟨by simpa [thinnerTapeLoop, thinnerThickness] using (ih (some (th, v))).1, key (th, v) rfl (Or.inl rfl)⟩
      | some a =>
        by_cases h : th < a.1
        · refine ⟨?_, key (th, v) (by simp [thinnerTapeLoop, h]) (Or.inl rfl)⟩
          simpa [thinnerTapeLoop, thinnerThickness, h] using (ih (some (th, v))).1
        · refine ⟨?_, key a (by simp [thinnerTapeLoop, h]) (Or.inr rfl)⟩
          simpa [thinnerTapeLoop, thinnerThickness, h] using (ih (some a)).1

/-- **C334 (partial).** The two queries agree on the thinnest tape whenever the material states a thickness, and the tape
is one of the material. -/
theorem thinner_agree_partial (tapes : Tapes K) (x : K) (h : thinnest tapes = some x) :
    (thinnerTape tapes).1 = x ∧ (some (thinnerTape tapes).1, (thinnerTape tapes).2) ∈ tapes := by
  obtain ⟨a, b⟩ := thinnerTapeLoop_fst tapes none
  unfold thinnerTape
  cases hc : thinnerTapeLoop tapes none with
  | none => rw [hc] at a; unfold thinnest at h; simp only [Option.map_none] at a; rw [← a] at h; simp at h
  | some p =>
    rw [hc] at a
    simp only [Option.map_some, Option.map_none] at a
    unfold thinnest at h
    rw [← a] at h
    simp only [Option.some.injEq] at h
    refine ⟨h, ?_⟩
    rcases b p hc with e | e
    · simp at e
    · exact e

/-- **C334, negation.** For a material that states no thickness the two queries disagree: `get_thinner_tape` gives a
thickness of 0, `get_thinner_tape_thickness` gives `DBL_MAX`. -/
theorem thinner_disagree (tapes : Tapes K) (h : ∀ t, ¬ Stated tapes t) :
    thinnerTape tapes = (0, 0) ∧ thinnest tapes = none := by
  have hn := (thinnest_spec tapes).1.mpr h
  refine ⟨?_, hn⟩
  obtain ⟨a, _⟩ := thinnerTapeLoop_fst tapes none
  unfold thinnerTape
  cases hc : thinnerTapeLoop tapes none with
  | none => rfl
  | some p => rw [hc] at a; unfold thinnest at hn; simp only [Option.map_some, Option.map_none] at a; rw [hn] at a; simp at a

theorem extract_mem (tapes : Tapes K) : ∀ (acc : List (K × K)) (p : K × K),
    p ∈ extract tapes acc ↔ p ∈ acc ∨ ∃ t v, (some t, v) ∈ tapes ∧ p = (t, t * v) := by
  induction tapes with
  | nil => intro acc p; simp [extract]
  | cons q l ih =>
    intro acc p
    obtain ⟨o, v⟩ := q
    cases o with
    | none => simp [extract, ih]
    | some th =>
      simp only [extract, ih]
      have hm : p ∈ (if (th, th * v) ∈ acc then acc else acc ++ [(th, th * v)]) ↔ p ∈ acc ∨ p = (th, th * v) := by
        by_cases h : (th, th * v) ∈ acc
        · rw [if_pos h]
          exact ⟨Or.inl, fun h' => h'.elim id (fun e => by rw [e]; exact h)⟩
        · rw [if_neg h]; simp
      rw [hm]
      constructor
      · rintro ((h | h) | ⟨t, u, h, e⟩)
        · exact Or.inl h
        · exact Or.inr ⟨th, v, by simp, h⟩
        · exact Or.inr ⟨t, u, by simp [h], e⟩
      · rintro (h | ⟨t, u, h, e⟩)
        · exact Or.inl (Or.inl h)
        · rcases List.mem_cons.mp h with h | h
          · simp at h
            rw [h.1, h.2] at e
            exact Or.inl (Or.inr e)
          · exact Or.inr ⟨t, u, h, e⟩

theorem extract_nodup (tapes : Tapes K) : ∀ acc : List (K × K), acc.Nodup → (extract tapes acc).Nodup := by
  induction tapes with
  | nil => intro acc h; exact h
  | cons q l ih =>
    intro acc h
    obtain ⟨o, v⟩ := q
    cases o with
    | none => exact ih acc h
    | some th =>
      simp only [extract]
      by_cases hm : (th, th * v) ∈ acc
      · rw [if_pos hm]; exact ih acc h
      · rw [if_neg hm]
        refine ih _ (List.nodup_append.mpr ⟨h, by simp, ?_⟩)
        intro a ha b hb e
        simp at hb
        rw [e, hb] at ha
        exact hm ha

/-- **C335.** The available thicknesses are, each once, the stated thicknesses with the voltage they withstand, and
extracting them again changes nothing. -/
theorem available (tapes : Tapes K) :
    (extract tapes []).Nodup ∧ (∀ p : K × K, p ∈ extract tapes [] ↔ ∃ t v, (some t, v) ∈ tapes ∧ p = (t, t * v)) ∧
    extract tapes (extract tapes []) = extract tapes [] := by
  have hid : ∀ (l : Tapes K) (acc : List (K × K)), (∀ t v, (some t, v) ∈ l → (t, t * v) ∈ acc) → extract l acc = acc := by
    intro l
    induction l with
    | nil => intro acc _; rfl
    | cons q l ih =>
      intro acc h
      obtain ⟨o, v⟩ := q
      cases o with
      | none => exact ih acc (fun t u hm => h t u (by simp [hm]))
      | some th =>
        simp only [extract]
        rw [if_pos (h th v (by simp))]
        exact ih acc (fun t u hm => h t u (by simp [hm]))
  refine ⟨extract_nodup tapes [] List.nodup_nil, fun p => by rw [extract_mem]; simp, ?_⟩
  apply hid
  intro t v h
  rw [extract_mem]
  exact Or.inr ⟨t, v, h, rfl⟩

/-! ## Strips -/

/-- **C336.** In a rectangular window the layers and the section of a strip lie along the orientation of the windings,
whatever orientation was asked for the layers; in a round one their dimensions do. -/
theorem along_windings (angle : K → K → K) (w : Window K) (winding layers : Orientation) (i : Interface K) (each total : K) :
    let s := build angle w winding layers i each total
    s.layer = dims angle w winding each ∧ s.area = dims angle w winding total ∧
      (w.rectangular = true → s.layerOrientation = winding ∧ s.sectionOrientation = winding) := by
  obtain ⟨r, a, b⟩ := w
  cases r <;> cases winding <;> cases layers <;> simp [build, normalise, dims]

/-- **C336.** Overlapping windings have insulation of that thickness across, as long as the window; contiguous ones have it as wide as
the window, of that thickness along, which round windows measure as an angle. -/
theorem thickness_direction (angle : K → K → K) (w : Window K) (layers : Orientation) (i : Interface K) (each total : K) :
    (build angle w .overlapping layers i each total).layer = (each, w.along) ∧
      (build angle w .overlapping layers i each total).area = (total, w.along) ∧
      (build angle w .contiguous layers i each total).layer = (w.across, if w.rectangular then each else angle each w.across) ∧
      (build angle w .contiguous layers i each total).area = (w.across, if w.rectangular then total else angle total w.across) := by
  obtain ⟨r, a, b⟩ := w
  cases r <;> cases layers <;> simp [build, normalise, dims]

/-- The pairs visited. -/
theorem mem_pairs (n : Nat) (same : Bool) (i j : Nat) :
    (i, j) ∈ pairs n same ↔ i < n ∧ j < n ∧ (same = true ∨ i ≠ j) := by
  simp only [pairs, List.mem_flatMap, List.mem_range, List.mem_map, List.mem_filter, Prod.mk.injEq]
  constructor
  · rintro ⟨a, ha, b, ⟨hb, hc⟩, rfl, rfl⟩
    exact ⟨ha, hb, by simpa using hc⟩
  · rintro ⟨h1, h2, h3⟩
    exact ⟨i, h1, j, ⟨h2, by simpa using h3⟩, rfl, rfl⟩

/-- **C337.** Mechanical insulation: one layer, which fills its section, as thick as the thinnest tape of the default
material, which is what the interface reports. -/
theorem mechanical_fills (angle : K → K → K) (w : Window K) (winding layers : Orientation) (m : Tapes K) (t : K)
    (h : thinnest m = some t) : ∃ s, mechanical angle w winding layers m = .strip s ∧ s.count = 1 ∧ s.layer = s.area ∧
      s.area = dims angle w winding t ∧ s.interface.layers = 1 ∧ s.interface.thickness = t := by
  refine ⟨build angle w winding layers ⟨1, t, 0, true⟩ t t, by simp [mechanical, h], rfl, ?_, ?_, rfl, rfl⟩
  · rw [(along_windings angle w winding layers _ t t).1, (along_windings angle w winding layers _ t t).2.1]
  · exact (along_windings angle w winding layers _ t t).2.1

/-- **C338 (partial).** Custom insulation: one layer of the thickness asked for, which fills its section. -/
theorem custom_fills_partial (angle : K → K → K) (w : Window K) (winding layers : Orientation) (thickness : K) (m : Tapes K)
    (t : K) (h : thinnest m = some t) : ∃ s, custom angle w winding layers thickness m = .strip s ∧ s.count = 1 ∧
      s.layer = s.area ∧ s.area = dims angle w winding thickness ∧ s.interface.thickness = t := by
  refine ⟨build angle w winding layers ⟨1, t, 0, true⟩ thickness thickness, by simp [custom, h], rfl, ?_, ?_, rfl⟩
  · rw [(along_windings angle w winding layers _ thickness thickness).1,
      (along_windings angle w winding layers _ thickness thickness).2.1]
  · exact (along_windings angle w winding layers _ thickness thickness).2.1

/-- **C338, negation.** The interface does not report the thickness asked for, unless it is that of the tape. -/
theorem custom_misreported (angle : K → K → K) (w : Window K) (winding layers : Orientation) (thickness : K) (m : Tapes K)
    (t : K) (h : thinnest m = some t) (hne : thickness ≠ t) (s : Strip K)
    (hs : custom angle w winding layers thickness m = .strip s) : s.interface.thickness ≠ thickness := by
  obtain ⟨s', e, _, _, _, h4⟩ := custom_fills_partial angle w winding layers thickness m t h
  rw [e] at hs
  cases hs
  rw [h4]
  exact hne.symm

/-- **C339 (partial).** The simple mode with margin tape: one layer that fills its section. -/
theorem simple_fills_partial (angle : K → K → K) (w : Window K) (winding layers : Orientation) (creepage : K) (m : Tapes K)
    (t : K) (h : thinnest m = some t) : ∃ s, simple angle w winding layers true creepage m = .strip s ∧ s.count = 1 ∧
      s.layer = s.area ∧ s.interface.thickness = s.interface.layers * t := by
  refine ⟨build angle w winding layers ⟨1, t, creepage, false⟩ t t, by simp [simple, h, simpleInterface], rfl, ?_, ?_⟩
  · rw [(along_windings angle w winding layers _ t t).1, (along_windings angle w winding layers _ t t).2.1]
  · simp [build]

/-- **C339, negation.** The simple mode without margin tape: three layers in a section as thick as one, which is also
the thickness reported. -/
theorem simple_overflows (angle : K → K → K) (w : Window K) (winding layers : Orientation) (creepage : K) (m : Tapes K)
    (t : K) (h : thinnest m = some t) (ht : 0 < t) : ∃ s, simple angle w winding layers false creepage m = .strip s ∧
      s.count = 3 ∧ s.layer = s.area ∧ s.interface.thickness < s.interface.layers * t := by
  refine ⟨build angle w winding layers ⟨3, t, 0, false⟩ t t, by simp [simple, h, simpleInterface], rfl, ?_, ?_⟩
  · rw [(along_windings angle w winding layers _ t t).1, (along_windings angle w winding layers _ t t).2.1]
  · simp only [build]
    push_cast
    linarith

/-! ## The choice of the material -/

/-- What each material of the catalogue offers. -/
def Offers (q : Question K) (cls : Cls) (m : Tapes K) (i : Interface K) : Prop := (ask q cls m).1 = .ok (some i)

/-- The coordinator leaves the insulation type of the inputs as it was whenever it does not throw. -/
def Keeps (q : Question K) : Prop := ∀ cls m o, (ask q cls m).1 = .ok o → (ask q cls m).2 = cls

/-- `search_spec` in one piece: what was best stays best, or the result is the first of the materials with the least
thickness. -/
def Best (q : Question K) (cls : Cls) (ms : List (Tapes K)) (best : Option (Interface K × Tapes K)) (b : Interface K × Tapes K) :
    Prop :=
  (best = some b ∧ ∀ m ∈ ms, ∀ i, Offers q cls m i → b.1.thickness ≤ i.thickness) ∨
  ∃ pre post, ms = pre ++ b.2 :: post ∧ Offers q cls b.2 b.1 ∧ (∀ b0, best = some b0 → b.1.thickness < b0.1.thickness) ∧
    (∀ m ∈ pre, ∀ i, Offers q cls m i → b.1.thickness < i.thickness) ∧
    (∀ m ∈ post, ∀ i, Offers q cls m i → b.1.thickness ≤ i.thickness)

theorem search_spec (q : Question K) (hk : Keeps q) (cls : Cls) (ms : List (Tapes K)) : ∀ (best r : Option (Interface K × Tapes K)),
    (search q cls ms best).1 = .ok r →
    (r = none ↔ best = none ∧ ∀ m ∈ ms, ∀ i, ¬ Offers q cls m i) ∧ (∀ b, r = some b → Best q cls ms best b) := by
  induction ms with
  | nil =>
    intro best r h
    simp only [search, Res.ok.injEq] at h
    subst h
    exact ⟨by simp, fun b h => Or.inl ⟨h, by simp⟩⟩
  | cons m ms ih =>
    intro best r h
    have hkm := hk cls m
    unfold search at h
    cases ha : ask q cls m with
    | mk o cls' =>
      rw [ha] at h hkm
      cases o with
      | throw => simp at h
      | ub => simp at h
      | ok o =>
        have hc : cls' = cls := hkm o rfl
        subst hc
        cases o with
        | none =>
          simp only [] at h
          have hno : ∀ i, ¬ Offers q cls' m i := by intro i hi; unfold Offers at hi; rw [ha] at hi; simp at hi
          obtain ⟨h1, h2⟩ := ih best r h
          refine ⟨by rw [h1]; simp [hno], fun b hb => ?_⟩
          rcases h2 b hb with ⟨e, f⟩ | ⟨pre, post, e, f, g, i1, i2⟩
          · left
            refine ⟨e, fun m' hm' i hi => ?_⟩
            rcases List.mem_cons.mp hm' with e' | e'
            · subst e'; exact absurd hi (hno i)
            · exact f m' e' i hi
          · right
            refine ⟨m :: pre, post, by simp [e], f, g, fun m' hm' i hi => ?_, i2⟩
            rcases List.mem_cons.mp hm' with e' | e'
            · subst e'; exact absurd hi (hno i)
            · exact i1 m' e' i hi
        | some i =>
          simp only [] at h
          have hoff : ∀ i', Offers q cls' m i' → i' = i := by
            intro i' hi; unfold Offers at hi; rw [ha] at hi; simp at hi; exact hi.symm
          have hoff' : Offers q cls' m i := by unfold Offers; rw [ha]
          obtain ⟨h1, h2⟩ := ih (better best i m) r h
          have hcase : (better best i m = some (i, m) ∧ ∀ b0, best = some b0 → i.thickness < b0.1.thickness) ∨
              ∃ b0, best = some b0 ∧ better best i m = some b0 ∧ b0.1.thickness ≤ i.thickness := by
            cases best with
            | none => exact Or.inl ⟨rfl, by simp⟩
            | some b0 =>
              by_cases hl : i.thickness < b0.1.thickness
              · exact Or.inl ⟨by simp [better, hl], fun b e => by cases e; exact hl⟩
              · exact Or.inr ⟨b0, rfl, by simp [better, hl], not_lt.mp hl⟩
          constructor
          · have hne : better best i m ≠ none := by
              rcases hcase with ⟨e, _⟩ | ⟨b0, _, e, _⟩ <;> rw [e] <;> simp
            constructor
            · intro hr; exact absurd (h1.mp hr).1 hne
            · rintro ⟨_, hm⟩; exact absurd hoff' (hm m (by simp) i)
          · intro b hb
            rcases hcase with ⟨e, hlt⟩ | ⟨b0, e0, e, hle⟩
            · rcases h2 b hb with ⟨e', f⟩ | ⟨pre, post, e', f, g, i1, i2⟩
              · rw [e] at e'
                cases e'
                exact Or.inr ⟨[], ms, rfl, hoff', hlt, by simp, f⟩
              · have hlt' := g (i, m) e
                refine Or.inr ⟨m :: pre, post, by simp [e'], f, fun b0 h0 => lt_trans hlt' (hlt b0 h0), ?_, i2⟩
                intro m' hm' i' hi'
                rcases List.mem_cons.mp hm' with e2 | e2
                · subst e2; rw [hoff i' hi']; exact hlt'
                · exact i1 m' e2 i' hi'
            · rcases h2 b hb with ⟨e', f⟩ | ⟨pre, post, e', f, g, i1, i2⟩
              · rw [e] at e'
                cases e'
                refine Or.inl ⟨e0, fun m' hm' i' hi' => ?_⟩
                rcases List.mem_cons.mp hm' with e2 | e2
                · subst e2; rw [hoff i' hi']; exact hle
                · exact f m' e2 i' hi'
              · have hlt' := g b0 e
                refine Or.inr ⟨m :: pre, post, by simp [e'], f, fun b1 h1 => ?_, ?_, i2⟩
                · rw [e0] at h1; cases h1; exact hlt'
                · intro m' hm' i' hi'
                  rcases List.mem_cons.mp hm' with e2 | e2
                  · subst e2; rw [hoff i' hi']; exact lt_of_lt_of_le hlt' hle
                  · exact i1 m' e2 i' hi'

theorem keeps (q : Question K) : Keeps q := by
  intro cls m o h
  unfold ask calculate at *
  by_cases ht : (thickerTape m (0, 0)).1 = 0
  · simp [ht]
  · simp only [ht, if_false] at h ⊢
    cases hc : q.coord with
    | none => rfl
    | some co =>
      rw [hc] at h
      simp only at h ⊢
      by_cases ha : q.allowMargin = false ∧ q.allowWire = false
      · simp [ha]
      · simp only [ha, if_false] at h ⊢
        cases cls with
        | double =>
          simp only at h ⊢
          revert h
          generalize hd : chooseDouble q.left q.right q.fiw q.allowWire q.withstand co.withstand co.creepage
            (thickerTape m (0, 0)).2 (thickerTape m (0, 0)).1 = d
          obtain ⟨x, c⟩ := d
          cases x with
          | throw => simp
          | ub => simp
          | ok y =>
            intro _
            simp only
            unfold chooseDouble at hd
            repeat' split at hd
            all_goals simp_all
        | functional =>
          simp only at h ⊢
          split <;> rfl
        | basic =>
          simp only at h ⊢
          split <;> rfl
        | supplementary =>
          simp only at h ⊢
          split <;> rfl
        | reinforced =>
          simp only at h ⊢
          split <;> rfl

/-- What a material offers is as thick as its layers made of its thickest tape, and there is at least one layer. -/
theorem offer_thick {q : Question K} {cls : Cls} {m : Tapes K} {i : Interface K} (h : Offers q cls m i) :
    i.thickness = (thickerTape m (0, 0)).1 * i.layers ∧ 1 ≤ i.layers ∧ 0 < (thickerTape m (0, 0)).1 := by
  unfold Offers ask at h
  have h' : calculate cls m q.left q.right q.fiw q.allowMargin q.allowWire q.coord q.withstand =
      (.ok (some i), (calculate cls m q.left q.right q.fiw q.allowMargin q.allowWire q.coord q.withstand).2) := by
    rw [← h]
  obtain ⟨t, ds, co, _, _, _, hl, _⟩ := interface_partial h'
  obtain ⟨ht0, _, _⟩ := tape_is_thickest m
  unfold calculate at h
  by_cases ht : (thickerTape m (0, 0)).1 = 0
  · simp [ht] at h
  · refine ⟨?_, hl, lt_of_le_of_ne ht0 (Ne.symm ht)⟩
    simp only [ht, if_false] at h
    split at h
    · simp at h
    · split at h
      · simp at h
      · split at h
        · simp at h
        · simp at h
        · simp only [Res.ok.injEq] at h
          unfold finish at h
          split at h
          · simp at h
          · simp only [Option.some.injEq] at h
            rw [← h]

/-- **C340.** The insulation between two windings, when it is built, is of the first of the materials of the catalogue
whose interface is the thinnest; it has as many layers as that interface. -/
theorem material_least (angle : K → K → K) (w : Window K) (winding layers : Orientation) (q : Question K) (cls : Cls)
    (catalogue : List (Tapes K)) (s : Strip K) (h : required angle w winding layers q cls catalogue = .strip s) :
    ∃ pre m post, catalogue = pre ++ m :: post ∧ Offers q cls m s.interface ∧ s.count = s.interface.layers ∧
      (∀ m' ∈ pre, ∀ i, Offers q cls m' i → s.interface.thickness < i.thickness) ∧
      (∀ m' ∈ post, ∀ i, Offers q cls m' i → s.interface.thickness ≤ i.thickness) ∧
      ∃ t, thinnest m = some t ∧ s = build angle w winding layers s.interface t s.interface.thickness := by
  unfold required at h
  cases hs : (search q cls catalogue none).1 with
  | throw => rw [hs] at h; simp at h
  | ub => rw [hs] at h; simp at h
  | ok r =>
    rw [hs] at h
    cases r with
    | none => simp at h
    | some b =>
      simp only [] at h
      unfold ofMaterial at h
      cases ht : thinnest b.2 with
      | none => rw [ht] at h; simp at h
      | some t =>
        rw [ht] at h
        simp only [Built.strip.injEq] at h
        rcases (search_spec q (keeps q) cls catalogue none (some b) hs).2 b rfl with ⟨e, _⟩ | ⟨pre, post, e, f, _, i1, i2⟩
        · simp at e
        · subst h
          exact ⟨pre, b.2, post, e, f, rfl, i1, i2, t, ht, rfl⟩

/-- What every material answers is not an exception nor undefined. -/
def Answers (q : Question K) (cls : Cls) (catalogue : List (Tapes K)) : Prop :=
  ∀ m ∈ catalogue, ∃ o, (ask q cls m).1 = .ok o

theorem search_answers (q : Question K) (cls : Cls) (ms : List (Tapes K)) : ∀ best, Answers q cls ms →
    ∃ r, (search q cls ms best).1 = .ok r := by
  induction ms with
  | nil => intro best _; exact ⟨best, rfl⟩
  | cons m ms ih =>
    intro best ha
    obtain ⟨o, ho⟩ := ha m (by simp)
    have hk := keeps q cls m o ho
    have ha' : Answers q cls ms := fun m' hm' => ha m' (by simp [hm'])
    unfold search
    cases hq : ask q cls m with
    | mk x c =>
      rw [hq] at ho hk
      simp only at ho hk
      subst ho; subst hk
      cases o with
      | none => exact ih best ha'
      | some i => exact ih _ ha'

/-- **C341.** When the coordinator answers for every material, the insulation between two windings cannot be built
exactly when no material offers an interface; then an exception is raised. Otherwise a strip is built. -/
theorem built_iff (angle : K → K → K) (w : Window K) (winding layers : Orientation) (q : Question K) (cls : Cls)
    (catalogue : List (Tapes K)) (ha : Answers q cls catalogue) :
    (required angle w winding layers q cls catalogue = .throw ↔ ∀ m ∈ catalogue, ∀ i, ¬ Offers q cls m i) ∧
    ((∃ s, required angle w winding layers q cls catalogue = .strip s) ↔ ∃ m ∈ catalogue, ∃ i, Offers q cls m i) := by
  obtain ⟨r, hr⟩ := search_answers q cls catalogue none ha
  obtain ⟨h1, h2⟩ := search_spec q (keeps q) cls catalogue none r hr
  cases r with
  | none =>
    have hn := (h1.mp rfl).2
    have e : required angle w winding layers q cls catalogue = .throw := by unfold required; rw [hr]
    rw [e]
    refine ⟨by simpa using hn, ⟨by rintro ⟨s, hs⟩; simp at hs, ?_⟩⟩
    rintro ⟨m, hm, i, hi⟩
    exact absurd hi (hn m hm i)
  | some b =>
    rcases h2 b rfl with ⟨e, _⟩ | ⟨pre, post, e, f, _, _, _⟩
    · simp at e
    · obtain ⟨_, _, hpos⟩ := offer_thick f
      have hst : Stated b.2 (thickerTape b.2 (0, 0)).1 := by
        rcases (tape_is_thickest b.2).2.2 with h | h
        · exact absurd h (ne_of_gt hpos)
        · exact ⟨_, h⟩
      have hth : ∃ t, thinnest b.2 = some t := by
        cases ht : thinnest b.2 with
        | some t => exact ⟨t, rfl⟩
        | none => exact absurd hst ((thinnest_spec b.2).1.mp ht _)
      obtain ⟨t, ht⟩ := hth
      have er : ∃ s, required angle w winding layers q cls catalogue = .strip s := by
        refine ⟨build angle w winding layers b.1 t b.1.thickness, ?_⟩
        unfold required
        rw [hr]
        simp only [ofMaterial, ht]
      have hm : b.2 ∈ catalogue := by rw [e]; simp
      refine ⟨⟨fun h => ?_, fun h => absurd f (h b.2 hm b.1)⟩, ⟨fun _ => ⟨b.2, hm, b.1, f⟩, fun _ => er⟩⟩
      obtain ⟨s, es⟩ := er
      rw [es] at h
      simp at h

/-- The thickness of a stack of layers laid one on another. -/
def stack (n : Nat) (t : K) : K := (List.replicate n t).sum

theorem stack_eq (n : Nat) (t : K) : stack n t = n * t := by
  simp [stack]

/-- **C342 (partial).** When the material of the strip states one thickness only, the layers built add up to the
thickness reported, which is that of the section. -/
theorem layers_fill_partial (angle : K → K → K) (w : Window K) (winding layers : Orientation) (q : Question K) (cls : Cls)
    (catalogue : List (Tapes K)) (s : Strip K) (h : required angle w winding layers q cls catalogue = .strip s)
    (hone : ∀ m ∈ catalogue, ∀ t u, Stated m t → Stated m u → t = u) :
    ∃ t, s.layer = dims angle w winding t ∧ s.area = dims angle w winding (stack s.count t) ∧
      s.interface.thickness = stack s.count t := by
  obtain ⟨pre, m, post, e, f, hc, _, _, t, ht, hs⟩ := material_least angle w winding layers q cls catalogue s h
  obtain ⟨hthick, _, hpos⟩ := offer_thick f
  have hst : Stated m (thickerTape m (0, 0)).1 := by
    rcases (tape_is_thickest m).2.2 with h | h
    · exact absurd h (ne_of_gt hpos)
    · exact ⟨_, h⟩
  have hm : m ∈ catalogue := by rw [e]; simp
  have heq := hone m hm _ _ hst (((thinnest_spec m).2 t).mp ht).1
  have hsum : s.interface.thickness = stack s.count t := by rw [stack_eq, hthick, hc, heq, mul_comm]
  obtain ⟨a, b, _⟩ := along_windings angle w winding layers s.interface t s.interface.thickness
  rw [← hs] at a b
  exact ⟨t, a, by rw [b, hsum], hsum⟩

/-- **C342, negation.** Whenever the material of the strip states two thicknesses, the layers built add up to less than
the thickness reported: they are counted as the thickest tape and built as the thinnest. -/
theorem layers_short (angle : K → K → K) (w : Window K) (winding layers : Orientation) (q : Question K) (cls : Cls)
    (catalogue : List (Tapes K)) (s : Strip K) (h : required angle w winding layers q cls catalogue = .strip s)
    (htwo : ∀ m ∈ catalogue, ∃ t u, Stated m t ∧ Stated m u ∧ t < u) :
    ∃ t, s.layer = dims angle w winding t ∧ s.area = dims angle w winding s.interface.thickness ∧
      stack s.count t < s.interface.thickness := by
  obtain ⟨pre, m, post, e, f, hc, _, _, t, ht, hs⟩ := material_least angle w winding layers q cls catalogue s h
  obtain ⟨hthick, hl, hpos⟩ := offer_thick f
  obtain ⟨a, b, _⟩ := along_windings angle w winding layers s.interface t s.interface.thickness
  rw [← hs] at a b
  refine ⟨t, a, b, ?_⟩
  have hm : m ∈ catalogue := by rw [e]; simp
  obtain ⟨x, u, hx, ⟨v, hu⟩, hlt⟩ := htwo m hm
  have h1 := (((thinnest_spec m).2 t).mp ht).2 x hx
  have h2 := (tape_is_thickest m).2.1 u v hu
  rw [stack_eq, hthick, hc, mul_comm]
  have hlp : (0 : K) < s.interface.layers := by exact_mod_cast hl
  exact mul_lt_mul_of_pos_right (by linarith) hlp

/-- Reinforced insulation through 0.4 mm of a material sold at 50 µm and 100 µm, between enamelled wires. -/
def sampleQuestion : Question ℚ where
  left := ⟨false, none, none⟩
  right := ⟨false, none, none⟩
  fiw := true
  allowMargin := true
  allowWire := true
  coord := some ⟨4000, 6 / 1000, 4 / 10 ^ 4⟩
  withstand := fun _ => some 2000

def sampleCatalogue : List (Tapes ℚ) := [[(none, 7)], [(some (5 / 10 ^ 5), 10 ^ 9), (some (1 / 10 ^ 4), 10 ^ 9)]]

/-- What a strip comes to, for evaluation. -/
def Built.summary : Built ℚ → Option (Nat × (ℚ × ℚ) × (ℚ × ℚ))
  | .strip s => some (s.count, s.layer, s.area)
  | _ => none

/-- **C342, negation: witness.** 0.4 mm are required through the insulation, four layers of 50 µm are built: half of it. -/
theorem half_insulation :
    (required (fun _ _ => 0) ⟨true, 1 / 100, 2 / 100⟩ .overlapping .contiguous sampleQuestion .reinforced sampleCatalogue).summary
      = some (4, (5 / 10 ^ 5, 2 / 100), (4 / 10 ^ 4, 2 / 100)) ∧ stack 4 (5 / 10 ^ 5 : ℚ) = 2 / 10 ^ 4 :=
  ⟨by decide +kernel, by rw [stack_eq]; norm_num⟩

/-- The same with one thickness only: four layers of 100 µm, all of it. -/
example : (required (fun _ _ => 0) ⟨true, 1 / 100, 2 / 100⟩ .overlapping .contiguous sampleQuestion .reinforced
    [[(none, 7)], [(some (1 / 10 ^ 4), 10 ^ 9)]]).summary = some (4, (1 / 10 ^ 4, 2 / 100), (4 / 10 ^ 4, 2 / 100)) := by
  decide +kernel

/-- No material with tapes: an exception. -/
example : required (fun _ _ => 0) ⟨true, 1 / 100, 2 / 100⟩ .overlapping .contiguous sampleQuestion .reinforced
    [[(none, 7)]] = .throw := by rfl

/-- The thinnest tape of a material, and none. -/
example : thinnest (K := ℚ) [(some 3, 1), (none, 9), (some 2, 5), (some 2, 6)] = some 2 ∧ thinnest (K := ℚ) [(none, 9)] = none := by
  decide +kernel

/-- A thickness stated twice with the same strength is available once. -/
example : extract (K := ℚ) [(some 3, 1), (some 2, 5), (some 3, 1), (none, 9)] [] = [(3, 3), (2, 10)] := by decide +kernel

/-- The pairs of two windings, with and without a winding with itself. -/
example : pairs 2 false = [(0, 1), (1, 0)] ∧ pairs 2 true = [(0, 0), (0, 1), (1, 0), (1, 1)] := by decide

/-- The hypotheses of the mechanical, custom and simple strips are met. -/
example : thinnest (K := ℚ) [(some (5 / 10 ^ 5), 10 ^ 9)] = some (5 / 10 ^ 5) ∧ (0 : ℚ) < 5 / 10 ^ 5 := by decide +kernel

end Verif.Strips
