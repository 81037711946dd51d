import Verif.Fitting.Model
import Mathlib.Algebra.BigOperators.Group.List.Basic
import Mathlib.Algebra.Order.BigOperators.Group.List
import Mathlib.Tactic.Ring

/-! # Properties of the checks of whether a coil fits -/

namespace Verif.Fitting

open Verif.Round

set_option linter.unusedSimpArgs false
set_option linter.unusedSectionVars false
set_option linter.unusedVariables false

variable {K : Type} [Field K] [LinearOrder K] [IsStrictOrderedRing K] [FloorRing K]

/-! ## Specification -/

/-- A quotient does not exceed the limit, to six decimals. -/
def Within (b : K) : Ratio K → Prop
  | .num x => roundFloat x 6 ≤ b
  | .inf p => p = false
  | .nan => True

/-- The rectangle of a turn of a wire of outer width `ww` and height `wh` lies in a window, but for a tolerance. -/
def Inside (horizontal : Bool) (t : Turn K) (ww wh : K) (e : K × K × K × K) : Prop :=
  (horizontal = false → e.1 - 1 / 10 ^ 9 ≤ t.x - ww / 2 ∧ t.x + ww / 2 ≤ e.2.1 + 1 / 10 ^ 9) ∧
    e.2.2.1 - 1 / 10 ^ 9 ≤ t.y - wh / 2 ∧ t.y + wh / 2 ≤ e.2.2.2 + 1 / 10 ^ 9

/-- What it is for a coil to be accepted. -/
structure Accepted (cfg : Config) (c : Coil K) (sections : List (Section K)) (layers : List (Layer K)) : Prop where
  hasSections : c.sections = some sections
  hasLayers : c.layers = some layers
  sectionsWithin : cfg.horizontal = false → ∀ s ∈ sections, ∃ f, s.ff = some f ∧ Within (limit cfg.squish) (.num f) ∧
    Within (limit cfg.squish) (overlappingFactor layers s) ∧ Within (limit cfg.squish) (contiguousFactor layers s)
  layersWithin : ∀ l ∈ layers, ∃ f, l.ff = some f ∧ Within (limit cfg.squish) (.num f)
  turnsWithin : c.planar = false → ∀ ws, c.windows = some ws → ws ≠ [] →
    (∀ s ∈ sections, ∃ i, windowIndex s = some i) ∧
    ∀ turns, c.turns = some turns → ∀ t ∈ turns, ∀ e, envelope c.sidesApplied ws (turnWindow sections t) = some e →
      ∃ wire : K × K, wireOf c.wires t.winding = some wire ∧ Inside cfg.horizontal t wire.1 wire.2 e

theorem over_false (b : K) (r : Ratio K) : r.over b = false ↔ Within b r := by
  cases r with
  | num x => simp [Ratio.over, Within]
  | inf p => simp [Ratio.over, Within]
  | nan => simp [Ratio.over, Within]

theorem sectionsFit_true (cfg : Config) (layers : List (Layer K)) (l : List (Section K)) :
    sectionsFit cfg layers l = some true ↔ ∀ s ∈ l, sectionOver cfg layers s = some false := by
  induction l with
  | nil => simp [sectionsFit]
  | cons s r ih =>
    simp only [sectionsFit, List.forall_mem_cons]
    rw [← ih]
    cases sectionOver cfg layers s with
    | none => simp
    | some b => cases hr : sectionsFit cfg layers r with
      | none => simp
      | some c => cases b <;> simp

theorem sectionOver_false (cfg : Config) (layers : List (Layer K)) (s : Section K) :
    sectionOver cfg layers s = some false ↔ (cfg.horizontal = false → ∃ f, s.ff = some f ∧ Within (limit cfg.squish) (.num f) ∧
      Within (limit cfg.squish) (overlappingFactor layers s) ∧ Within (limit cfg.squish) (contiguousFactor layers s)) := by
  unfold sectionOver
  cases cfg.horizontal with
  | true => simp
  | false =>
    cases s.ff with
    | none => simp
    | some f =>
      simp only [Bool.false_eq_true, if_false, Option.some.injEq, Bool.or_eq_false_iff, over_false, exists_eq_left', true_implies]
      tauto

theorem layersFit_true (cfg : Config) (l : List (Layer K)) :
    layersFit cfg l = some true ↔ ∀ x ∈ l, ∃ f, x.ff = some f ∧ Within (limit cfg.squish) (.num f) := by
  induction l with
  | nil => simp [layersFit]
  | cons s r ih =>
    simp only [layersFit, List.forall_mem_cons]
    rw [← ih]
    cases s.ff with
    | none => simp
    | some f =>
      simp only [Option.some.injEq, exists_eq_left']
      rw [← over_false]
      cases hr : layersFit cfg r with
      | none => simp
      | some c => simp

theorem isOut_false (horizontal : Bool) (t : Turn K) (w : K × K) (e : K × K × K × K) :
    isOut horizontal t w e = false ↔ Inside horizontal t w.1 w.2 e := by
  unfold isOut Inside tol
  cases horizontal <;> simp

theorem turnsFit_true (horizontal : Bool) (wires : List (String × K × K)) (env : Turn K → Option (K × K × K × K))
    (l : List (Turn K)) : turnsFit horizontal wires env l = some true ↔
      ∀ t ∈ l, ∀ e, env t = some e → ∃ wire : K × K, wireOf wires t.winding = some wire ∧ Inside horizontal t wire.1 wire.2 e := by
  induction l with
  | nil => simp [turnsFit]
  | cons t r ih =>
    simp only [turnsFit, List.forall_mem_cons]
    rw [← ih]
    cases he : env t with
    | none => simp
    | some e =>
      cases hw : wireOf wires t.winding with
      | none => simp
      | some w =>
        simp only [Option.some.injEq, forall_eq', exists_eq_left']
        rw [← isOut_false]
        cases isOut horizontal t w e <;> simp

theorem windowsFit_true (cfg : Config) (c : Coil K) (sections : List (Section K)) (so : Bool) :
    windowsFit cfg c sections so = some true ↔ so = true ∧ (c.planar = false → ∀ ws, c.windows = some ws → ws ≠ [] →
      (∀ s ∈ sections, ∃ i, windowIndex s = some i) ∧
      ∀ turns, c.turns = some turns → ∀ t ∈ turns, ∀ e, envelope c.sidesApplied ws (turnWindow sections t) = some e →
        ∃ wire : K × K, wireOf c.wires t.winding = some wire ∧ Inside cfg.horizontal t wire.1 wire.2 e) := by
  unfold windowsFit
  cases c.planar with
  | true => simp
  | false =>
    cases hw : c.windows with
    | none => simp
    | some l =>
      cases l with
      | nil => simp
      | cons w ws =>
        simp only [Bool.false_eq_true, if_false]
        have hany : (∀ s ∈ sections, ∃ i, windowIndex s = some i) ↔
            sections.any (fun s => (windowIndex s).isNone) = false := by
          rw [List.any_eq_false]
          constructor
          · intro h s hs
            obtain ⟨i, hi⟩ := h s hs
            simp [hi]
          · intro h s hs
            have := h s hs
            cases hx : windowIndex s with
            | none => simp [hx] at this
            | some i => exact ⟨i, rfl⟩
        cases hb : sections.any (fun s => (windowIndex s).isNone) with
        | true =>
          rw [hb] at hany
          simp only [if_true]
          constructor
          · intro h; simp at h
          · rintro ⟨_, h⟩
            have := hany.mp (h trivial (w :: ws) rfl (by simp)).1
            simp at this
        | false =>
          have hidx := hany.mpr hb
          simp only [Bool.false_eq_true, if_false]
          cases ht : c.turns with
          | none =>
            simp only [Option.some.injEq]
            constructor
            · intro h
              exact ⟨h, fun _ _ _ _ => ⟨hidx, by simp⟩⟩
            · exact fun h => h.1
          | some turns =>
            simp only []
            have hk := turnsFit_true cfg.horizontal c.wires
              (fun t => envelope c.sidesApplied (w :: ws) (turnWindow sections t)) turns
            constructor
            · intro h
              rw [Option.map_eq_some_iff] at h
              obtain ⟨b, h1, h2⟩ := h
              have hb' : so = true ∧ b = true := by simpa using h2
              refine ⟨hb'.1, fun _ l hl _ => ⟨hidx, ?_⟩⟩
              cases hl
              intro turns' e
              cases e
              exact hk.mp (by rw [h1, hb'.2])
            · rintro ⟨h1, h2⟩
              have h3 := (h2 trivial (w :: ws) rfl (by simp)).2 turns rfl
              rw [hk.mpr h3, h1]
              rfl

/-- **C343.** A coil is accepted exactly when it has sections and layers, the factors of every section (unless horizontal
overflow is allowed) and of every layer are known and within the limit to six decimals, and, when it is wound in known
windows, every turn lies in the window of its section. -/
theorem accepted_iff (cfg : Config) (c : Coil K) :
    fitting cfg c = some true ↔ ∃ sections layers, Accepted cfg c sections layers := by
  unfold fitting
  cases hs : c.sections with
  | none =>
    constructor
    · intro h; simp at h
    · rintro ⟨s, l, h⟩; have := h.hasSections; rw [hs] at this; simp at this
  | some sections =>
    cases hl : c.layers with
    | none =>
      constructor
      · intro h; simp at h
      · rintro ⟨s, l, h⟩; have := h.hasLayers; rw [hl] at this; simp at this
    | some layers =>
      simp only []
      have h1 := sectionsFit_true cfg layers sections
      have h2 := layersFit_true cfg layers
      constructor
      · intro h
        cases ha : sectionsFit cfg layers sections with
        | none => rw [ha] at h; simp at h
        | some a =>
          rw [ha] at h
          cases hb : layersFit cfg layers with
          | none => rw [hb] at h; simp at h
          | some b =>
            rw [hb] at h
            simp only [] at h
            obtain ⟨h3, h4⟩ := (windowsFit_true cfg c sections _).mp h
            have hab : a = true ∧ b = true := by simpa using h3
            rw [hab.1] at ha
            rw [hab.2] at hb
            refine ⟨sections, layers, hs, hl, ?_, h2.mp hb, h4⟩
            intro hh s hm
            exact (sectionOver_false cfg layers s).mp (h1.mp ha s hm) hh
      · rintro ⟨s', l', h⟩
        have e1 := h.hasSections
        have e2 := h.hasLayers
        rw [hs] at e1
        rw [hl] at e2
        cases e1
        cases e2
        have ha := h1.mpr (fun s hm => (sectionOver_false cfg layers s).mpr (fun hh => h.sectionsWithin hh s hm))
        have hb := h2.mpr h.layersWithin
        rw [ha, hb]
        exact (windowsFit_true cfg c sections _).mpr ⟨rfl, h.turnsWithin⟩

theorem within_num {b x : K} (h : Within b (.num x)) : x ≤ b + 1 / (2 * 10 ^ 6) := by
  have h1 := roundFloat_near x 6
  rw [abs_le] at h1
  have : roundFloat x 6 ≤ b := h
  linarith [h1.1]

/-- **C344.** In an accepted coil that is wound in known rectangular windows every turn lies in a window of the bobbin up to
a nanometre (horizontally unless that is turned off), and no layer is filled beyond its length, up to a thousandth if the
coating may be squeezed and half a millionth in any case. -/
theorem accepted_inside (cfg : Config) (c : Coil K) (h : fitting cfg c = some true) :
    (∀ layers, c.layers = some layers → ∀ l ∈ layers, ∃ f, l.ff = some f ∧
      f ≤ (if cfg.squish then 1001 / 1000 else 1) + 1 / (2 * 10 ^ 6)) ∧
    (c.planar = false → ∀ ws, c.windows = some ws → ws ≠ [] → (∀ b ∈ ws, b ≠ none) →
      ∀ turns, c.turns = some turns → ∀ t ∈ turns, ∃ b : Box K, some b ∈ ws ∧ ∃ ww wh : K, (∃ n, (n, ww, wh) ∈ c.wires ∧ n = t.winding) ∧
        (cfg.horizontal = false → |t.x - (if c.sidesApplied then b.x else |b.x|)| + ww / 2 ≤ b.w / 2 + 1 / 10 ^ 9) ∧
        |t.y - b.y| + wh / 2 ≤ b.h / 2 + 1 / 10 ^ 9) := by
  obtain ⟨sections, layers, ha⟩ := (accepted_iff cfg c).mp h
  constructor
  · intro l' e l hl
    rw [ha.hasLayers] at e
    cases e
    obtain ⟨f, hf, hw⟩ := ha.layersWithin l hl
    refine ⟨f, hf, ?_⟩
    have := within_num hw
    unfold limit at this
    by_cases hq : cfg.squish = true
    · rw [if_pos hq] at this ⊢
      linarith
    · rw [if_neg hq] at this ⊢
      exact this
  · intro hp ws hws hne hall turns ht t hm
    have hlen : 0 < ws.length := List.length_pos_iff.mpr hne
    have hidx : (if turnWindow sections t < ws.length then turnWindow sections t else 0) < ws.length := by
      split <;> assumption
    have hmem : ws[if turnWindow sections t < ws.length then turnWindow sections t else 0]'hidx ∈ ws := List.getElem_mem hidx
    cases hb : ws[if turnWindow sections t < ws.length then turnWindow sections t else 0]'hidx with
    | none => rw [hb] at hmem; exact absurd rfl (hall none hmem)
    | some b =>
      have hg : (ws[if turnWindow sections t < ws.length then turnWindow sections t else 0]?).join = some b := by
        rw [List.getElem?_eq_getElem hidx, hb]; rfl
      have he : envelope c.sidesApplied ws (turnWindow sections t) = some ((if c.sidesApplied then b.x else |b.x|) - b.w / 2,
          (if c.sidesApplied then b.x else |b.x|) + b.w / 2, b.y - b.h / 2, b.y + b.h / 2) := by
        unfold envelope; rw [hg]
      obtain ⟨wire, hw, hx, hy1, hy2⟩ := (ha.turnsWithin hp ws hws hne).2 turns ht t hm _ he
      rw [hb] at hmem
      refine ⟨b, hmem, wire.1, wire.2, ?_, fun hh => ?_, ?_⟩
      · unfold wireOf at hw
        rw [Option.map_eq_some_iff] at hw
        obtain ⟨p, hp1, hp2⟩ := hw
        refine ⟨p.1, by rw [← hp2]; exact List.mem_of_find?_eq_some hp1, ?_⟩
        have := List.find?_some hp1
        simpa using this
      · obtain ⟨h1, h2⟩ := hx hh
        simp only at h1 h2
        have : |t.x - (if c.sidesApplied then b.x else |b.x|)| ≤ b.w / 2 + 1 / 10 ^ 9 - wire.1 / 2 := by
          rw [abs_le]; constructor <;> linarith
        linarith
      · simp only at hy1 hy2
        have : |t.y - b.y| ≤ b.h / 2 + 1 / 10 ^ 9 - wire.2 / 2 := by
          rw [abs_le]; constructor <;> linarith
        linarith

/-- **C344.** The window in which a turn must lie: that which the last section of its name asks for by number, and which must not be
negative; that of the group of the section, if it asks for none; the first one, if there is no such section or it has no group. -/
theorem turn_window (sections : List (Section K)) (t : Turn K) (n : String) (ht : t.sec = some n) :
    ((∀ s ∈ sections, s.name ≠ n) → turnWindow sections t = 0) ∧
      ∀ (before after : List (Section K)) (s : Section K), sections = before ++ s :: after → s.name = n → (∀ x ∈ after, x.name ≠ n) →
        (∀ i : Nat, s.window = some (i : Int) → turnWindow sections t = i) ∧
        (∀ i : Int, s.window = some i → i < 0 → windowIndex s = none) ∧
        (s.window = none → ∀ g : Nat, s.group = some (some g) → turnWindow sections t = g) ∧
        (s.window = none → s.group = none → turnWindow sections t = 0) := by
  constructor
  · intro h
    have : sections.reverse.find? (fun s => s.name == n) = none := by
      rw [List.find?_eq_none]
      intro s hs
      simpa using h s (List.mem_reverse.mp hs)
    simp [turnWindow, ht, this]
  · intro before after s hs hn ha
    have hf : sections.reverse.find? (fun s => s.name == n) = some s := by
      rw [hs, List.reverse_append, List.reverse_cons, List.append_assoc, List.find?_append]
      have h1 : after.reverse.find? (fun s => s.name == n) = none := by
        rw [List.find?_eq_none]
        intro x hx
        simpa using ha x (List.mem_reverse.mp hx)
      rw [h1]
      simp [hn]
    have ht' : turnWindow sections t = (windowIndex s).getD 0 := by simp [turnWindow, ht, hf]
    refine ⟨fun i hi => ?_, fun i hi hneg => ?_, fun h0 g hg => ?_, fun h0 hg => ?_⟩
    · have h0 : ¬ ((i : Int) < 0) := by omega
      rw [ht']; simp only [windowIndex, hi, if_neg h0, Int.toNat_natCast, Option.getD_some]
    · simp [windowIndex, hi, hneg]
    · rw [ht']; simp [windowIndex, h0, hg]
    · rw [ht']; simp [windowIndex, h0, hg]

/-- **C345.** Allowing the coating to be squeezed, or the winding to overflow horizontally, never turns down a coil that was
accepted. -/
theorem settings_monotone (a b : Config) (hs : a.squish = true → b.squish = true) (hh : a.horizontal = true → b.horizontal = true)
    (c : Coil K) (h : fitting a c = some true) : fitting b c = some true := by
  obtain ⟨sections, layers, ha⟩ := (accepted_iff a c).mp h
  have hl : (limit a.squish : K) ≤ limit b.squish := by
    unfold limit
    cases ea : a.squish with
    | true => rw [hs ea]
    | false =>
      cases b.squish
      · exact le_refl _
      · simp
  have hw : ∀ r : Ratio K, Within (limit a.squish) r → Within (limit b.squish) r := by
    intro r
    cases r with
    | num x => exact fun h => le_trans h hl
    | inf p => exact id
    | nan => exact id
  have hor : b.horizontal = false → a.horizontal = false := by
    intro e
    cases ea : a.horizontal with
    | false => rfl
    | true => rw [hh ea] at e; simp at e
  refine (accepted_iff b c).mpr ⟨sections, layers, ha.hasSections, ha.hasLayers, fun e s hm => ?_, fun l hm => ?_, fun hp ws hws hne => ?_⟩
  · obtain ⟨f, h1, h2, h3, h4⟩ := ha.sectionsWithin (hor e) s hm
    exact ⟨f, h1, hw _ h2, hw _ h3, hw _ h4⟩
  · obtain ⟨f, h1, h2⟩ := ha.layersWithin l hm
    exact ⟨f, h1, hw _ h2⟩
  · obtain ⟨h1, h2⟩ := ha.turnsWithin hp ws hws hne
    refine ⟨h1, fun turns ht t hm e he => ?_⟩
    obtain ⟨wire, h3, h4, h5⟩ := h2 turns ht t hm e he
    exact ⟨wire, h3, fun hx => h4 (hor hx), h5⟩

/-! ## Filling factors of a section -/

theorem spanAcross_over (layers : List (Layer K)) (h : ∀ l ∈ layers, l.overlapping = true) (acc : K) :
    spanAcross layers acc = acc + (layers.map Layer.w).sum := by
  induction layers generalizing acc with
  | nil => simp [spanAcross]
  | cons l r ih =>
    have hl : l.overlapping = true := h l (by simp)
    have := ih (fun x hx => h x (by simp [hx])) (acc + l.w)
    unfold spanAcross at this ⊢
    simp only [List.foldl_cons, hl, if_true, this, List.map_cons, List.sum_cons]
    ring

theorem spanAlong_cont (layers : List (Layer K)) (h : ∀ l ∈ layers, l.overlapping = false) (acc : K) :
    spanAlong layers acc = acc + (layers.map Layer.h).sum := by
  induction layers generalizing acc with
  | nil => simp [spanAlong]
  | cons l r ih =>
    have hl : l.overlapping = false := h l (by simp)
    have := ih (fun x hx => h x (by simp [hx])) (acc + l.h)
    unfold spanAlong at this ⊢
    simp only [List.foldl_cons, hl, Bool.false_eq_true, if_false, this, List.map_cons, List.sum_cons]
    ring

theorem spanAlong_over_le (layers : List (Layer K)) (h : ∀ l ∈ layers, l.overlapping = true) (acc b : K) :
    spanAlong layers acc ≤ b ↔ acc ≤ b ∧ ∀ l ∈ layers, l.h ≤ b := by
  induction layers generalizing acc with
  | nil => simp [spanAlong]
  | cons l r ih =>
    have hl : l.overlapping = true := h l (by simp)
    have := ih (fun x hx => h x (by simp [hx])) (max acc l.h)
    unfold spanAlong at this ⊢
    simp only [List.foldl_cons, hl, if_true, this, List.forall_mem_cons, max_le_iff]
    tauto

theorem spanAcross_cont_le (layers : List (Layer K)) (h : ∀ l ∈ layers, l.overlapping = false) (acc b : K) :
    spanAcross layers acc ≤ b ↔ acc ≤ b ∧ ∀ l ∈ layers, l.w ≤ b := by
  induction layers generalizing acc with
  | nil => simp [spanAcross]
  | cons l r ih =>
    have hl : l.overlapping = false := h l (by simp)
    have := ih (fun x hx => h x (by simp [hx])) (max acc l.w)
    unfold spanAcross at this ⊢
    simp only [List.foldl_cons, hl, Bool.false_eq_true, if_false, this, List.forall_mem_cons, max_le_iff]
    tauto

/-- What it is for layers of one orientation to fit a section. -/
def LayersFit (overlapping : Bool) (s : Section K) (layers : List (Layer K)) : Prop :=
  if overlapping then (layers.map Layer.w).sum ≤ s.w ∧ ∀ l ∈ layers, l.h ≤ s.h
  else (∀ l ∈ layers, l.w ≤ s.w) ∧ (layers.map Layer.h).sum ≤ s.h

theorem ratio_le_one {a b : K} (hb : 0 < b) : (∃ x, ratio a b = .num x ∧ x ≤ 1) ↔ a ≤ b := by
  unfold ratio
  rw [if_neg (ne_of_gt hb)]
  constructor
  · rintro ⟨x, e, h⟩
    cases e
    rwa [div_le_one hb] at h
  · intro h
    exact ⟨a / b, rfl, by rwa [div_le_one hb]⟩

/-- **C346.** A section without width, of which no layer has width, has no factor across: it is not a number, and so counts neither as one that is
over its room nor as one within it; likewise along. -/
theorem no_room (layers : List (Layer K)) (s : Section K) :
    (s.w = 0 → (∀ l ∈ layers, l.sec = s.name → l.w = 0) → overlappingFactor layers s = .nan) ∧
    (s.h = 0 → (∀ l ∈ layers, l.sec = s.name → l.h = 0) → contiguousFactor layers s = .nan) := by
  have mem : ∀ l ∈ layersOf layers s.name, l ∈ layers ∧ l.sec = s.name := by
    intro l hl
    unfold layersOf at hl
    rw [List.mem_filter] at hl
    exact ⟨hl.1, by simpa using hl.2⟩
  constructor
  · intro h0 h
    have key : ∀ ls : List (Layer K), (∀ l ∈ ls, l.w = 0) → spanAcross ls 0 = 0 := by
      intro ls hls
      induction ls with
      | nil => rfl
      | cons l ls ih =>
        have e := hls l (by simp)
        have := ih fun x hx => hls x (by simp [hx])
        unfold spanAcross at this ⊢
        simpa [e] using this
    simp [overlappingFactor, ratio, h0, key _ fun l hl => h l (mem l hl).1 (mem l hl).2]
  · intro h0 h
    have key : ∀ ls : List (Layer K), (∀ l ∈ ls, l.h = 0) → spanAlong ls 0 = 0 := by
      intro ls hls
      induction ls with
      | nil => rfl
      | cons l ls ih =>
        have e := hls l (by simp)
        have := ih fun x hx => hls x (by simp [hx])
        unfold spanAlong at this ⊢
        simpa [e] using this
    simp [contiguousFactor, ratio, h0, key _ fun l hl => h l (mem l hl).1 (mem l hl).2]

/-- **C346 (partial).** When the layers of a section share their orientation, its two filling factors are at most 1 exactly
when the layers, stacked in their direction, fit it. -/
theorem section_factors_partial (layers : List (Layer K)) (s : Section K) (o : Bool) (hw : 0 < s.w) (hh : 0 < s.h)
    (ho : ∀ l ∈ layers, l.sec = s.name → l.overlapping = o) :
    ((∃ x, overlappingFactor layers s = .num x ∧ x ≤ 1) ∧ ∃ x, contiguousFactor layers s = .num x ∧ x ≤ 1) ↔
      LayersFit o s (layersOf layers s.name) := by
  have hl : ∀ l ∈ layersOf layers s.name, l.overlapping = o := by
    intro l hm
    unfold layersOf at hm
    rw [List.mem_filter] at hm
    exact ho l hm.1 (by simpa using hm.2)
  unfold overlappingFactor contiguousFactor LayersFit
  rw [ratio_le_one hw, ratio_le_one hh]
  cases o with
  | true =>
    rw [spanAcross_over _ hl, spanAlong_over_le _ hl]
    simp only [zero_add, if_true]
    constructor
    · rintro ⟨a, _, b⟩; exact ⟨a, b⟩
    · rintro ⟨a, b⟩; exact ⟨a, hh.le, b⟩
  | false =>
    rw [spanAcross_cont_le _ hl, spanAlong_cont _ hl]
    simp only [zero_add, Bool.false_eq_true, if_false]
    constructor
    · rintro ⟨⟨_, a⟩, b⟩; exact ⟨a, b⟩
    · rintro ⟨a, b⟩; exact ⟨⟨hw.le, a⟩, b⟩

def sampleLayer (o : Bool) (w h : ℚ) : Layer ℚ := ⟨"l", "s", o, true, w, h, 0, some 1⟩

/-- **C346, negation.** With layers of both orientations the factor depends on the order in which they are listed. -/
theorem order_matters :
    spanAcross [sampleLayer true 2 5, sampleLayer false 3 1] 0 = 3 ∧
    spanAcross [sampleLayer false 3 1, sampleLayer true 2 5] 0 = 5 := ⟨by decide +kernel, by decide +kernel⟩

/-! ## Filling factors of a coil -/

theorem extents_over (sections : List (Section K)) : ∀ acc : K × K,
    (sections.foldl (fun a s => if true then (a.1 + s.w, if s.conduction then max a.2 s.h else a.2)
      else (if s.conduction then max a.1 s.w else a.1, a.2 + s.h)) acc).1 = acc.1 + (sections.map Section.w).sum := by
  induction sections with
  | nil => intro acc; simp
  | cons s r ih =>
    intro acc
    rw [List.foldl_cons, ih]
    simp
    ring

theorem extents_cont (sections : List (Section K)) : ∀ acc : K × K,
    (sections.foldl (fun a s => if false then (a.1 + s.w, if s.conduction then max a.2 s.h else a.2)
      else (if s.conduction then max a.1 s.w else a.1, a.2 + s.h)) acc).2 = acc.2 + (sections.map Section.h).sum := by
  induction sections with
  | nil => intro acc; simp
  | cons s r ih =>
    intro acc
    rw [List.foldl_cons, ih]
    simp
    ring

theorem largestLayer_le (layers : List (Layer K)) (b : K) (acc : K) :
    layers.foldl raise acc ≤ b ↔
      acc ≤ b ∧ ∀ l ∈ layers, ∀ f, l.ff = some f → f ≤ b := by
  induction layers generalizing acc with
  | nil => simp
  | cons l r ih =>
    rw [List.foldl_cons, ih, List.forall_mem_cons]
    unfold raise
    cases l.ff with
    | none => simp
    | some f => simp [and_assoc]

/-- The turns are counted in the area of their layers. -/
theorem area_of_turns (turns : List (Turn K)) (layers : List (Layer K)) (hn : (layers.map Layer.name).Nodup)
    (hc : ∀ l ∈ layers, l.conduction = true) (hm : ∀ t ∈ turns, t.layer ∈ layers.map Layer.name)
    (f : Frame K) (arc : K → K → K) :
    (layers.map (layerArea f arc turns)).sum = (turns.map (fun t => t.w * t.h)).sum := by
  have he : layers.map (layerArea f arc turns) =
      layers.map (fun l => ((turns.filter (fun t => t.layer == l.name)).map (fun t => t.w * t.h)).sum) := by
    apply List.map_congr_left
    intro l hl
    simp [layerArea, hc l hl]
  rw [he]
  clear he
  induction turns with
  | nil => simp
  | cons t r ih =>
    have hr := ih (fun x hx => hm x (by simp [hx]))
    rw [List.map_cons, List.sum_cons, ← hr]
    have ht := hm t (by simp)
    clear ih hr hm hc
    induction layers with
    | nil => simp at ht
    | cons l ls ihl =>
      simp only [List.map_cons, List.nodup_cons] at hn
      simp only [List.map_cons, List.sum_cons, List.mem_cons] at ht ⊢
      by_cases e : t.layer = l.name
      · have hnot : ∀ x ∈ ls, (t.layer == x.name) = false := by
          intro x hx
          rw [beq_eq_false_iff_ne]
          intro e'
          exact hn.1 (by rw [← e, e']; exact List.mem_map.mpr ⟨x, hx, rfl⟩)
        have hsame : ls.map (fun l => (((t :: r).filter (fun t => t.layer == l.name)).map (fun t => t.w * t.h)).sum) =
            ls.map (fun l => ((r.filter (fun t => t.layer == l.name)).map (fun t => t.w * t.h)).sum) := by
          apply List.map_congr_left
          intro x hx
          rw [List.filter_cons, hnot x hx]
          simp
        rw [hsame, List.filter_cons]
        simp [e]
        ring
      · have h2 := ihl hn.2 (ht.resolve_left e)
        have e' : (t.layer == l.name) = false := by rw [beq_eq_false_iff_ne]; exact e
        rw [h2, List.filter_cons, e']
        simp
        ring

/-- **C347.** The area filling factor of a coil of conduction layers of different names is the area of its turns and
margins, each counted once, over that of the window. -/
theorem area_exact (f : Frame K) (arc : K → K → K) (overlapping : Bool) (sections : List (Section K)) (layers : List (Layer K))
    (turns : List (Turn K)) (hn : (layers.map Layer.name).Nodup) (hc : ∀ l ∈ layers, l.conduction = true)
    (hm : ∀ t ∈ turns, t.layer ∈ layers.map Layer.name) :
    (factors f arc overlapping sections layers turns).area =
      ((sections.map (marginArea f overlapping)).sum + (turns.map (fun t => t.w * t.h)).sum) / f.area := by
  unfold factors usedArea
  rw [area_of_turns turns layers hn hc hm]

theorem sum_split (layers : List (Layer K)) (g : Layer K → K) :
    (layers.map g).sum = ((layers.filter (fun l => l.conduction)).map g).sum + ((layers.filter (fun l => !l.conduction)).map g).sum := by
  induction layers with
  | nil => simp
  | cons l r ih =>
    cases h : l.conduction <;> simp [h, ih] <;> ring

/-- Specification: the area of the margins of a section in a rectangular window: both, as long as the section. -/
def marginsOf (overlapping : Bool) (s : Section K) : K :=
  match s.margin with
  | none => 0
  | some m => if overlapping then m.1 * s.w + m.2 * s.w else m.1 * s.h + m.2 * s.h

/-- **C347.** In a rectangular window the area filling factor of any coil with layers of different names is the area of its turns, its
margins and its layers of insulation, each counted once, over that of the window. -/
theorem area_whole (f : Frame K) (hf : f.rectangular = true) (arc : K → K → K) (overlapping : Bool) (sections : List (Section K))
    (layers : List (Layer K)) (turns : List (Turn K)) (hn : (layers.map Layer.name).Nodup)
    (hm : ∀ t ∈ turns, ∃ l ∈ layers, l.conduction = true ∧ l.name = t.layer) :
    (factors f arc overlapping sections layers turns).area =
      ((sections.map (marginsOf overlapping)).sum + ((turns.map (fun t => t.w * t.h)).sum +
        ((layers.filter (fun l => !l.conduction)).map (fun l => l.w * l.h)).sum)) / f.area := by
  have h1 : sections.map (marginArea f overlapping) = sections.map (marginsOf overlapping) := by
    apply List.map_congr_left
    intro s _
    unfold marginArea marginsOf
    cases s.margin with
    | none => rfl
    | some m => cases overlapping <;> simp [hf, add_mul]
  have h2 : (layers.filter (fun l => !l.conduction)).map (layerArea f arc turns) =
      (layers.filter (fun l => !l.conduction)).map (fun l => l.w * l.h) := by
    apply List.map_congr_left
    intro l hl
    have hc : l.conduction = false := by simpa using (List.mem_filter.mp hl).2
    simp [layerArea, hc, hf]
  have h3 := area_of_turns turns (layers.filter (fun l => l.conduction)) (hn.sublist (List.filter_sublist.map _))
    (fun l hl => (List.mem_filter.mp hl).2)
    (fun t ht => by
      obtain ⟨l, hl, hc, he⟩ := hm t ht
      exact List.mem_map.mpr ⟨l, List.mem_filter.mpr ⟨hl, hc⟩, he⟩) f arc
  unfold factors usedArea
  show _ / _ = _
  rw [h1, sum_split layers, h2, h3]

/-- **C347.** In a round window the area of a layer of insulation is its thickness by the arc of its angle at its radius, and that of the
margins of a section both times its height. -/
theorem area_round (f : Frame K) (hf : f.rectangular = false) (arc : K → K → K) (overlapping : Bool) (turns : List (Turn K))
    (l : Layer K) (hl : l.conduction = false) (s : Section K) (m : K × K) (hs : s.margin = some m) :
    layerArea f arc turns l = l.w * arc l.h (f.across - l.r) ∧ marginArea f overlapping s = m.1 * s.w + m.2 * s.w := by
  unfold layerArea marginArea
  rw [hs, hl, hf]
  simp [add_mul]

theorem extent_along (sections : List (Section K)) : ∀ (acc : K × K) (b : K),
    (sections.foldl (fun a s => if true then (a.1 + s.w, if s.conduction then max a.2 s.h else a.2)
      else (if s.conduction then max a.1 s.w else a.1, a.2 + s.h)) acc).2 ≤ b ↔
      acc.2 ≤ b ∧ ∀ s ∈ sections, s.conduction = true → s.h ≤ b := by
  induction sections with
  | nil => intro acc b; simp
  | cons s r ih =>
    intro acc b
    rw [List.foldl_cons, ih, List.forall_mem_cons]
    cases h : s.conduction <;> simp [and_assoc]

theorem extent_across (sections : List (Section K)) : ∀ (acc : K × K) (b : K),
    (sections.foldl (fun a s => if false then (a.1 + s.w, if s.conduction then max a.2 s.h else a.2)
      else (if s.conduction then max a.1 s.w else a.1, a.2 + s.h)) acc).1 ≤ b ↔
      acc.1 ≤ b ∧ ∀ s ∈ sections, s.conduction = true → s.w ≤ b := by
  induction sections with
  | nil => intro acc b; simp
  | cons s r ih =>
    intro acc b
    rw [List.foldl_cons, ih, List.forall_mem_cons]
    cases h : s.conduction <;> simp [and_assoc]

/-- **C349.** The factor reported across the direction of stacking is at most 1 exactly when every section of a winding is within the
window in that direction; sections of insulation do not count. -/
theorem other_factor (f : Frame K) (arc : K → K → K) (sections : List (Section K)) (layers : List (Layer K)) (turns : List (Turn K))
    (hw : 0 < f.across) (hh : 0 < f.along) :
    ((factors f arc true sections layers turns).along ≤ 1 ↔ ∀ s ∈ sections, s.conduction = true → s.h ≤ f.along) ∧
      ((factors f arc false sections layers turns).across ≤ 1 ↔ ∀ s ∈ sections, s.conduction = true → s.w ≤ f.across) := by
  have e1 := extent_along sections (0, 0) f.along
  have e2 := extent_across sections (0, 0) f.across
  refine ⟨?_, ?_⟩
  · show (extents true sections).2 / f.along ≤ 1 ↔ _
    rw [div_le_one hh]
    exact e1.trans ⟨fun h => h.2, fun h => ⟨hh.le, h⟩⟩
  · show (extents false sections).1 / f.across ≤ 1 ↔ _
    rw [div_le_one hw]
    exact e2.trans ⟨fun h => h.2, fun h => ⟨hw.le, h⟩⟩

/-- **C348 (partial).** A coil is reported as fitting exactly when the area used is within that of the first window, no
layer is overfilled and the sections stacked are within the first window in the direction in which they are stacked. -/
theorem reported_iff_partial (f : Frame K) (arc : K → K → K) (overlapping : Bool) (sections : List (Section K))
    (layers : List (Layer K)) (turns : List (Turn K)) (ha : 0 < f.area) (hw : 0 < f.across) (hh : 0 < f.along) :
    (factors f arc overlapping sections layers turns).fits = true ↔
      usedArea f arc overlapping sections layers turns ≤ f.area ∧
      (∀ l ∈ layers, ∀ x, l.ff = some x → x ≤ 1) ∧
      (if overlapping then (sections.map Section.w).sum ≤ f.across else (sections.map Section.h).sum ≤ f.along) := by
  unfold factors largestLayer
  simp only [Bool.and_eq_true, decide_eq_true_eq]
  rw [div_le_one ha, largestLayer_le]
  cases overlapping with
  | true =>
    have e : (extents true sections).1 = (sections.map Section.w).sum := by
      unfold extents; have := extents_over sections (0, 0); simpa using this
    simp only [if_true]
    rw [e, div_le_one hw]
    constructor
    · rintro ⟨⟨a, _, b⟩, c⟩; exact ⟨a, b, c⟩
    · rintro ⟨a, b, c⟩; exact ⟨⟨a, zero_le_one, b⟩, c⟩
  | false =>
    have e : (extents false sections).2 = (sections.map Section.h).sum := by
      unfold extents; have := extents_cont sections (0, 0); simpa using this
    simp only [Bool.false_eq_true, if_false]
    rw [e, div_le_one hh]
    constructor
    · rintro ⟨⟨a, _, b⟩, c⟩; exact ⟨a, b, c⟩
    · rintro ⟨a, b, c⟩; exact ⟨⟨a, zero_le_one, b⟩, c⟩

/-- Two windows of 5 mm by 10 mm, one to each side, with a section of 4 mm in each, of one layer of one turn. -/
def twoWindows : Coil ℚ where
  sections := some [⟨"A", true, 4, 10, some 1, some 0, none, none⟩, ⟨"B", true, 4, 10, some 1, some 1, none, none⟩]
  layers := some [⟨"A0", "A", true, true, 4, 4, 0, some (1 / 2)⟩, ⟨"B0", "B", true, true, 4, 4, 0, some (1 / 2)⟩]
  turns := some [⟨some "A", "P", "A0", 10, 0, 4, 4⟩, ⟨some "B", "P", "B0", 10, 0, 4, 4⟩]
  planar := false
  windows := some [some ⟨10, 0, 5, 10⟩, some ⟨-10, 0, 5, 10⟩]
  sidesApplied := false
  wires := [("P", 4, 4)]

/-- **C348, negation.** A coil in two windows that is accepted is reported as not fitting: the sections of both are measured
against the first. -/
theorem two_windows_misreported :
    fitting ⟨false, false⟩ twoWindows = some true ∧
    (factors ⟨true, 5, 10, 50⟩ (fun _ _ => 0) true (twoWindows.sections.getD []) (twoWindows.layers.getD [])
      (twoWindows.turns.getD [])).fits = false := ⟨by decide +kernel, by decide +kernel⟩

/-- One section in one window, whose layer is filled by a ten-millionth too much. -/
def barely : Coil ℚ where
  sections := some [⟨"A", true, 4, 10, some 1, none, none, none⟩]
  layers := some [⟨"A0", "A", true, true, 4, 10, 0, some (1 + 1 / 10 ^ 7)⟩]
  turns := some [⟨some "A", "P", "A0", 10, 0, 4, 4⟩]
  planar := false
  windows := some [some ⟨10, 0, 5, 10⟩]
  sidesApplied := false
  wires := [("P", 4, 4)]

/-- **C348, negation.** A layer filled by a ten-millionth too much is accepted and reported as not fitting. -/
theorem barely_misreported :
    fitting ⟨false, false⟩ barely = some true ∧
    (factors ⟨true, 5, 10, 50⟩ (fun _ _ => 0) true (barely.sections.getD []) (barely.layers.getD [])
      (barely.turns.getD [])).fits = false := ⟨by decide +kernel, by decide +kernel⟩

/-- **C349, negation.** A coil is reported as fitting although one of the factors reported, that across the direction of
stacking, is above 1. -/
theorem overflow_reported_fitting :
    let r := factors (K := ℚ) ⟨true, 5, 10, 50⟩ (fun _ _ => 0) true [⟨"A", true, 4, 11, some 1, none, none, none⟩]
      [⟨"A0", "A", true, true, 4, 11, 0, some (1 / 2)⟩] [⟨some "A", "P", "A0", 10, 0, 4, 4⟩]
    r.fits = true ∧ 1 < r.along := ⟨by decide +kernel, by decide +kernel⟩

/-- **C349 (partial).** A coil reported as fitting has its area, its layers and the direction of stacking within 1. -/
theorem fitting_factors_partial (f : Frame K) (arc : K → K → K) (overlapping : Bool) (sections : List (Section K))
    (layers : List (Layer K)) (turns : List (Turn K)) :
    (factors f arc overlapping sections layers turns).fits = true ↔
      (factors f arc overlapping sections layers turns).area ≤ 1 ∧ (factors f arc overlapping sections layers turns).largest ≤ 1 ∧
      (overlapping = true → (factors f arc overlapping sections layers turns).across ≤ 1) ∧
      (overlapping = false → (factors f arc overlapping sections layers turns).along ≤ 1) := by
  unfold factors
  cases overlapping <;> simp [and_assoc]

/-- A coil with sections but no layers is not accepted; a missing factor raises. -/
example : fitting (K := ℚ) ⟨false, false⟩ { barely with layers := none } = some false ∧
    fitting (K := ℚ) ⟨false, false⟩ { barely with layers := some [⟨"A0", "A", true, true, 4, 10, 0, none⟩] } = none :=
  ⟨by decide +kernel, by decide +kernel⟩

/-- A turn half a millimetre out is turned down, unless horizontal overflow is allowed. -/
example : fitting (K := ℚ) ⟨false, false⟩ { barely with turns := some [⟨some "A", "P", "A0", 11, 0, 4, 4⟩] } = some false ∧
    fitting (K := ℚ) ⟨false, true⟩ { barely with turns := some [⟨some "A", "P", "A0", 11, 0, 4, 4⟩] } = some true :=
  ⟨by decide +kernel, by decide +kernel⟩

/-- A section of two overlapping layers of 2 mm that fit its 4 mm. -/
example : LayersFit true (⟨"s", true, 4, 10, some 1, none, none, none⟩ : Section ℚ)
    (layersOf [sampleLayer true 2 5, sampleLayer true 2 10] "s") := by
  constructor <;> decide +kernel

end Verif.Fitting
