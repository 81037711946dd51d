import Verif.Autocomplete.Magnetic
import Verif.Pattern.Props
import Mathlib.Data.List.Forall2

/-! # The completion of a magnetic: specification and theorems -/

namespace Verif.Autocomplete.Magnetic

set_option linter.unusedSectionVars false
set_option linter.unusedSimpArgs false

variable {K A : Type} [Field K] [LinearOrder K]

/-! ## Specification -/

/-- A wire with the outer dimensions of its type. -/
def Sized (x : Wire K A) : Prop :=
  match x.type with
  | .round | .litz => x.diameter ≠ none
  | _ => x.width ≠ none ∧ x.height ≠ none

/-- What is kept of the data of a wire: all but dimensions that were missing, the material of the coating and the data of the strand. -/
def KeepsWire (x x' : Wire K A) : Prop :=
  x'.type = x.type ∧ x'.rest = x.rest ∧ (∀ d, x.diameter = some d → x'.diameter = some d) ∧ (∀ d, x.width = some d → x'.width = some d) ∧
    (∀ d, x.height = some d → x'.height = some d) ∧ (∀ s, x.strand = some (.data s) → x'.strand = some (.data s)) ∧
    (x.strand = none → x'.strand = none) ∧
    ∀ c, x.coating = some (.data c) → ∃ c', x'.coating = some (.data c') ∧ c'.kind = c.kind ∧ c'.rest = c.rest ∧
      ∀ m, c.material = some (.data m) → c'.material = some (.data m)

/-- A wire that has all its data: outer dimensions, a coating with the data of its material and, if there is a strand, its data. -/
def FullWire (x : Wire K A) : Prop :=
  Sized x ∧ (∃ c m, x.coating = some (.data c) ∧ c.material = some (.data m)) ∧ ∀ s, x.strand ≠ some (.name s)

/-! ## Lemmas -/

theorem bind_ok {X Y : Type} {r : Res X} {f : X → Res Y} {y : Y} (h : r.bind f = .ok y) : ∃ x, r = .ok x ∧ f x = .ok y := by
  cases r <;> simp [Res.bind] at h
  exact ⟨_, rfl, h⟩

theorem bind_ub {X Y : Type} {r : Res X} {f : X → Res Y} (h : r.bind f = .ub) : r = .ub ∨ ∃ x, r = .ok x ∧ f x = .ub := by
  cases r <;> simp [Res.bind] at h
  · exact Or.inr ⟨_, rfl, h⟩
  · exact Or.inl rfl

theorem bind_wire {X Y : Type} {r : Res X} {f : X → Res Y} {i : ℕ} (h : r.bind f = .wire i) :
    r = .wire i ∨ ∃ x, r = .ok x ∧ f x = .wire i := by
  cases r <;> simp [Res.bind] at h
  · exact Or.inr ⟨_, rfl, h⟩
  · subst h; exact Or.inl rfl

theorem of_ok {X : Type} {o : Option X} {x : X} (h : Res.of o = .ok x) : o = some x := by
  cases o <;> simp [Res.of] at h
  rw [h]

theorem of_ub {X : Type} {o : Option X} : Res.of o ≠ .ub := by
  cases o <;> simp [Res.of]

theorem of_wire {X : Type} {o : Option X} {i : ℕ} : Res.of o ≠ .wire i := by
  cases o <;> simp [Res.of]

theorem complete_ok {E : Env K A} {C : Configuration} {real : Bool} {inputs : Option A} {m m' : Magnetic K A}
    (h : complete E C real inputs m = .ok m') : ∃ core ws b coil coil', completeCore E m.core = .ok core ∧
      completeWindings E m.coil.windings = .ok ws ∧ completeBobbin E C core ws m.coil.bobbin = .ok b ∧
      wound E C real inputs core.type { m.coil with windings := ws, bobbin := .data b, columns := columnsFor E core m.coil.columns } = .ok coil ∧
      withLayers E coil = .ok coil' ∧ m' = ⟨core, coil'⟩ := by
  unfold complete at h
  obtain ⟨core, h1, h⟩ := bind_ok h
  obtain ⟨ws, h2, h⟩ := bind_ok h
  obtain ⟨b, h3, h⟩ := bind_ok h
  obtain ⟨coil, h4, h⟩ := bind_ok h
  obtain ⟨coil', h5, h⟩ := bind_ok h
  simp only [Res.ok.injEq] at h
  exact ⟨core, ws, b, coil, coil', h1, h2, h3, h4, h5, h.symm⟩

theorem withShape_ok {E : Env K A} {c c' : Core K A} (h : withShape E c = .ok c') : ∃ s, resolveShape E c.shape = some s ∧
    c' = { c with type := (kindOf s.family).1, shape := .data { s with circuit := some (kindOf s.family).2 },
                  gaps := if s.family = .t then [] else c.gaps } ∧
    (∀ n, s.family = .other n → ∀ g ∈ c.gaps, 0 ≤ g.length) := by
  unfold withShape at h
  obtain ⟨s, h1, h⟩ := bind_ok h
  refine ⟨s, of_ok h1, ?_⟩
  cases hf : s.family <;> simp only [hf] at h <;> try simp only [Res.ok.injEq] at h
  case other n =>
    split at h
    · simp at h
    · rename_i hg
      simp only [Res.ok.injEq] at h
      subst h
      simp only [reduceCtorEq, if_false, true_and]
      intro n _ g hg'
      by_contra hlt
      exact hg (List.any_eq_true.2 ⟨g, hg', by simpa using hlt⟩)
  all_goals subst h; simp

theorem completeCore_ok {E : Env K A} {c c' : Core K A} (h : completeCore E c = .ok c') : ∃ s x, resolveShape E c.shape = some s ∧
    resolveMaterial E c.material = some x ∧ c'.type = (kindOf s.family).1 ∧
    c'.shape = .data { s with circuit := some (kindOf s.family).2 } ∧ c'.material = .one (.data x) ∧
    (∀ n, s.family = .other n → ∀ g ∈ c.gaps, 0 ≤ g.length) ∧
    (∀ p, c.processed = some p → c'.processed = some p ∧ c'.gaps = if s.family = .t then [] else c.gaps) ∧
    (c.processed = none → ∃ p gs, c'.processed = some p ∧ c'.gaps = gs ∧
      E.process { c with type := (kindOf s.family).1, shape := .data { s with circuit := some (kindOf s.family).2 },
                         gaps := if s.family = .t then [] else c.gaps, material := .one (.data x) } = some (p, gs)) ∧
    (∀ g, c.geometry = some g → c'.geometry = some g) ∧
    (c.geometry = none → E.geometry { c' with geometry := none } = some c'.geometry) := by
  unfold completeCore at h
  obtain ⟨c1, h1, ha⟩ := bind_ok h
  obtain ⟨c2, h2, hb⟩ := bind_ok ha
  obtain ⟨c3, h3, h9⟩ := bind_ok hb
  clear h ha hb
  obtain ⟨s, hs, rfl, hneg⟩ := withShape_ok h1
  unfold withMaterial at h2
  obtain ⟨x, hx, h2⟩ := bind_ok h2
  simp only [Res.ok.injEq] at h2
  subst h2
  have key : c3.type = (kindOf s.family).1 ∧ c3.shape = .data { s with circuit := some (kindOf s.family).2 } ∧ c3.material = .one (.data x) ∧
      c3.geometry = c.geometry ∧
      (∀ p, c.processed = some p → c3.processed = some p ∧ c3.gaps = if s.family = .t then [] else c.gaps) ∧
      (c.processed = none → ∃ p gs, c3.processed = some p ∧ c3.gaps = gs ∧
        E.process { c with type := (kindOf s.family).1, shape := .data { s with circuit := some (kindOf s.family).2 },
                           gaps := if s.family = .t then [] else c.gaps, material := .one (.data x) } = some (p, gs)) := by
    unfold withProcessed at h3
    cases hp : c.processed with
    | some p =>
      simp only [hp, Res.ok.injEq] at h3
      subst h3
      simp
    | none =>
      simp only [hp] at h3
      obtain ⟨⟨p, gs⟩, h4, h3⟩ := bind_ok h3
      simp only [Res.ok.injEq] at h3
      subst h3
      refine ⟨rfl, rfl, rfl, rfl, by simp, fun _ => ⟨p, gs, rfl, rfl, ?_⟩⟩
      exact of_ok h4
  obtain ⟨k1, k2, k3, k4, k5, k6⟩ := key
  unfold withGeometry at h9
  cases hg : c3.geometry with
  | some g =>
    rw [hg] at h9
    simp only [Res.ok.injEq] at h9
    subst h9
    refine ⟨s, x, hs, of_ok hx, k1, k2, k3, hneg, k5, k6, fun y hy => ?_, fun hn => ?_⟩
    · rw [k4, hy]
    · rw [k4, hn] at hg; simp at hg
  | none =>
    rw [hg] at h9
    simp only at h9
    obtain ⟨g, h5, h⟩ := bind_ok h9
    clear h9
    simp only [Res.ok.injEq] at h
    subst h
    refine ⟨s, x, hs, of_ok hx, k1, k2, k3, hneg, k5, k6, fun y hy => ?_, fun hn => ?_⟩
    · rw [k4, hy] at hg; simp at hg
    · have := of_ok h5
      simp only
      rw [← this]
      congr 1
      cases c3; simp_all

theorem outerOf_some {E : Env K A} {x x' : Wire K A} (h : outerOf E x = some x') : Sized x' ∧ x'.type = x.type ∧ x'.coating = x.coating ∧
    x'.strand = x.strand ∧ x'.rest = x.rest ∧ (∀ d, x.diameter = some d → x'.diameter = some d) ∧
    (∀ d, x.width = some d → x'.width = some d) ∧ (∀ d, x.height = some d → x'.height = some d) := by
  have hor : ∀ {d c y : Option K} {z : K}, orElse d c = some z → ∀ q, d = some q → some z = some q := by
    intro d c y z hz q hq
    subst hq
    simpa [orElse, eq_comm] using hz
  unfold outerOf at h
  cases ht : x.type <;> simp only [ht, Option.map_eq_some_iff, Option.bind_eq_some_iff] at h
  case round | litz =>
    obtain ⟨d, hd, rfl⟩ := h
    refine ⟨by simp [Sized, ht], ht ▸ rfl, rfl, rfl, rfl, fun q hq => ?_, fun q hq => hq, fun q hq => hq⟩
    exact hor (y := none) hd q hq
  all_goals
    obtain ⟨a, ha, b, hb, rfl⟩ := h
    refine ⟨by simp [Sized, ht], ht ▸ rfl, rfl, rfl, rfl, fun q hq => hq, fun q hq => ?_, fun q hq => ?_⟩
    · exact hor (y := none) ha q hq
    · exact hor (y := none) hb q hq

theorem outerOf_none {E : Env K A} {x : Wire K A} (h : outerOf E x = none) : ¬Sized x := by
  intro hs
  unfold outerOf at h
  unfold Sized at hs
  cases ht : x.type <;> simp only [ht] at h hs
  case round | litz =>
    obtain ⟨d, hd⟩ := Option.ne_none_iff_exists'.mp hs
    simp [hd, orElse] at h
  all_goals
    obtain ⟨h1, h2⟩ := hs
    obtain ⟨a, ha⟩ := Option.ne_none_iff_exists'.mp h1
    obtain ⟨b, hb⟩ := Option.ne_none_iff_exists'.mp h2
    simp [ha, hb, orElse] at h

theorem completeCoating_some {E : Env K A} {o : Option (Named (Coating A))} {c' : Coating A} (h : completeCoating E o = some c') :
    (∃ m, c'.material = some (.data m)) ∧ ∀ c, o = some (.data c) → c'.kind = c.kind ∧ c'.rest = c.rest ∧
      ∀ m, c.material = some (.data m) → c'.material = some (.data m) := by
  unfold completeCoating at h
  simp only [Option.map_eq_some_iff, Option.bind_eq_some_iff] at h
  obtain ⟨c, h1, m, h2, x, h3, rfl⟩ := h
  refine ⟨⟨x, rfl⟩, ?_⟩
  rintro c0 rfl
  simp only [givenCoating, Option.some.injEq] at h1
  subst h1
  refine ⟨rfl, rfl, fun m0 hm => ?_⟩
  simp only [coatingMaterial, hm, Option.some.injEq] at h2
  subst h2
  simp only [resolveInsulation, Option.some.injEq] at h3
  rw [h3]

theorem completeWire_ok {E : Env K A} {i : ℕ} {w w' : Winding K A} (h : completeWire E i w = .ok w') :
    w'.name = w.name ∧ w'.turns = w.turns ∧ w'.parallels = w.parallels ∧
      ∃ x x', resolveWire E w.wire = some x ∧ w'.wire = .data x' ∧ FullWire x' ∧ KeepsWire x x' := by
  unfold completeWire at h
  obtain ⟨x, h1, h⟩ := bind_ok h
  obtain ⟨c, h2, h⟩ := bind_ok h
  obtain ⟨s, h3, h⟩ := bind_ok h
  cases ho : outerOf E { x with coating := some (.data c), strand := s } with
  | none => rw [ho] at h; simp at h
  | some x' =>
    rw [ho] at h
    simp only [Res.ok.injEq] at h
    subst h
    obtain ⟨o1, o2, o3, o4, o5, o6, o7, o8⟩ := outerOf_some ho
    obtain ⟨⟨m, hm⟩, hk⟩ := completeCoating_some (of_ok h2)
    have hst := of_ok h3
    refine ⟨rfl, rfl, rfl, x, x', of_ok h1, rfl, ⟨o1, ⟨c, m, o3, hm⟩, fun t ht => ?_⟩, o2, o5, o6, o7, o8, fun t ht => ?_, fun ht => ?_,
      fun c0 hc0 => ?_⟩
    · rw [o4] at ht
      simp only at ht
      subst ht
      cases hs : x.strand with
      | none => simp [hs, completeStrand] at hst
      | some q => cases q <;> simp [hs, completeStrand] at hst
    · rw [o4]
      simp only
      rw [ht] at hst
      simpa [completeStrand, eq_comm] using hst
    · rw [o4]
      simp only
      rw [ht] at hst
      simpa [completeStrand, eq_comm] using hst
    · obtain ⟨k1, k2, k3⟩ := hk c0 hc0
      exact ⟨c, o3, k1, k2, k3⟩

theorem completeWires_ok {E : Env K A} : ∀ (i : ℕ) (ws ws' : List (Winding K A)), completeWires E i ws = .ok ws' →
    ws'.length = ws.length ∧ ∀ (k : ℕ) (w w' : Winding K A), ws[k]? = some w → ws'[k]? = some w' → completeWire E (i + k) w = .ok w'
  | _, [], ws', h => by
    simp only [completeWires, Res.ok.injEq] at h
    subst h
    simp
  | i, w :: ws, ws', h => by
    simp only [completeWires] at h
    obtain ⟨w1, h1, h⟩ := bind_ok h
    obtain ⟨ws1, h2, h⟩ := bind_ok h
    simp only [Res.ok.injEq] at h
    subst h
    obtain ⟨a, b⟩ := completeWires_ok (i + 1) ws ws1 h2
    refine ⟨by simp [a], fun k x x' hx hx' => ?_⟩
    cases k with
    | zero =>
      simp only [List.getElem?_cons_zero, Option.some.injEq] at hx hx'
      subst hx hx'
      simpa using h1
    | succ k =>
      simp only [List.getElem?_cons_succ] at hx hx'
      have := b k x x' hx hx'
      rwa [show i + 1 + k = i + (k + 1) by omega] at this

theorem completeWires_wire {E : Env K A} : ∀ (i : ℕ) (ws : List (Winding K A)) (j : ℕ), completeWires E i ws = .wire j →
    ∃ k w, j = i + k ∧ ws[k]? = some w ∧ ∃ x, resolveWire E w.wire = some x ∧ ¬Sized x
  | _, [], j, h => by simp [completeWires] at h
  | i, w :: ws, j, h => by
    simp only [completeWires] at h
    rcases bind_wire h with h1 | ⟨w1, -, h⟩
    · unfold completeWire at h1
      rcases bind_wire h1 with h2 | ⟨x, h2, h1⟩
      · exact absurd h2 of_wire
      rcases bind_wire h1 with h3 | ⟨c, h3, h1⟩
      · exact absurd h3 of_wire
      rcases bind_wire h1 with h4 | ⟨s, h4, h1⟩
      · exact absurd h4 of_wire
      cases ho : outerOf E { x with coating := some (.data c), strand := s } with
      | some y => rw [ho] at h1; simp at h1
      | none =>
        rw [ho] at h1
        simp only [Res.wire.injEq] at h1
        refine ⟨0, w, by omega, rfl, x, of_ok h2, ?_⟩
        have := outerOf_none ho
        exact this
    · rcases bind_wire h with h1 | ⟨ws1, -, h⟩
      · obtain ⟨k, w2, e, h2, h3⟩ := completeWires_wire (i + 1) ws j h1
        exact ⟨k + 1, w2, by omega, by simpa using h2, h3⟩
      · simp at h

theorem oriented_ok {C : Configuration} {t : CoreType} {ws : List (Winding K A)} {b b' : Bobbin A} (h : oriented C t ws b = .ok b') :
    b'.functional = b.functional ∧ b'.rest = b.rest ∧ ∃ w rest o, b.processed = some (w :: rest) ∧
      ∃ w', b'.processed = some (w' :: rest) ∧ w'.orientation = some o ∧ w'.rest = w.rest ∧
        (∀ o', w.orientation = some o' → w' = w) ∧
        (w.orientation = none → o = orientationFor C t ws ∧ w'.alignment = some (alignmentFor C t ws)) := by
  unfold oriented at h
  cases hp : b.processed with
  | none => rw [hp] at h; simp at h
  | some l =>
    cases l with
    | nil => rw [hp] at h; simp at h
    | cons w rest =>
      rw [hp] at h
      simp only at h
      cases ho : w.orientation with
      | some o =>
        rw [ho] at h
        simp only [Res.ok.injEq] at h
        subst h
        exact ⟨rfl, rfl, w, rest, o, rfl, w, hp, ho, rfl, fun _ _ => rfl, fun hn => by rw [ho] at hn; simp at hn⟩
      | none =>
        rw [ho] at h
        simp only [Res.ok.injEq] at h
        subst h
        exact ⟨rfl, rfl, w, rest, _, rfl, _, rfl, rfl, rfl, fun _ hn => by rw [ho] at hn; simp at hn, fun _ => ⟨rfl, rfl⟩⟩

theorem wound_ok {E : Env K A} {C : Configuration} {real : Bool} {inputs : Option A} {t : CoreType} {c c' : Coil K A}
    (h : wound E C real inputs t c = .ok c') : c'.windings = c.windings ∧ c'.bobbin = c.bobbin ∧ c'.columns = c.columns ∧
      ((rewinds real c = .ok false ∧ c' = c) ∨ (rewinds real c = .ok true ∧ ∃ p w, patternFor C (configured C inputs t c) = .ok p ∧
        E.wind (configured C inputs t c) p.1 p.2 = some w ∧ c' = { configured C inputs t c with wound := w })) := by
  unfold wound at h
  obtain ⟨again, h1, h⟩ := bind_ok h
  cases again with
  | false =>
    simp only [Bool.false_eq_true, if_false, Res.ok.injEq] at h
    subst h
    exact ⟨rfl, rfl, rfl, Or.inl ⟨h1, rfl⟩⟩
  | true =>
    simp only [if_true] at h
    obtain ⟨p, h2, h⟩ := bind_ok h
    obtain ⟨w, h3, h⟩ := bind_ok h
    simp only [Res.ok.injEq] at h
    subst h
    exact ⟨rfl, rfl, rfl, Or.inr ⟨h1, p, w, h2, of_ok h3, rfl⟩⟩

theorem mapM_some {X Y : Type} {f : X → Option Y} : ∀ {l : List X} {l' : List Y}, l.mapM f = some l' → List.Forall₂ (fun x y => f x = some y) l l'
  | [], l', h => by
    simp only [List.mapM_nil, Option.pure_def, Option.some.injEq] at h
    subst h
    exact .nil
  | x :: l, l', h => by
    simp only [List.mapM_cons, Option.pure_def, Option.bind_eq_bind, Option.bind_eq_some_iff, Option.some.injEq] at h
    obtain ⟨y, h1, l1, h2, rfl⟩ := h
    exact .cons h1 (mapM_some h2)

theorem withLayers_ok {E : Env K A} {c c' : Coil K A} (h : withLayers E c = .ok c') :
    ∃ ls', c' = { c with wound := { c.wound with layers := ls' } } ∧ (c.wound.layers = none → ls' = none) ∧
      ∀ ls, c.wound.layers = some ls → ∃ l, ls' = some l ∧ completeLayers E ls = some l := by
  unfold withLayers at h
  cases hl : c.wound.layers with
  | none =>
    rw [hl] at h
    simp only [Res.ok.injEq] at h
    subst h
    refine ⟨none, ?_, fun _ => rfl, by simp⟩
    rcases c with ⟨_, _, ⟨_, _, _⟩, _, _, _, _, _⟩
    simp_all
  | some ls =>
    rw [hl] at h
    simp only at h
    obtain ⟨l, h1, h⟩ := bind_ok h
    simp only [Res.ok.injEq] at h
    subst h
    refine ⟨some l, rfl, by simp, fun ls0 h0 => ⟨l, rfl, ?_⟩⟩
    simp only [Option.some.injEq] at h0
    subst h0
    exact of_ok h1

/-! ## Theorems: the core -/

/-- **C255.** The completed core has the type and the magnetic circuit of the family of its shape, and the rest of the shape is kept. -/
theorem core_kind (E : Env K A) (C : Configuration) (real : Bool) (inputs : Option A) (m m' : Magnetic K A)
    (h : complete E C real inputs m = .ok m') : ∃ s s', resolveShape E m.core.shape = some s ∧ m'.core.shape = .data s' ∧
      s'.family = s.family ∧ s'.rest = s.rest ∧
      (s.family = .t → m'.core.type = .toroidal ∧ s'.circuit = some .closed) ∧
      (s.family = .drum → m'.core.type = .openShape ∧ s'.circuit = some .opened) ∧
      (s.family = .molded → m'.core.type = .closedShape ∧ s'.circuit = some .closed) ∧
      (s.family ∈ [Family.ui, .pqi, .drumRing, .drumSemishielded] → m'.core.type = .pieceAndPlate ∧ s'.circuit = some .closed) ∧
      (∀ n, s.family = .other n → m'.core.type = .twoPieceSet ∧ s'.circuit = some .opened) := by
  obtain ⟨core, ws, b, coil, coil', h1, -, -, -, -, rfl⟩ := complete_ok h
  obtain ⟨s, x, hs, -, ht, hsh, -⟩ := completeCore_ok h1
  refine ⟨s, _, hs, hsh, rfl, rfl, ?_, ?_, ?_, ?_, ?_⟩
  all_goals simp only [ht]
  · intro hf; simp [hf, kindOf]
  · intro hf; simp [hf, kindOf]
  · intro hf; simp [hf, kindOf]
  · intro hf
    simp only [List.mem_cons, List.not_mem_nil, or_false] at hf
    rcases hf with hf | hf | hf | hf <;> simp [hf, kindOf]
  · intro n hf; simp [hf, kindOf]

/-- **C255.** A processed description and a geometrical description that are given are kept, whatever the gaps; with a processed description the gaps are
kept too, but for toroids, which have none. -/
theorem descriptions_kept (E : Env K A) (C : Configuration) (real : Bool) (inputs : Option A) (m m' : Magnetic K A)
    (h : complete E C real inputs m = .ok m') : (∀ g, m.core.geometry = some g → m'.core.geometry = some g) ∧ m'.core.processed ≠ none ∧
      ∀ p, m.core.processed = some p → m'.core.processed = some p ∧
        ∀ s, resolveShape E m.core.shape = some s → (s.family = .t → m'.core.gaps = []) ∧ (s.family ≠ .t → m'.core.gaps = m.core.gaps) := by
  obtain ⟨core, ws, b, coil, coil', h1, -, -, -, -, rfl⟩ := complete_ok h
  obtain ⟨s, x, hs, -, -, -, -, -, k1, k2, k3, -⟩ := completeCore_ok h1
  refine ⟨k3, ?_, fun p hp => ⟨(k1 p hp).1, fun s' hs' => ?_⟩⟩
  · cases hp : m.core.processed with
    | none =>
      obtain ⟨p, gs, e, -⟩ := k2 hp
      simp [e]
    | some p => simp [(k1 p hp).1]
  · rw [hs] at hs'
    simp only [Option.some.injEq] at hs'
    subst hs'
    have := (k1 p hp).2
    exact ⟨fun hf => by simpa [hf] using this, fun hf => by simpa [hf] using this⟩

/-- **C255.** A two-piece set with a gap of negative length is refused. -/
theorem negative_gap_refused (E : Env K A) (C : Configuration) (real : Bool) (inputs : Option A) (m : Magnetic K A) (s : Shape A)
    (hs : resolveShape E m.core.shape = some s) (n : ℕ) (hf : s.family = .other n) (g : Gap K A) (hg : g ∈ m.core.gaps) (hl : g.length < 0) :
    complete E C real inputs m = .throws := by
  have : withShape E m.core = .throws := by
    unfold withShape
    rw [hs]
    simp only [Res.of, Res.bind, hf]
    rw [if_pos (List.any_eq_true.2 ⟨g, hg, by simpa using hl⟩)]
  simp [complete, completeCore, this, Res.bind]

/-- **C256.** A completed core has one material alone, the first of those it was given: the materials of its other pieces are lost. -/
theorem grades_lost (E : Env K A) (C : Configuration) (real : Bool) (inputs : Option A) (m m' : Magnetic K A)
    (h : complete E C real inputs m = .ok m') (xs : List A) (hx : resolveMaterials E m.core.material = some xs) :
    ∃ x rest, xs = x :: rest ∧ resolveMaterials E m'.core.material = some [x] := by
  obtain ⟨core, ws, b, coil, coil', h1, -, -, -, -, rfl⟩ := complete_ok h
  obtain ⟨s, x, -, hm, -, -, k, -⟩ := completeCore_ok h1
  have hr : resolveMaterials E core.material = some [x] := by simp [k, resolveMaterials, resolveOne]
  cases hmat : m.core.material with
  | one q =>
    rw [hmat] at hx hm
    simp only [resolveMaterial] at hm
    simp only [resolveMaterials, hm, Option.map_some, Option.some.injEq] at hx
    exact ⟨x, [], hx.symm, hr⟩
  | several l =>
    rw [hmat] at hx hm
    cases l with
    | nil => simp [resolveMaterial] at hm
    | cons q l =>
      simp only [resolveMaterial] at hm
      simp only [resolveMaterials, List.mapM_cons, hm, Option.pure_def, Option.bind_eq_bind, Option.bind_some, Option.bind_eq_some_iff,
        Option.some.injEq] at hx
      obtain ⟨rest, -, rfl⟩ := hx
      exact ⟨x, rest, rfl, hr⟩

/-- **C256.** With a single material, all materials are kept. -/
theorem grades_kept_partial (E : Env K A) (C : Configuration) (real : Bool) (inputs : Option A) (m m' : Magnetic K A)
    (h : complete E C real inputs m = .ok m') (q : Named A) (hq : m.core.material = .one q) :
    resolveMaterials E m'.core.material = resolveMaterials E m.core.material := by
  obtain ⟨core, ws, b, coil, coil', h1, -, -, -, -, rfl⟩ := complete_ok h
  obtain ⟨s, x, -, hm, -, -, k, -⟩ := completeCore_ok h1
  rw [hq] at hm
  simp only [resolveMaterial] at hm
  rw [k, hq]
  simp only [resolveMaterials, hm]
  rfl

/-! ## Theorems: the windings -/

/-- **C257.** The completed coil has as many windings as it had; each has the name, turns and parallels it had, or the name of its side, one turn and one
parallel where it had none; and the data of its wire, with its outer dimensions and the material of its coating. What was given of a wire is kept. -/
theorem windings_complete (E : Env K A) (C : Configuration) (real : Bool) (inputs : Option A) (m m' : Magnetic K A)
    (h : complete E C real inputs m = .ok m') : m'.coil.windings.length = m.coil.windings.length ∧
      ∀ (i : ℕ) (w w' : Winding K A), m.coil.windings[i]? = some w → m'.coil.windings[i]? = some w' →
        (w.name ≠ "" → w'.name = w.name) ∧ (w.name = "" → w'.name = E.sideName i) ∧ (w.turns ≠ 0 → w'.turns = w.turns) ∧
        (w.turns = 0 → w'.turns = 1) ∧ (w.parallels ≠ 0 → w'.parallels = w.parallels) ∧ (w.parallels = 0 → w'.parallels = 1) ∧
        ∃ x', w'.wire = .data x' ∧ FullWire x' ∧ (∀ x, w.wire = .data x → KeepsWire x x') ∧
          ∀ s x, w.wire = .name s → E.findWire (if s = "" then "Dummy" else s) = some x → KeepsWire x x' := by
  obtain ⟨core, ws, b, coil, coil', -, h2, -, h4, h5, rfl⟩ := complete_ok h
  obtain ⟨e1, -⟩ := wound_ok h4
  obtain ⟨ls, rfl, -⟩ := withLayers_ok h5
  obtain ⟨a1, a2⟩ := completeWires_ok 0 _ _ h2
  simp only [e1]
  refine ⟨by simpa using a1, fun i w w' hw hw' => ?_⟩
  have := a2 i (named E i w) w' (by simp [List.getElem?_mapIdx, hw]) hw'
  obtain ⟨b1, b2, b3, x, x', b4, b5, b6, b7⟩ := completeWire_ok this
  simp only [named] at b1 b2 b3 b4
  refine ⟨fun hn => by rw [b1, if_neg hn], fun hn => by rw [b1, if_pos hn], fun hn => by rw [b2, if_neg hn], fun hn => by rw [b2, if_pos hn],
    fun hn => by rw [b3, if_neg hn], fun hn => by rw [b3, if_pos hn], x', b5, b6, fun y hy => ?_, fun s y hs hy => ?_⟩
  · rw [hy] at b4
    simp only [resolveWire, Option.some.injEq] at b4
    exact b4 ▸ b7
  · rw [hs] at b4
    simp only [resolveWire, hy, Option.some.injEq] at b4
    exact b4 ▸ b7

/-- **C257.** A wire without coating is given a bare one; a coating without material is given that of its kind, enamel or the default insulation. -/
theorem default_coating (E : Env K A) (C : Configuration) (real : Bool) (inputs : Option A) (m m' : Magnetic K A)
    (h : complete E C real inputs m = .ok m') (i : ℕ) (w w' : Winding K A) (hw : m.coil.windings[i]? = some w)
    (hw' : m'.coil.windings[i]? = some w') (x : Wire K A) (hx : w.wire = .data x) : ∃ x' c', w'.wire = .data x' ∧ x'.coating = some (.data c') ∧
      (x.coating = none → c'.kind = some .bare ∧ c'.material = (E.findInsulation E.insulation).map .data) ∧
      ∀ c k, x.coating = some (.data c) → c.material = none → c.kind = some k →
        (k = .enamelled → c'.material = (E.findInsulation E.enamel).map .data) ∧
        (k ≠ .enamelled → c'.material = (E.findInsulation E.insulation).map .data) := by
  obtain ⟨core, ws, b, coil, coil', -, h2, -, h4, h5, rfl⟩ := complete_ok h
  obtain ⟨e1, -⟩ := wound_ok h4
  obtain ⟨ls, rfl, -⟩ := withLayers_ok h5
  obtain ⟨a1, a2⟩ := completeWires_ok 0 _ _ h2
  simp only [e1] at hw'
  have := a2 i (named E i w) w' (by simp [List.getElem?_mapIdx, hw]) hw'
  unfold completeWire at this
  have hn : (named E i w).wire = .data x := by simp [named, hx]
  rw [hn] at this
  obtain ⟨y, hy, this⟩ := bind_ok this
  have hy' := of_ok hy
  simp only [resolveWire, Option.some.injEq] at hy'
  subst hy'
  obtain ⟨c', hc, this⟩ := bind_ok this
  obtain ⟨st, -, this⟩ := bind_ok this
  have hc' := of_ok hc
  split at this
  · simp at this
  · rename_i x' ho
    simp only [Res.ok.injEq] at this
    refine ⟨x', c', by rw [← this], (outerOf_some ho).2.2.1, fun hn => ?_, fun c k hcx hm hk => ⟨fun hke => ?_, fun hke => ?_⟩⟩
    · rw [hn] at hc'
      simp only [completeCoating, givenCoating, coatingMaterial, resolveInsulation, Option.bind_some, reduceCtorEq, if_false,
        Option.map_eq_some_iff] at hc'
      obtain ⟨z, hz, rfl⟩ := hc'
      simp [hz]
    · rw [hcx] at hc'
      simp only [completeCoating, givenCoating, coatingMaterial, resolveInsulation, Option.bind_some, hm, hk, hke, if_true,
        Option.map_eq_some_iff] at hc'
      obtain ⟨z, hz, rfl⟩ := hc'
      simp [hz]
    · rw [hcx] at hc'
      simp only [completeCoating, givenCoating, coatingMaterial, resolveInsulation, Option.bind_some, hm, hk, hke, if_false,
        Option.map_eq_some_iff] at hc'
      obtain ⟨z, hz, rfl⟩ := hc'
      simp [hz]

/-- **C257.** A magnetic is refused with the name of a winding only if the wire of that winding lacks outer dimensions. -/
theorem refused_wire_unsized (E : Env K A) (C : Configuration) (real : Bool) (inputs : Option A) (m : Magnetic K A) (i : ℕ)
    (h : complete E C real inputs m = .wire i) : ∃ w x, m.coil.windings[i]? = some w ∧ resolveWire E (named E i w).wire = some x ∧ ¬Sized x := by
  have hcore : ∀ c : Core K A, completeCore E c ≠ .wire i := by
    intro c hc
    unfold completeCore at hc
    rcases bind_wire hc with hc | ⟨_, -, hc⟩
    · unfold withShape at hc
      rcases bind_wire hc with hc | ⟨s, -, hc⟩
      · exact of_wire hc
      · simp only at hc
        split at hc
        · simp at hc
        · split at hc <;> simp at hc
        · simp at hc
    rcases bind_wire hc with hc | ⟨_, -, hc⟩
    · unfold withMaterial at hc
      rcases bind_wire hc with hc | ⟨_, -, hc⟩
      · exact of_wire hc
      · simp at hc
    rcases bind_wire hc with hc | ⟨_, -, hc⟩
    · unfold withProcessed at hc
      split at hc
      · simp at hc
      · rcases bind_wire hc with hc | ⟨_, -, hc⟩
        · exact of_wire hc
        · simp at hc
    · unfold withGeometry at hc
      split at hc
      · simp at hc
      · rcases bind_wire hc with hc | ⟨_, -, hc⟩
        · exact of_wire hc
        · simp at hc
  have hfirst : ∀ ws : List (Winding K A), firstType ws ≠ .wire i := by
    intro ws
    rcases ws with _ | ⟨⟨_, _, _, _ | _⟩, _⟩ <;> simp [firstType]
  unfold complete at h
  rcases bind_wire h with h1 | ⟨core, -, h1⟩
  · exact absurd h1 (hcore _)
  rcases bind_wire h1 with h2 | ⟨ws, -, h2⟩
  · obtain ⟨k, w, rfl, hk, x, hx, hs⟩ := completeWires_wire 0 _ i h2
    simp only [List.getElem?_mapIdx, Option.map_eq_some_iff] at hk
    obtain ⟨w0, hw0, rfl⟩ := hk
    exact ⟨w0, x, by simpa using hw0, by simpa using hx, hs⟩
  rcases bind_wire h2 with h3 | ⟨b, -, h3⟩
  · exfalso
    unfold completeBobbin at h3
    rcases bind_wire h3 with h3 | ⟨b, -, h3⟩
    · exact of_wire h3
    rcases bind_wire h3 with h3 | ⟨b, -, h3⟩
    · unfold someBobbin at h3
      split at h3
      · split at h3
        · rcases bind_wire h3 with h3 | ⟨b, -, h3⟩
          · exact hfirst _ h3
          · exact of_wire h3
        · exact of_wire h3
      · simp at h3
    · unfold oriented at h3
      split at h3 <;> try simp at h3
      split at h3 <;> simp at h3
  rcases bind_wire h3 with h4 | ⟨c, -, h4⟩
  · exfalso
    unfold wound at h4
    rcases bind_wire h4 with h4 | ⟨again, -, h4⟩
    · unfold rewinds at h4
      rcases bind_wire h4 with h4 | ⟨_, -, h4⟩
      · split at h4
        · rcases bind_wire h4 with h4 | ⟨_, -, h4⟩
          · exact hfirst _ h4
          · simp at h4
        · simp at h4
      · simp at h4
    · split at h4
      · rcases bind_wire h4 with h4 | ⟨_, -, h4⟩
        · unfold patternFor at h4
          split at h4
          · simp at h4
          · split at h4 <;> simp at h4
        · rcases bind_wire h4 with h4 | ⟨_, -, h4⟩
          · exact of_wire h4
          · simp at h4
      · simp at h4
  · exfalso
    rcases bind_wire h4 with h4 | ⟨_, -, h4⟩
    · unfold withLayers at h4
      split at h4
      · simp at h4
      · rcases bind_wire h4 with h4 | ⟨_, -, h4⟩
        · exact of_wire h4
        · simp at h4
    · simp at h4

/-- **C257.** If the names given are different from each other and from those of the sides of the windings without one, so are those of the completed coil. -/
theorem names_distinct_partial (E : Env K A) (C : Configuration) (real : Bool) (inputs : Option A) (m m' : Magnetic K A)
    (h : complete E C real inputs m = .ok m') (hside : Function.Injective E.sideName)
    (hn : ∀ (i j : ℕ) (w v : Winding K A), i ≠ j → m.coil.windings[i]? = some w → m.coil.windings[j]? = some v →
      (w.name ≠ "" → w.name ≠ v.name) ∧ (w.name ≠ "" → v.name = "" → w.name ≠ E.sideName j))
    (i j : ℕ) (hij : i ≠ j) (w v : Winding K A) (hw : m'.coil.windings[i]? = some w) (hv : m'.coil.windings[j]? = some v) : w.name ≠ v.name := by
  obtain ⟨a, b⟩ := windings_complete E C real inputs m m' h
  have hi := (List.getElem?_eq_some_iff.mp hw).1
  have hj := (List.getElem?_eq_some_iff.mp hv).1
  have ei : m.coil.windings[i]? = some (m.coil.windings[i]'(by omega)) := List.getElem?_eq_getElem (by omega)
  have ej : m.coil.windings[j]? = some (m.coil.windings[j]'(by omega)) := List.getElem?_eq_getElem (by omega)
  obtain ⟨b1, b2, -⟩ := b i _ w ei hw
  obtain ⟨c1, c2, -⟩ := b j _ v ej hv
  obtain ⟨d1, d2⟩ := hn i j _ _ hij ei ej
  obtain ⟨-, f2⟩ := hn j i _ _ (Ne.symm hij) ej ei
  by_cases hwn : (m.coil.windings[i]'(by omega)).name = ""
  · rw [b2 hwn]
    by_cases hvn : (m.coil.windings[j]'(by omega)).name = ""
    · rw [c2 hvn]; exact fun e => hij (hside e)
    · rw [c1 hvn]; exact fun e => f2 hvn hwn e.symm
  · rw [b1 hwn]
    by_cases hvn : (m.coil.windings[j]'(by omega)).name = ""
    · rw [c2 hvn]; exact d2 hwn hvn
    · rw [c1 hvn]; exact d1 hwn

/-! ## Theorems: bobbin, winding and layers -/

/-- The same keys in two configurations, and the same level and pattern. -/
def SameKeys (C C' : Configuration) : Prop :=
  C.windingOrientation.isSome = C'.windingOrientation.isSome ∧ C.sectionAlignment.isSome = C'.sectionAlignment.isSome ∧
    C.layersOrientation.isSome = C'.layersOrientation.isSome ∧ C.turnsAlignment.isSome = C'.turnsAlignment.isSome ∧
    C.level = C'.level ∧ C.pattern = C'.pattern

/-- **C258.** What a configuration says of the orientations and alignments makes no difference: only whether it says anything does. -/
theorem configuration_ignored (E : Env K A) (C C' : Configuration) (hc : SameKeys C C') (real : Bool) (inputs : Option A) (m : Magnetic K A) :
    complete E C real inputs m = complete E C' real inputs m := by
  obtain ⟨a1, a2, a3, a4, a5, a6⟩ := C
  obtain ⟨b1, b2, b3, b4, b5, b6⟩ := C'
  obtain ⟨h1, h2, h3, h4, h5, h6⟩ := hc
  simp only at h1 h2 h3 h4 h5 h6
  subst h5 h6
  have e1 : ∀ (t : CoreType) (ws : List (Winding K A)), orientationFor ⟨a1, a2, a3, a4, a5, a6⟩ t ws = orientationFor ⟨b1, b2, b3, b4, a5, a6⟩ t ws := by
    intro t ws
    cases a1 <;> cases b1 <;> simp_all [orientationFor]
  have e2 : ∀ (t : CoreType) (ws : List (Winding K A)), alignmentFor ⟨a1, a2, a3, a4, a5, a6⟩ t ws = alignmentFor ⟨b1, b2, b3, b4, a5, a6⟩ t ws := by
    intro t ws
    cases a2 <;> cases b2 <;> simp_all [alignmentFor]
  have e3 : ∀ (t : CoreType) (c : Coil K A), configured ⟨a1, a2, a3, a4, a5, a6⟩ inputs t c = configured ⟨b1, b2, b3, b4, a5, a6⟩ inputs t c := by
    intro t c
    cases a3 <;> cases b3 <;> cases a4 <;> cases b4 <;> simp_all [configured]
  have e4 : ∀ c : Coil K A, patternFor ⟨a1, a2, a3, a4, a5, a6⟩ c = patternFor ⟨b1, b2, b3, b4, a5, a6⟩ c := fun c => rfl
  simp only [complete, completeBobbin, oriented, wound, e1, e2, e3, e4]

/-- **C258.** Without anything in the configuration about them, sections of a two-piece set that is not edge-wound are overlapping and centered, and those
of any other are contiguous and spread; a first winding window that has an orientation is kept as it is. -/
theorem default_orientation (E : Env K A) (C : Configuration) (real : Bool) (inputs : Option A) (m m' : Magnetic K A)
    (h : complete E C real inputs m = .ok m') : ∃ b w rest, m'.coil.bobbin = .data b ∧ b.processed = some (w :: rest) ∧ w.orientation ≠ none ∧
      ∀ b0 w0 rest0, m.coil.bobbin = .data b0 → b0.processed = some (w0 :: rest0) → rest = rest0 ∧ w.rest = w0.rest ∧
        (w0.orientation ≠ none → w = w0) ∧
        (w0.orientation = none → C.windingOrientation = none → C.sectionAlignment = none →
          ((m'.core.type = .twoPieceSet ∧ ∃ v ∈ m'.coil.windings, ∃ x, v.wire = .data x ∧ x.type ≠ .rectangular) →
            w.orientation = some .overlapping ∧ w.alignment = some .centered) ∧
          (¬(m'.core.type = .twoPieceSet ∧ ∃ v ∈ m'.coil.windings, ∃ x, v.wire = .data x ∧ x.type ≠ .rectangular) →
            w.orientation = some .contiguous ∧ w.alignment = some .spread)) := by
  have hw := windings_complete E C real inputs m m' h
  obtain ⟨core, ws, b, coil, coil', -, h2, h3, h4, h5, rfl⟩ := complete_ok h
  obtain ⟨e1, e2, -⟩ := wound_ok h4
  obtain ⟨ls, rfl, -⟩ := withLayers_ok h5
  simp only [e1] at hw
  unfold completeBobbin at h3
  obtain ⟨b1, g1, h3⟩ := bind_ok h3
  obtain ⟨b2, g2, h3⟩ := bind_ok h3
  obtain ⟨-, -, w, rest, o, k1, w', k2, k3, k4, k5, k6⟩ := oriented_ok h3
  simp only [e1, e2]
  refine ⟨b, w', rest, rfl, k2, by simp [k3], fun b0 w0 rest0 hb0 hp0 => ?_⟩
  rw [hb0] at g1
  have g1' := of_ok g1
  simp only [givenBobbin, Option.some.injEq] at g1'
  subst g1'
  have hb2 : b2 = b0 := by
    unfold someBobbin at g2
    rw [if_neg (by simp [hp0])] at g2
    simpa [eq_comm] using g2
  subst hb2
  rw [hp0] at k1
  simp only [Option.some.injEq, List.cons.injEq] at k1
  obtain ⟨rfl, rfl⟩ := k1
  refine ⟨rfl, k4, fun hn => ?_, fun hn c1 c2 => ?_⟩
  · obtain ⟨o', ho'⟩ := Option.ne_none_iff_exists'.mp hn
    exact k5 o' ho'
  · obtain ⟨ko, ka⟩ := k6 hn
    subst ko
    have hedge : edgeWound ws = true ↔ ¬∃ v ∈ ws, ∃ x, v.wire = .data x ∧ x.type ≠ .rectangular := by
      unfold edgeWound
      rw [List.all_eq_true]
      constructor
      · rintro ha ⟨v, hv, x, hx, hne⟩
        have := ha v hv
        rw [hx] at this
        simp only [decide_eq_true_eq] at this
        exact hne this
      · intro hne v hv
        obtain ⟨i, hi, rfl⟩ := List.mem_iff_getElem.mp hv
        have hi' : i < m.coil.windings.length := by omega
        obtain ⟨-, -, -, -, -, -, x', hx', -⟩ := hw.2 i _ _ (List.getElem?_eq_getElem hi') (List.getElem?_eq_getElem hi)
        rw [hx']
        simp only [decide_eq_true_eq]
        by_contra hr
        exact hne ⟨_, hv, x', hx', hr⟩
    rw [k3, ka]
    unfold orientationFor alignmentFor
    rw [c1, c2]
    simp only
    refine ⟨fun hh => ?_, fun hh => ?_⟩
    · rw [if_pos hh.1, if_pos hh.1]
      have : ¬edgeWound ws = true := fun he => hedge.1 he hh.2
      rw [if_neg this, if_neg this]
      exact ⟨rfl, rfl⟩
    · by_cases ht : core.type = .twoPieceSet
      · have : edgeWound ws = true := hedge.2 fun he => hh ⟨ht, he⟩
        rw [if_pos ht, if_pos ht, if_pos this, if_pos this]
        exact ⟨rfl, rfl⟩
      · rw [if_neg ht, if_neg ht]
        exact ⟨rfl, rfl⟩

/-- **C259.** A coil with turns is kept as it was wound, unless real winding geometry is asked for: turns and sections are the same, and layers but for
their materials. -/
theorem winding_kept (E : Env K A) (C : Configuration) (inputs : Option A) (m m' : Magnetic K A)
    (h : complete E C false inputs m = .ok m') (ht : m.coil.wound.turns ≠ none) :
    m'.coil.wound.turns = m.coil.wound.turns ∧ m'.coil.wound.sections = m.coil.wound.sections ∧ m'.coil.level = m.coil.level ∧
      m'.coil.turnsAlignment = m.coil.turnsAlignment ∧ m'.coil.layersOrientation = m.coil.layersOrientation ∧ m'.coil.inputs = m.coil.inputs ∧
      (m.coil.wound.layers = none → m'.coil.wound.layers = none) ∧
      ∀ ls, m.coil.wound.layers = some ls → ∃ ls', m'.coil.wound.layers = some ls' ∧
        List.Forall₂ (fun l l' : Layer A => l'.name = l.name ∧ l'.rest = l.rest) ls ls' := by
  obtain ⟨core, ws, b, coil, coil', -, -, -, h4, h5, rfl⟩ := complete_ok h
  obtain ⟨t, ht'⟩ := Option.ne_none_iff_exists'.mp ht
  obtain ⟨-, -, -, ⟨-, rfl⟩ | ⟨hr, -⟩⟩ := wound_ok h4
  · obtain ⟨ls', rfl, l1, l2⟩ := withLayers_ok h5
    refine ⟨rfl, rfl, rfl, rfl, rfl, rfl, l1, fun ls hls => ?_⟩
    obtain ⟨l, rfl, hl⟩ := l2 ls hls
    refine ⟨l, rfl, ?_⟩
    refine (mapM_some hl).imp fun x y hxy => ?_
    simp only [Option.map_eq_some_iff] at hxy
    obtain ⟨_, -, rfl⟩ := hxy
    exact ⟨rfl, rfl⟩
  · simp [rewinds, Res.bind, ht'] at hr

/-- **C259.** Each layer of a completed coil has the data of its material, the one it has data of if its name is its own. -/
theorem layers_complete (E : Env K A) (C : Configuration) (real : Bool) (inputs : Option A) (m m' : Magnetic K A)
    (h : complete E C real inputs m = .ok m') (ls : List (Layer A)) (hl : m'.coil.wound.layers = some ls) :
    ∀ l ∈ ls, ∃ x, l.material = some (.data x) := by
  obtain ⟨core, ws, b, coil, coil', -, -, -, -, h5, rfl⟩ := complete_ok h
  obtain ⟨ls', rfl, l1, l2⟩ := withLayers_ok h5
  simp only at hl
  cases hc : coil.wound.layers with
  | none => rw [l1 hc] at hl; simp at hl
  | some l0 =>
    obtain ⟨l, rfl, e⟩ := l2 l0 hc
    simp only [Option.some.injEq] at hl
    subst hl
    intro y hy
    have := mapM_some e
    obtain ⟨i, hi, rfl⟩ := List.mem_iff_getElem.mp hy
    have hlen := this.length_eq
    have := (List.forall₂_iff_get.mp this).2 i (by omega) hi
    simp only [List.get_eq_getElem, Option.map_eq_some_iff] at this
    obtain ⟨x, -, hx⟩ := this
    exact ⟨x, by rw [← hx]⟩

theorem configured_wound (C : Configuration) (inputs : Option A) (t : CoreType) (c : Coil K A) : (configured C inputs t c).wound = c.wound := rfl

theorem configured_windings (C : Configuration) (inputs : Option A) (t : CoreType) (c : Coil K A) : (configured C inputs t c).windings = c.windings := rfl

/-- **C259.** A coil without turns is wound with the pattern of the configuration, once; or else that of its sections; or else each winding once, as often as
the level says. -/
theorem wound_pattern (E : Env K A) (C : Configuration) (real : Bool) (inputs : Option A) (m m' : Magnetic K A)
    (h : complete E C real inputs m = .ok m') (ht : m.coil.wound.turns = none) : ∃ c p r w, E.wind c p r = some w ∧
      m'.coil.wound.turns = w.turns ∧ m'.coil.wound.sections = w.sections ∧ c.wound = m.coil.wound ∧ c.windings = m'.coil.windings ∧
      (∀ q, C.pattern = some q → p = q ∧ r = 1) ∧
      (C.pattern = none → m.coil.wound.sections = none → p = List.range m.coil.windings.length ∧ r = c.level) ∧
      (∀ ss s, C.pattern = none → m.coil.wound.sections = some ss → s ≠ [] →
        Verif.Pattern.Winds (m'.coil.windings.map Winding.name) ss s → Verif.Pattern.expand p r = s) ∧
      (∀ l : ℤ, C.level = some l → 0 ≤ l → l < 256 → (c.level : ℤ) = l) ∧ (C.level = none → c.level = m.coil.level) ∧
      (∀ i, inputs = some i → c.inputs = some i) := by
  have hlen := (windings_complete E C real inputs m m' h).1
  obtain ⟨core, ws, b, coil, coil', -, -, -, h4, h5, rfl⟩ := complete_ok h
  obtain ⟨ls, rfl, -⟩ := withLayers_ok h5
  obtain ⟨e1, -, -, ⟨hr, -⟩ | ⟨-, p, w, h6, h7, rfl⟩⟩ := wound_ok h4
  · exfalso
    unfold rewinds at hr
    obtain ⟨_, -, hr⟩ := bind_ok hr
    simp [ht] at hr
  · simp only at e1 hlen
    refine ⟨_, p.1, p.2, w, h7, rfl, rfl, rfl, rfl, fun q hq => ?_, fun hq hs => ?_, fun ss s hq hs hne hw => ?_, fun l hl h0 h256 => ?_, fun hl => ?_,
      fun i hi => ?_⟩
    · simp only [patternFor, hq, Res.ok.injEq] at h6
      subst h6
      exact ⟨rfl, rfl⟩
    · simp only [patternFor, hq] at h6
      simp only [configured_wound, hs, Verif.Pattern.derive, configured_windings, Res.ok.injEq] at h6
      subst h6
      have hlen' : ws.length = m.coil.windings.length := hlen
      exact ⟨by rw [← hlen'], rfl⟩
    · simp only [patternFor, hq] at h6
      obtain ⟨p', r', hd⟩ := (Verif.Pattern.derivable_iff _ ss).2 ⟨s, hne, hw⟩
      simp only [configured_wound, hs, configured_windings] at h6
      simp only [configured_windings] at hd
      rw [hd] at h6
      simp only [Res.ok.injEq] at h6
      subst h6
      obtain ⟨ss', s', q1, q2, -, q3, -⟩ := Verif.Pattern.derived_pattern hd
      simp only [Option.some.injEq] at q1
      subst q1
      have e : Verif.Pattern.sequence (ws.map Winding.name) ss = some s := (Verif.Pattern.sequence_iff _ _ _).2 hw
      have e' := (Verif.Pattern.sequence_iff _ _ _).2 q2
      rw [e] at e'
      simp only [Option.some.injEq] at e'
      exact e' ▸ q3
    · simp only [configured, hl]
      omega
    · simp [configured, hl]
    · simp [configured, hi]

/-! ## Theorems: defined, and once is enough -/

/-- A bobbin with a winding window. -/
def Windowed (b : Bobbin A) : Prop := ∃ w rest, b.processed = some (w :: rest)

theorem firstType_defined {ws : List (Winding K A)} (hne : ws ≠ []) (hd : ∀ w ∈ ws, ∃ x, w.wire = .data x) : firstType ws ≠ .ub := by
  cases ws with
  | nil => exact absurd rfl hne
  | cons w ws =>
    obtain ⟨x, hx⟩ := hd w (by simp)
    obtain ⟨n, t, p, y⟩ := w
    simp only at hx
    subst hx
    simp [firstType]

theorem completeWires_ub (E : Env K A) : ∀ (i : ℕ) (ws : List (Winding K A)), completeWires E i ws ≠ .ub := by
  intro i ws
  induction ws generalizing i with
  | nil => simp [completeWires]
  | cons w ws ih =>
    intro h
    simp only [completeWires] at h
    rcases bind_ub h with h | ⟨_, -, h⟩
    · unfold completeWire at h
      rcases bind_ub h with h | ⟨_, -, h⟩
      · exact of_ub h
      rcases bind_ub h with h | ⟨_, -, h⟩
      · exact of_ub h
      rcases bind_ub h with h | ⟨_, -, h⟩
      · exact of_ub h
      split at h <;> simp at h
    · rcases bind_ub h with h | ⟨_, -, h⟩
      · exact ih _ h
      · simp at h

/-- **C260.** A magnetic with windings, whose bobbin, if it is given with any description, has a winding window, is completed or refused: the code never reads
what is not there. Quick bobbins and those of the catalogue have a winding window. -/
theorem complete_defined (E : Env K A) (C : Configuration) (real : Bool) (inputs : Option A) (m : Magnetic K A) (hw : m.coil.windings ≠ [])
    (hq : ∀ c p b, E.quick c p = some b → Windowed b) (hf : ∀ s b, E.findBobbin s = some b → Windowed b)
    (hb : ∀ b, m.coil.bobbin = .data b → Windowed b ∨ (b.functional = none ∧ b.processed = none)) :
    complete E C real inputs m ≠ .ub := by
  intro h
  unfold complete at h
  rcases bind_ub h with h1 | ⟨core, -, h1⟩
  · unfold completeCore at h1
    rcases bind_ub h1 with h1 | ⟨_, -, h1⟩
    · unfold withShape at h1
      rcases bind_ub h1 with h1 | ⟨s, -, h1⟩
      · exact of_ub h1
      · simp only at h1
        split at h1
        · simp at h1
        · split at h1 <;> simp at h1
        · simp at h1
    rcases bind_ub h1 with h1 | ⟨_, -, h1⟩
    · unfold withMaterial at h1
      rcases bind_ub h1 with h1 | ⟨_, -, h1⟩
      · exact of_ub h1
      · simp at h1
    rcases bind_ub h1 with h1 | ⟨_, -, h1⟩
    · unfold withProcessed at h1
      split at h1
      · simp at h1
      · rcases bind_ub h1 with h1 | ⟨_, -, h1⟩
        · exact of_ub h1
        · simp at h1
    · unfold withGeometry at h1
      split at h1
      · simp at h1
      · rcases bind_ub h1 with h1 | ⟨_, -, h1⟩
        · exact of_ub h1
        · simp at h1
  rcases bind_ub h1 with h2 | ⟨ws, hws, h2⟩
  · exact completeWires_ub E _ _ h2
  have hd : ws ≠ [] ∧ ∀ w ∈ ws, ∃ x, w.wire = .data x := by
    obtain ⟨a1, a2⟩ := completeWires_ok 0 _ _ hws
    simp only [List.length_mapIdx] at a1
    refine ⟨fun e => hw (List.length_eq_zero_iff.mp (by rw [← a1, e]; rfl)), fun w hm => ?_⟩
    obtain ⟨i, hi, rfl⟩ := List.mem_iff_getElem.mp hm
    have hi' : i < m.coil.windings.length := by omega
    obtain ⟨-, -, -, x, x', -, b5, -⟩ := completeWire_ok (a2 i (named E i m.coil.windings[i]) ws[i]
      (by simp [List.getElem?_mapIdx, hi']) (List.getElem?_eq_getElem hi))
    exact ⟨x', b5⟩
  have hft := firstType_defined hd.1 hd.2
  rcases bind_ub h2 with h3 | ⟨b, -, h3⟩
  · unfold completeBobbin at h3
    rcases bind_ub h3 with h3 | ⟨b, hg, h3⟩
    · exact of_ub h3
    have hg' := of_ok hg
    have hb' : Windowed b ∨ (b.functional = none ∧ b.processed = none) := by
      unfold givenBobbin at hg'
      split at hg'
      · rename_i x hx
        simp only [Option.some.injEq] at hg'
        subst hg'
        exact hb _ hx
      · split at hg'
        · exact Or.inl (hq _ _ _ hg')
        · split at hg'
          · exact Or.inl (hq _ _ _ hg')
          · exact Or.inl (hf _ _ hg')
    rcases bind_ub h3 with h3 | ⟨b', hs, h3⟩
    · unfold someBobbin at h3
      split at h3
      · split at h3
        · rcases bind_ub h3 with h3 | ⟨_, -, h3⟩
          · exact hft h3
          · exact of_ub h3
        · exact of_ub h3
      · simp at h3
    · have hw' : Windowed b' := by
        unfold someBobbin at hs
        split at hs
        · split at hs
          · obtain ⟨_, -, hs⟩ := bind_ok hs
            exact hq _ _ _ (of_ok hs)
          · exact hq _ _ _ (of_ok hs)
        · rename_i hn
          simp only [Res.ok.injEq] at hs
          subst hs
          rcases hb' with hb' | ⟨q1, q2⟩
          · exact hb'
          · simp [q1, q2] at hn
      obtain ⟨w, rest, hw'⟩ := hw'
      unfold oriented at h3
      rw [hw'] at h3
      simp only at h3
      split at h3 <;> simp at h3
  rcases bind_ub h3 with h4 | ⟨c, -, h4⟩
  · unfold wound at h4
    rcases bind_ub h4 with h4 | ⟨again, -, h4⟩
    · unfold rewinds at h4
      rcases bind_ub h4 with h4 | ⟨_, -, h4⟩
      · split at h4
        · rcases bind_ub h4 with h4 | ⟨_, -, h4⟩
          · exact hft h4
          · simp at h4
        · simp at h4
      · simp at h4
    · split at h4
      · rcases bind_ub h4 with h4 | ⟨_, -, h4⟩
        · unfold patternFor at h4
          split at h4
          · simp at h4
          · split at h4
            · simp at h4
            · simp at h4
            · rename_i hu
              exact Verif.Pattern.never_ub _ _ hu
        · rcases bind_ub h4 with h4 | ⟨_, -, h4⟩
          · exact of_ub h4
          · simp at h4
      · simp at h4
  · rcases bind_ub h4 with h4 | ⟨_, -, h4⟩
    · unfold withLayers at h4
      split at h4
      · simp at h4
      · rcases bind_ub h4 with h4 | ⟨_, -, h4⟩
        · exact of_ub h4
        · simp at h4
    · simp at h4

theorem mapM_of_forall₂ {X Y : Type} {f : X → Option Y} : ∀ {l : List X} {l' : List Y}, List.Forall₂ (fun x y => f x = some y) l l' →
    l.mapM f = some l'
  | _, _, .nil => by simp
  | _, _, .cons h t => by simp [List.mapM_cons, h, mapM_of_forall₂ t]

theorem find_forall₂ {X Y : Type} {R : X → Y → Prop} {p : X → Bool} {q : Y → Bool} (hpq : ∀ x y, R x y → p x = q y) :
    ∀ {l : List X} {l' : List Y}, List.Forall₂ R l l' → ∀ x, l.find? p = some x → ∃ y, l'.find? q = some y ∧ R x y
  | _, _, .nil, x, h => by simp at h
  | _, _, .cons (a := a) (b := b) h t, x, hx => by
    by_cases hp : p a = true
    · rw [List.find?_cons_of_pos hp] at hx
      simp only [Option.some.injEq] at hx
      subst hx
      exact ⟨b, List.find?_cons_of_pos (by rw [← hpq a b h]; exact hp), h⟩
    · rw [List.find?_cons_of_neg hp] at hx
      obtain ⟨y, hy, hr⟩ := find_forall₂ hpq t x hx
      exact ⟨y, by rw [List.find?_cons_of_neg (by rw [← hpq a b h]; exact hp)]; exact hy, hr⟩

theorem completeLayers_again (E : Env K A) {ls ls' : List (Layer A)} (h : completeLayers E ls = some ls') : completeLayers E ls' = some ls' := by
  unfold completeLayers at h ⊢
  have hf := mapM_some h
  apply mapM_of_forall₂
  rw [List.forall₂_same]
  intro l' hl'
  obtain ⟨i, hi, rfl⟩ := List.mem_iff_getElem.mp hl'
  have hlen := hf.length_eq
  have hi' := (List.forall₂_iff_get.mp hf).2 i (by omega) hi
  simp only [List.get_eq_getElem, Option.map_eq_some_iff, Option.bind_eq_some_iff] at hi'
  obtain ⟨x, ⟨l0, h0, hx⟩, hl⟩ := hi'
  obtain ⟨y, hy, hr⟩ := find_forall₂ (q := fun z : Layer A => decide (z.name = (ls'[i]).name)) (p := fun z : Layer A => decide (z.name = (ls[i]).name))
    (fun a b hab => by
      simp only [Option.map_eq_some_iff] at hab
      obtain ⟨_, -, rfl⟩ := hab
      rw [← hl]) hf l0 h0
  rw [hy]
  have hname : l0.name = (ls[i]).name := by simpa using List.find?_some h0
  simp only [Option.map_eq_some_iff, Option.bind_eq_some_iff] at hr
  obtain ⟨x', ⟨l1, h1, hx'⟩, rfl⟩ := hr
  rw [hname, h0] at h1
  simp only [Option.some.injEq] at h1
  subst h1
  rw [hx] at hx'
  simp only [Option.some.injEq] at hx'
  subst hx'
  simp only [Option.bind_some, layerMaterial, Option.map_some, Option.some.injEq]
  rw [← hl]

/-- **C260.** A completed magnetic that has turns stays as it is when it is completed again, whatever the configuration and the inputs: of the placement of
gaps, it has to leave none in a toroid and none of negative length. -/
theorem complete_again (E : Env K A) (C C' : Configuration) (real : Bool) (inputs inputs' : Option A) (m m' : Magnetic K A)
    (h : complete E C real inputs m = .ok m') (ht : m'.coil.wound.turns ≠ none) (hside : ∀ i, E.sideName i ≠ "")
    (hp : ∀ c p gs, E.process c = some (p, gs) → (c.type = .toroidal → gs = []) ∧ (c.type = .twoPieceSet → ∀ g ∈ gs, 0 ≤ g.length)) :
    complete E C' false inputs' m' = .ok m' := by
  have hwc := windings_complete E C real inputs m m' h
  obtain ⟨core, ws, b, coil, coil', h1, h2, h3, h4, h5, rfl⟩ := complete_ok h
  -- the core
  have hcore : completeCore E core = .ok core := by
    unfold completeCore at h1
    obtain ⟨c1, g1, h1⟩ := bind_ok h1
    obtain ⟨c2, g2, h1⟩ := bind_ok h1
    obtain ⟨c3, g3, g4⟩ := bind_ok h1
    obtain ⟨s, hs, e1, hneg⟩ := withShape_ok g1
    unfold withMaterial at g2
    obtain ⟨x, -, g2⟩ := bind_ok g2
    simp only [Res.ok.injEq] at g2
    have hc3 : (∃ p, c3.processed = some p) ∧ c3.type = c2.type ∧ c3.shape = c2.shape ∧ c3.material = c2.material ∧
        (s.family = .t → c3.gaps = []) ∧ (∀ n, s.family = .other n → ∀ g ∈ c3.gaps, 0 ≤ g.length) := by
      unfold withProcessed at g3
      split at g3
      · rename_i p hp'
        simp only [Res.ok.injEq] at g3
        subst g3
        refine ⟨⟨p, hp'⟩, rfl, rfl, rfl, fun hf => ?_, fun n hf => ?_⟩
        · rw [← g2, e1]; simp [hf]
        · rw [← g2, e1]; simpa [hf] using hneg n hf
      · obtain ⟨r, hr, g3⟩ := bind_ok g3
        simp only [Res.ok.injEq] at g3
        subst g3
        have := hp _ _ _ (of_ok hr)
        refine ⟨⟨_, rfl⟩, rfl, rfl, rfl, fun hf => this.1 ?_, fun n hf => this.2 ?_⟩
        · rw [← g2, e1]; simp [hf, kindOf]
        · rw [← g2, e1]; simp [hf, kindOf]
    obtain ⟨⟨p, hp3⟩, t3, s3, m3, gt3, gn3⟩ := hc3
    have hshape : c2.shape = .data { s with circuit := some (kindOf s.family).2 } := by rw [← g2, e1]
    have htype : c2.type = (kindOf s.family).1 := by rw [← g2, e1]
    have hmat : c2.material = .one (.data x) := by rw [← g2]
    have hc : core.type = (kindOf s.family).1 ∧ core.shape = .data { s with circuit := some (kindOf s.family).2 } ∧ core.material = .one (.data x) ∧
        core.processed = some p ∧ core.gaps = c3.gaps ∧ withGeometry E core = .ok core := by
      unfold withGeometry at g4
      split at g4
      · rename_i g hg
        simp only [Res.ok.injEq] at g4
        subst g4
        exact ⟨by rw [t3, htype], by rw [s3, hshape], by rw [m3, hmat], hp3, rfl, by unfold withGeometry; rw [hg]⟩
      · rename_i hg
        obtain ⟨r, hr, g4⟩ := bind_ok g4
        simp only [Res.ok.injEq] at g4
        subst g4
        refine ⟨by rw [t3, htype], by rw [s3, hshape], by rw [m3, hmat], hp3, rfl, ?_⟩
        cases r with
        | none =>
          have hc3' : ({ c3 with geometry := none } : Core K A) = c3 := by
            obtain ⟨_, _, _, _, _, _⟩ := c3
            simp only at hg
            subst hg
            rfl
          rw [hc3']
          unfold withGeometry
          rw [hg]
          simp only [hr, Res.bind]
          rw [hc3']
        | some r => rfl
    obtain ⟨k1, k2, k3, k4, k5, k6⟩ := hc
    have w1 : withShape E core = .ok core := by
      unfold withShape
      rw [k2]
      simp only [resolveShape, Res.of, Res.bind]
      obtain ⟨ty, sh, ma, ga, pr, ge⟩ := core
      simp only at k1 k2 k3 k4 k5
      subst k1 k2 k5
      cases hf : s.family <;> simp only [hf]
      case t => rw [gt3 hf]
      case other n =>
        rw [if_neg]
        rw [List.any_eq_true]
        rintro ⟨g, hg, hlt⟩
        simp only [decide_eq_true_eq] at hlt
        exact absurd hlt (not_lt.mpr (gn3 n hf g hg))
    have w2 : withMaterial E core = .ok core := by
      unfold withMaterial
      rw [k3]
      simp only [resolveMaterial, resolveOne, Res.of, Res.bind, ← k3]
    have w3 : withProcessed E core = .ok core := by
      unfold withProcessed
      rw [k4]
    simp only [completeCore, w1, w2, w3, k6, Res.bind]
  -- the coil
  obtain ⟨-, e2, e3, -⟩ := wound_ok h4
  obtain ⟨ls, hls, l1, l2⟩ := withLayers_ok h5
  simp only at e2 e3 hwc ht
  have q2 : coil'.bobbin = .data b := by rw [hls]; exact e2
  have q3 : coil'.columns = columnsFor E core m.coil.columns := by rw [hls]; exact e3
  have q4 : coil'.wound.layers = ls := by rw [hls]
  have hwin : completeWindings E coil'.windings = .ok coil'.windings := by
    have hall : ∀ w ∈ coil'.windings, w.name ≠ "" ∧ w.turns ≠ 0 ∧ w.parallels ≠ 0 ∧ ∃ x, w.wire = .data x ∧ FullWire x := by
      intro w hm
      obtain ⟨i, hi, rfl⟩ := List.mem_iff_getElem.mp hm
      have hi' : i < m.coil.windings.length := by omega
      obtain ⟨a1, a2, a3, a4, a5, a6, x, a7, a8, -⟩ := hwc.2 i _ _ (List.getElem?_eq_getElem hi') (List.getElem?_eq_getElem hi)
      refine ⟨?_, ?_, ?_, x, a7, a8⟩
      · by_cases hn : (m.coil.windings[i]).name = ""
        · rw [a2 hn]; exact hside i
        · rw [a1 hn]; exact hn
      · by_cases hn : (m.coil.windings[i]).turns = 0
        · rw [a4 hn]; simp
        · rw [a3 hn]; exact hn
      · by_cases hn : (m.coil.windings[i]).parallels = 0
        · rw [a6 hn]; simp
        · rw [a5 hn]; exact hn
    have hnamed : coil'.windings.mapIdx (named E) = coil'.windings := by
      apply List.ext_getElem (by simp)
      intro i h1 h2
      simp only [List.getElem_mapIdx]
      obtain ⟨a1, a2, a3, x, a4, -⟩ := hall _ (List.getElem_mem h2)
      generalize coil'.windings[i] = w at a1 a2 a3 a4
      obtain ⟨n, t, p, y⟩ := w
      simp only at a1 a2 a3 a4
      subst a4
      simp [named, a1, a2, a3]
    unfold completeWindings
    rw [hnamed]
    have hone : ∀ (i : ℕ) (w : Winding K A), w ∈ coil'.windings → completeWire E i w = .ok w := by
      intro i w hm
      obtain ⟨-, -, -, x, a4, ⟨hs, ⟨c, mt, hc, hmt⟩, hst⟩⟩ := hall w hm
      unfold completeWire
      rw [a4]
      simp only [resolveWire, Res.of, Res.bind]
      have hcc : completeCoating E x.coating = some c := by
        rw [hc]
        obtain ⟨ck, cm, cr⟩ := c
        simp only at hmt
        subst hmt
        simp [completeCoating, givenCoating, coatingMaterial, resolveInsulation]
      have hsc : completeStrand E x.strand = some x.strand := by
        cases hx : x.strand with
        | none => rfl
        | some s => cases s with
          | name n => exact absurd hx (hst n)
          | data y => rfl
      have hox : outerOf E { x with coating := some (.data c), strand := x.strand } = some x := by
        obtain ⟨ty, co, st, di, wi, he, re⟩ := x
        simp only at hc
        subst hc
        unfold Sized at hs
        simp only at hs
        cases ty <;> simp only at hs
        case round | litz =>
          obtain ⟨d, rfl⟩ := Option.ne_none_iff_exists'.mp hs
          rfl
        all_goals
          obtain ⟨d, rfl⟩ := Option.ne_none_iff_exists'.mp hs.1
          obtain ⟨d', rfl⟩ := Option.ne_none_iff_exists'.mp hs.2
          rfl
      rw [hcc]
      simp only
      rw [hsc]
      simp only
      rw [hox]
      obtain ⟨n, t, p, y⟩ := w
      simp only at a4
      subst a4
      rfl
    have hall' : ∀ (l : List (Winding K A)), (∀ w ∈ l, w ∈ coil'.windings) → ∀ i, completeWires E i l = .ok l := by
      intro l
      induction l with
      | nil => intro _ i; rfl
      | cons w l ih =>
        intro hm i
        simp only [completeWires, hone i w (hm w (by simp)), ih (fun v hv => hm v (by simp [hv])) (i + 1), Res.bind]
    exact hall' _ (fun _ hm => hm) 0
  have hbob : ∀ (t : CoreType) (ws : List (Winding K A)), oriented C' t ws b = .ok b ∧ Windowed b := by
    intro t ws'
    unfold completeBobbin at h3
    obtain ⟨b1, -, h3⟩ := bind_ok h3
    obtain ⟨b2, -, h3⟩ := bind_ok h3
    obtain ⟨-, -, w, rest, o, -, w', k2, k3, -⟩ := oriented_ok h3
    exact ⟨by unfold oriented; rw [k2]; simp only [k3], w', rest, k2⟩
  have hbobbin : completeBobbin E C' core coil'.windings coil'.bobbin = .ok b := by
    rw [q2]
    obtain ⟨ho, w, rest, hw⟩ := hbob core.type coil'.windings
    have : someBobbin E core coil'.windings b = .ok b := by
      unfold someBobbin
      rw [if_neg (by simp [hw])]
    simp only [completeBobbin, givenBobbin, Res.of, Res.bind, this, ho]
  have hcol : columnsFor E core coil'.columns = coil'.columns := by
    rw [q3]
    unfold columnsFor
    split <;> rfl
  obtain ⟨t, ht'⟩ := Option.ne_none_iff_exists'.mp ht
  have hcoil : ({ coil' with windings := coil'.windings, bobbin := .data b, columns := columnsFor E core coil'.columns } : Coil K A) = coil' := by
    rw [hcol, ← q2]
  have hwound : wound E C' false inputs' core.type coil' = .ok coil' := by
    simp [wound, rewinds, Res.bind, ht']
  have hlay : withLayers E coil' = .ok coil' := by
    unfold withLayers
    rw [q4]
    cases hl : coil.wound.layers with
    | none => rw [l1 hl]
    | some l0 =>
      obtain ⟨l, hl', hl0⟩ := l2 l0 hl
      have := completeLayers_again E hl0
      rw [hl']
      simp only [this, Res.of, Res.bind]
      rw [← hl', ← q4]
  unfold complete
  simp only [hcore, hwin, hbobbin, Res.bind]
  simp only [hcoil, hwound, hlay]

/-! ## Witnesses -/

/-- A small environment: shapes by family, everything of a name is that name, windings leave their number as turns. -/
def small : Env ℚ String :=
  { findShape := fun s => if s = "T" then some ⟨.t, none, s⟩ else if s = "PQI" then some ⟨.pqi, none, s⟩ else some ⟨.other 0, none, s⟩
    findMaterial := some
    findWire := fun s => if s = "Dummy" then none else some ⟨.round, none, none, some 1, none, none, s⟩
    findStrand := some
    findInsulation := some
    findBobbin := fun _ => none
    process := fun c => some ("processed", c.gaps)
    geometry := fun _ => some (some "geometry")
    outerDiameter := fun _ => none
    outerWidth := fun _ => some 2
    outerHeight := fun _ => none
    quick := fun _ _ => some ⟨none, some [⟨none, none, "window"⟩], "quick"⟩
    columns := id
    wind := fun _ _ _ => some ⟨none, some [⟨"a", none, ""⟩, ⟨"b", some (.name "Kapton"), ""⟩], some "turns"⟩
    sideName := fun i => if i = 0 then "primary" else if i = 1 then "secondary" else "tertiary"
    enamel := "ETFE"
    insulation := "Default"
    layerInsulation := "Tape" }

/-- A configuration that says nothing. -/
def nothing : Configuration := ⟨none, none, none, none, none, none⟩

/-- A magnetic of the small environment. -/
def sample (shape : String) (material : Material String) (gaps : List (Gap ℚ String)) (names : List String) (bobbin : Named (Bobbin String)) :
    Magnetic ℚ String :=
  { core := ⟨.twoPieceSet, .name shape, material, gaps, none, none⟩
    coil := ⟨names.map fun n => ⟨n, 0, 0, .name "Round 1"⟩, bobbin, ⟨none, none, none⟩, 1, .overlapping, .centered, none, none⟩ }

/-- The first winding window of what comes out. -/
def windowOf (r : Res (Magnetic ℚ String)) : Option (Option Orientation × Option Alignment) :=
  match r with
  | .ok ⟨_, ⟨_, .data ⟨_, some (w :: _), _⟩, _, _, _, _, _, _⟩⟩ => some (w.orientation, w.alignment)
  | _ => none

/-- The materials of the core that comes out. -/
def materialsOf (r : Res (Magnetic ℚ String)) : Option (List String) :=
  match r with
  | .ok m => resolveMaterials small m.core.material
  | _ => none

/-- The names of the windings that come out. -/
def namesOf (r : Res (Magnetic ℚ String)) : Option (List String) :=
  match r with
  | .ok m => some (m.coil.windings.map Winding.name)
  | _ => none

/-- **C258.** Sections asked to be overlapping in a core of piece and plate come out contiguous. -/
theorem asked_orientation_lost :
    windowOf (complete small { nothing with windingOrientation := some "overlapping", sectionAlignment := some "inner or top" } false none
      (sample "PQI" (.one (.name "3C97")) [] ["a"] (.name "Basic"))) = some (some .contiguous, some .spread) := by
  decide +kernel

/-- **C258.** With an orientation and no alignment, the alignment stays missing. -/
theorem alignment_left_missing :
    windowOf (complete small nothing false none (sample "E" (.one (.name "3C97")) [] ["a"]
      (.data ⟨none, some [⟨some .overlapping, none, "window"⟩], "b"⟩))) = some (some .overlapping, none) := by
  decide +kernel

/-- **C258.** With an alignment and no orientation, the alignment is replaced. -/
theorem alignment_replaced :
    windowOf (complete small nothing false none (sample "E" (.one (.name "3C97")) [] ["a"]
      (.data ⟨none, some [⟨none, some .inner, "window"⟩], "b"⟩))) = some (some .overlapping, some .centered) := by
  decide +kernel

/-- **C256.** A core of two materials comes out with one. -/
theorem second_grade_lost : resolveMaterials small (.several [.name "3C97", .name "N87"]) = some ["3C97", "N87"] ∧
    materialsOf (complete small nothing false none (sample "E" (.several [.name "3C97", .name "N87"]) [] ["a"] (.name "Basic"))) = some ["3C97"] :=
  ⟨by decide +kernel, by decide +kernel⟩

/-- **C257.** A winding without name can be given one that another has. -/
theorem names_repeated :
    namesOf (complete small nothing false none (sample "E" (.one (.name "3C97")) [] ["secondary", ""] (.name "Basic"))) =
      some ["secondary", "secondary"] := by
  decide +kernel

/-- **C260.** A bobbin with a functional description and no processed one makes the code read what is not there. -/
theorem unprocessed_bobbin :
    complete small nothing false none (sample "E" (.one (.name "3C97")) [] ["a"] (.data ⟨some "functional", none, "b"⟩)) = .ub := by
  decide +kernel

/-- **C259.** An interleaving level is taken modulo 256: 257 is wound as 1. -/
theorem level_wraps (inputs : Option A) (t : CoreType) (c : Coil K A) :
    (configured { nothing with level := some 257 } inputs t c).level = 1 := by
  simp [configured]

/-! Concrete cases that meet the hypotheses of the theorems above. -/

example : (match complete small nothing false none (sample "E" (.one (.name "3C97")) [⟨1 / 1000, "gap"⟩] ["", "b"] (.name "Basic")) with
    | .ok m => decide (m.core.type = .twoPieceSet ∧ m.core.gaps.length = 1 ∧ m.coil.wound.turns = some "turns" ∧
        m.coil.windings.map Winding.name = ["primary", "b"])
    | _ => false) = true := by decide +kernel
example : windowOf (complete small nothing false none (sample "E" (.one (.name "3C97")) [] ["a"] (.name "Basic"))) =
    some (some .overlapping, some .centered) := by decide +kernel
example : windowOf (complete small nothing false none (sample "T" (.one (.name "3C97")) [] ["a"] (.name "Basic"))) =
    some (some .contiguous, some .spread) := by decide +kernel
example : complete small nothing false none (sample "E" (.one (.name "3C97")) [⟨-1, "gap"⟩] ["a"] (.name "Basic")) = .throws := by decide +kernel
example : (match complete small nothing false none { sample "E" (.one (.name "3C97")) [] ["a"] (.name "Basic") with
      coil := { (sample "E" (.one (.name "3C97")) [] ["a"] (.name "Basic")).coil with
        windings := [⟨"a", 1, 1, .data ⟨.foil, none, none, none, none, none, "x"⟩⟩] } } with
    | .wire i => decide (i = 0)
    | _ => false) = true := by decide +kernel
example : (∀ i, small.sideName i ≠ "") ∧ (∀ s b, small.findBobbin s = some b → Windowed b) ∧ ∀ c p b, small.quick c p = some b → Windowed b := by
  refine ⟨fun i => ?_, fun s b h => ?_, fun c p b h => ?_⟩
  · simp only [small]
    split
    · decide
    · split <;> decide
  · simp [small] at h
  · simp only [small, Option.some.injEq] at h
    subst h
    exact ⟨_, _, rfl⟩
example : SameKeys { nothing with windingOrientation := some "overlapping" } { nothing with windingOrientation := some "contiguous" } :=
  ⟨rfl, rfl, rfl, rfl, rfl, rfl⟩

/-- **C259.** The insulation of a layer: the data it has; else what is found by the name it has, or by the default name for layers without one; else
what is found by the default name of insulation. -/
theorem layer_insulation (E : Env K A) (l : Layer A) : (∀ x, l.material = some (.data x) → layerMaterial E l = some x) ∧
    (∀ s x, l.material = some (.name s) → E.findInsulation s = some x → layerMaterial E l = some x) ∧
    (∀ s, l.material = some (.name s) → E.findInsulation s = none → layerMaterial E l = E.findInsulation E.insulation) ∧
    (∀ x, l.material = none → E.findInsulation E.layerInsulation = some x → layerMaterial E l = some x) ∧
    (l.material = none → E.findInsulation E.layerInsulation = none → layerMaterial E l = E.findInsulation E.insulation) := by
  unfold layerMaterial
  refine ⟨?_, ?_, ?_, ?_, ?_⟩ <;> intros <;> simp_all

/-- **C260.** The coil is given the columns of the processed core. -/
theorem columns_of_core (E : Env K A) (C : Configuration) (real : Bool) (inputs : Option A) (m m' : Magnetic K A)
    (h : complete E C real inputs m = .ok m') : ∀ p, m'.core.processed = some p → m'.coil.columns = some (E.columns p) := by
  obtain ⟨core, ws, b, coil, coil', h1, h2, h3, h4, h5, rfl⟩ := complete_ok h
  intro p hp
  obtain ⟨-, -, e3, -⟩ := wound_ok h4
  obtain ⟨ls, hls, -, -⟩ := withLayers_ok h5
  simp only at e3 hp
  rw [hls]
  simp only
  rw [e3]
  unfold columnsFor
  rw [hp]

end Verif.Autocomplete.Magnetic
