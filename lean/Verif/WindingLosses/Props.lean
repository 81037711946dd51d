import Verif.WindingLosses.TotalLemmas
import Mathlib.Tactic.IntervalCases

/-! # Properties of winding losses -/

set_option linter.unusedSimpArgs false

namespace Verif.WindingLosses

variable {resistance : Wire → ℚ} {real : Bool} {c : Coil} {exc : List (Option Current)} {o : Output}

/-- One turn chosen of each parallel of a winding. -/
def OnePer (turns : List Turn) (x : Winding) (pick : Nat → Nat) : Prop :=
  ∀ p < x.parallels, ∃ t : Turn, turns[pick p]? = some t ∧ t.winding = x.name ∧ t.parallel = p

/-- C87: there is one share of the current for each turn, and the shares of the parallels of a winding that carries
current add to the whole, whichever turn of each parallel is asked. -/
theorem shares_add_to_one (h : ohmic resistance real c exc = .ok o) {turns : List Turn} (ht : c.turns = some turns)
    (hn : (c.windings.map Winding.name).Nodup) {w : Nat} {x : Winding} (hx : c.windings[w]? = some x)
    (hp : 0 < x.parallels) {i : ℚ} (hi : rmsOf exc w = .ok i) (h0 : i ≠ 0) {pick : Nat → Nat}
    (hpick : OnePer turns x pick) :
    o.dividers.length = turns.length ∧ ((List.range x.parallels).map fun p => (o.dividers[pick p]?).getD 0).sum = 1 := by
  obtain ⟨P⟩ := ohmic_ok h
  have hte : P.turns = turns := by have := P.hturns; rw [ht] at this; simpa using this.symm
  obtain ⟨i', l, h1, h2, h3, h4, h5, h6⟩ := P.winding hx
  have hii : i' = i := by rw [hi] at h2; simpa using h2.symm
  subst hii
  have hlen : l.length = x.parallels := by rw [h4]; simp
  have hl : l ≠ [] := by intro hl; rw [hl] at hlen; simp at hlen; omega
  refine ⟨by rw [P.hout]; simp [forall₂_length (Res.mapM_ok P.hbs), hte], ?_⟩
  have hmap : ((List.range x.parallels).map fun p => (o.dividers[pick p]?).getD 0) =
      (List.range x.parallels).map fun p => (((parallelCurrents i' l)[p]?).getD 0) * (1 / i') := by
    apply List.map_congr_left
    intro p hpm
    obtain ⟨t, ht1, ht2, ht3⟩ := hpick p (List.mem_range.1 hpm)
    obtain ⟨hb, _, _⟩ := P.turn hn (by rw [hte]; exact ht1) hx ht2
    rw [P.hout]
    simp only [List.getElem?_map, hb, Option.map_some, Option.getD_some, h1, if_neg h0, currentAt_eq h6, ht3]
    ring
  rw [hmap, List.sum_map_mul_right, ← hlen, ← parallelCurrents_length i' l, sum_range_get, parallelCurrents_sum hl h5]
  field_simp

/-- C87: the ohmic losses reported for a winding are the square of its current times the resistance reported for it, which
is above zero. -/
theorem winding_losses_from_resistance (h : ohmic resistance real c exc = .ok o) {w : Nat} {x : Winding}
    (hx : c.windings[w]? = some x) (hp : 0 < x.parallels) {i : ℚ} (hi : rmsOf exc w = .ok i) :
    ∃ r : ℚ, o.resistances[w]? = some (some r) ∧ 0 < r ∧ o.perWinding[w]? = some ⟨some (i * i * r), none, none⟩ := by
  obtain ⟨P⟩ := ohmic_ok h
  obtain ⟨i', l, h1, h2, h3, h4, h5, h6⟩ := P.winding hx
  have hii : i' = i := by rw [hi] at h2; simpa using h2.symm
  subst hii
  have hl : l ≠ [] := by intro hl; rw [hl] at h4; have := congrArg List.length h4; simp at this; omega
  have hs := inverse_sum_pos l hl h5
  refine ⟨1 / (l.map fun r => 1 / r).sum, ?_, by positivity, ?_⟩
  · rw [P.hout]; simp only [List.getElem?_map, h3, Option.map_some, together, if_neg hl]
  · rw [P.hout]
    simp only [List.getElem?_map, zip_get h3 h6, Option.map_some, parallel_losses hl h5]

/-- The resistance of the copper of one parallel: that of its wire along its turns and its connections. -/
def path (resistance : Wire → ℚ) (turns : List Turn) (x : Winding) (p : Nat) (connection : ℚ) : ℚ :=
  resistance x.wire *
    (((turns.filter fun t => t.winding == x.name && t.parallel == p).map fun t => t.length).sum + connection)

/-- C87: all parallels of a winding drop the same voltage: the share of the current of any turn times the resistance of
its parallel is the resistance reported for the winding, which is no more than that of any parallel. The losses of the
turn are those of its own current in its own length. -/
theorem turn_shares (h : ohmic resistance real c exc = .ok o) {turns : List Turn} (ht : c.turns = some turns)
    (hn : (c.windings.map Winding.name).Nodup) {w : Nat} {x : Winding} (hx : c.windings[w]? = some x)
    {i : ℚ} (hi : rmsOf exc w = .ok i) (h0 : i ≠ 0) {lengths : List (List ℚ)} (hl : connectionLengths real c = .ok lengths)
    {ls : List ℚ} (hls : lengths[w]? = some ls) (hnn : ∀ y ∈ ls, 0 ≤ y) {k : Nat} {t : Turn} (hk : turns[k]? = some t)
    (hname : t.winding = x.name) {l : ℚ} (hlp : ls[t.parallel]? = some l) :
    ∃ d r : ℚ, o.dividers[k]? = some d ∧ o.resistances[w]? = some (some r) ∧
      d * path resistance turns x t.parallel l = r ∧ r ≤ path resistance turns x t.parallel l ∧
      o.perTurn[k]? = some ⟨some ((d * i) * (d * i) * (resistance x.wire * t.length)), none, none⟩ := by
  obtain ⟨P⟩ := ohmic_ok h
  have hte : P.turns = turns := by have := P.hturns; rw [ht] at this; simpa using this.symm
  have hle : P.lengths = lengths := by have := P.hlengths; rw [hl] at this; simpa using this.symm
  obtain ⟨i', rs, h1, h2, h3, h4, h5, h6⟩ := P.winding hx
  have hii : i' = i := by rw [hi] at h2; simpa using h2.symm
  subst hii
  obtain ⟨hb, hpl, _⟩ := P.turn hn (by rw [hte]; exact hk) hx hname
  have hser : series P.bs P.cs w t.parallel = path resistance turns x t.parallel l := by
    unfold series path
    rw [turns_sum hn hx t.parallel (Res.mapM_ok P.hbs), hte,
      connections_get P.hcs hx (by rw [hle]; exact hls) hlp hnn]
    ring
  have hrs : rs[t.parallel]? = some (path resistance turns x t.parallel l) := by
    rw [h4, List.getElem?_map, List.getElem?_range hpl, Option.map_some, hser]
  have hne : rs ≠ [] := by intro hne; rw [hne] at hrs; simp at hrs
  have hm := List.mem_of_getElem? hrs
  have hpos := h5 _ hm
  have hs := inverse_sum_pos rs hne h5
  have hcur : currentAt ((P.rms.zip P.ss).map fun x => parallelCurrents x.1 x.2)
      ⟨w, t.parallel, resistance x.wire * t.length⟩ =
      i' * (1 / (rs.map fun r => 1 / r).sum) / path resistance turns x t.parallel l := by
    rw [currentAt_eq h6, parallelCurrents_eq hne, List.getElem?_map, hrs]; rfl
  have hdi : i' * (1 / (rs.map fun r => 1 / r).sum) / path resistance turns x t.parallel l / i' * i' =
      i' * (1 / (rs.map fun r => 1 / r).sum) / path resistance turns x t.parallel l := by field_simp
  refine ⟨i' * (1 / (rs.map fun r => 1 / r).sum) / path resistance turns x t.parallel l / i',
    1 / (rs.map fun r => 1 / r).sum, ?_, ?_, ?_, ?_, ?_⟩
  · rw [P.hout]
    simp only [List.getElem?_map, hb, Option.map_some, h1, Option.getD_some, if_neg h0, hcur]
  · rw [P.hout]; simp only [List.getElem?_map, h3, Option.map_some, together, if_neg hne]
  · field_simp
  · have := one_div_le_sum rs h5 _ hm
    rw [div_le_iff₀ hs]
    calc (1 : ℚ) = path resistance turns x t.parallel l * (1 / path resistance turns x t.parallel l) := by field_simp
      _ ≤ _ := by exact mul_le_mul_of_nonneg_left this hpos.le
  · rw [hdi, P.hout]
    simp only [List.getElem?_map, hb, Option.map_some, hcur]

theorem mapM_map {α β γ : Type} (f : β → Res γ) (g : α → β) : ∀ l : List α,
    Res.mapM (fun a => f (g a)) l = Res.mapM f (l.map g)
  | [] => rfl
  | a :: l => by simp only [Res.mapM, List.map_cons, mapM_map f g l]

/-- Names that share out the turns: no name twice, every turn under one of them, none without turns. -/
def SharesOut (turns : List Turn) (nameOf : Turn → Option String) (names : List String) : Prop :=
  names.Nodup ∧ (∀ t ∈ turns, ∃ n ∈ names, nameOf t = some n) ∧ ∀ n ∈ names, ∃ t ∈ turns, nameOf t = some n

/-- C88: the losses of the turns, summed over windings, over sections or over layers, are the same, with or without the
copper of connections, whatever the formulas are and remember. -/
theorem elements_agree {S : Type} {u : Setup S} {wf : Bool} {s s' : S}
    (h : losses u c exc wf s = (s', .ok o)) {turns : List Turn} (ht : c.turns = some turns) {layers sections : List String}
    (hl : c.layers = some layers) (hs : c.sections = some sections) (h1 : SharesOut turns Turn.layer layers)
    (h2 : SharesOut turns Turn.sect sections)
    (h3 : SharesOut turns (fun t => some t.winding) (c.windings.map Winding.name)) :
    o.perTurn.length = turns.length ∧ elementsTotal o.perWinding = elementsTotal o.perTurn ∧
      elementsTotal o.perSection = elementsTotal o.perTurn ∧ elementsTotal o.perLayer = elementsTotal o.perTurn := by
  obtain ⟨o₁, s₁, ho, h⟩ := M.bind_ok h
  obtain ⟨ho, _⟩ := M.lift_ok ho
  obtain ⟨o₂, s₂, hk, h⟩ := M.bind_ok h
  rw [ht] at h
  obtain ⟨fields, s₅, hf, h⟩ := M.bind_ok (m := M.lift (fieldOf u.fields exc)) h
  obtain ⟨o₃, s₃, hp, h⟩ := M.bind_ok (m := M.lift (proximityLosses u.prox c.windings turns fields o₂)) h
  obtain ⟨hp, _⟩ := M.lift_ok hp
  obtain ⟨h, _⟩ := M.lift_ok h
  obtain ⟨P⟩ := ohmic_ok ho
  have hte : P.turns = turns := by have := P.hturns; rw [ht] at this; simpa using this.symm
  obtain ⟨a1, a2, _, _⟩ := ohmic_turns P
  rw [hte] at a1 a2
  have d1 := proximity_turns hp (skin_turns ht hk a1 a2)
  unfold combineAll at h
  rw [hl, hs] at h
  simp only [wound] at h
  obtain ⟨_, e0, h⟩ := Res.bind_ok h
  simp only [Res.ok.injEq] at e0; subst e0
  obtain ⟨pl, e1, h⟩ := Res.bind_ok h
  obtain ⟨_, e0, h⟩ := Res.bind_ok h
  simp only [Res.ok.injEq] at e0; subst e0
  obtain ⟨ps, e2, h⟩ := Res.bind_ok h
  obtain ⟨pw, e3, h⟩ := Res.bind_ok h
  simp only [Res.ok.injEq] at h; subst h
  rw [mapM_map (fun n => (named turns o₃.perTurn (fun t => some t.winding) n).bind (combine u.blank)) Winding.name] at e3
  exact ⟨d1, named_total d1 e3 h3.1 h3.2.1 h3.2.2, named_total d1 e2 h2.1 h2.2.1 h2.2.2,
    named_total d1 e1 h1.1 h1.2.1 h1.2.2⟩

/-- C88, in part: without the copper of connections, the total of the losses is the sum of those of the turns, and so are
the sums over the windings, over the sections and over the layers, whatever the formulas are and remember. What is missing
is false: `connections_lost`. -/
theorem totals_agree_partial {S : Type} {u : Setup S} {wf : Bool} {s s' : S} (hu : u.real = false)
    (h : losses u c exc wf s = (s', .ok o)) {turns : List Turn} (ht : c.turns = some turns) {layers sections : List String}
    (hl : c.layers = some layers) (hs : c.sections = some sections) (h1 : SharesOut turns Turn.layer layers)
    (h2 : SharesOut turns Turn.sect sections)
    (h3 : SharesOut turns (fun t => some t.winding) (c.windings.map Winding.name)) :
    o.total = elementsTotal o.perTurn ∧ o.total = elementsTotal o.perWinding ∧ o.total = elementsTotal o.perSection ∧
      o.total = elementsTotal o.perLayer := by
  obtain ⟨_, w1, w2, w3⟩ := elements_agree h ht hl hs h1 h2 h3
  have ht' : o.total = elementsTotal o.perTurn := by
    obtain ⟨o₁, s₁, ho, h⟩ := M.bind_ok h
    obtain ⟨ho, _⟩ := M.lift_ok ho
    obtain ⟨o₂, s₂, hk, h⟩ := M.bind_ok h
    rw [ht] at h
    obtain ⟨fields, s₅, hf, h⟩ := M.bind_ok (m := M.lift (fieldOf u.fields exc)) h
    obtain ⟨o₃, s₃, hp, h⟩ := M.bind_ok (m := M.lift (proximityLosses u.prox c.windings turns fields o₂)) h
    obtain ⟨hp, _⟩ := M.lift_ok hp
    obtain ⟨h, _⟩ := M.lift_ok h
    rw [hu] at ho hk
    obtain ⟨P⟩ := ohmic_ok ho
    have hte : P.turns = turns := by have := P.hturns; rw [ht] at this; simpa using this.symm
    obtain ⟨a1, a2, a3, a4⟩ := ohmic_turns P
    rw [hte] at a1 a2
    obtain ⟨b1, b2, b3⟩ := skin_total ht hk a1 a2 a3 (by rw [ohmic_total P, a4])
    obtain ⟨d1, d2⟩ := proximity_total hp b1 b2 b3
    unfold combineAll at h
    obtain ⟨_, _, h⟩ := Res.bind_ok h
    obtain ⟨pl, e1, h⟩ := Res.bind_ok h
    obtain ⟨_, _, h⟩ := Res.bind_ok h
    obtain ⟨ps, e2, h⟩ := Res.bind_ok h
    obtain ⟨pw, e3, h⟩ := Res.bind_ok h
    simp only [Res.ok.injEq] at h; subst h
    exact d2
  exact ⟨ht', ht'.trans w1.symm, ht'.trans w2.symm, ht'.trans w3.symm⟩

/-! ## Examples -/

/-- The value is there and passes a test. -/
def Res.holds {α : Type} (p : α → Bool) : Res α → Bool
  | .ok a => p a
  | _ => false

theorem Res.holds_ok {α : Type} {p : α → Bool} {r : Res α} (h : r.holds p = true) : ∃ a : α, r = .ok a ∧ p a = true := by
  cases r with
  | ok a => exact ⟨a, rfl, h⟩
  | throws e => simp [Res.holds] at h
  | ub => simp [Res.holds] at h

/-- A wire. -/
def wire : Wire := ⟨false, some "a", none, 1, 1, 0⟩

/-- Two windings, the first of two parallels, in two layers, with a lead on the first parallel. -/
def coil : Coil := { windings := [⟨"p", 2, wire, []⟩, ⟨"s", 1, wire, []⟩], turns := some [⟨"p", 0, 2, some "l1", some "s1", (0, 0), none⟩, ⟨"p", 1, 3, some "l1", some "s1", (1, 0), none⟩, ⟨"s", 0, 5, some "l2", some "s2", (2, 0), some (-2, 0)⟩], layers := some ["l1", "l2"], sections := some ["s1", "s2"], spaces := [⟨"p", 0, true, some 1⟩] }

/-- Currents of the same harmonics. -/
def currents : List (Option Current) :=
  [some ⟨some 5, none, some ⟨[0, 4], [0, 100]⟩⟩, some ⟨none, some 1, some ⟨[0, 2], [0, 100]⟩⟩]

/-- Formulas without memory. -/
def setup (real : Bool) : Setup Unit := { resistance := fun _ => 1, skin := fun _ dc _ _ => M.pure (dc / 4), prox := fun _ _ ps => .ok ps.length, real := real, rt := id, threshold := 1 / 10, fields := [⟨100, [⟨some 0, some (0, 0), 0⟩, ⟨some 2, some (2, 0), 0⟩, ⟨some 2, some (-2, 0), 0⟩]⟩], blank := 0 }

/-- The case of `shares_add_to_one`, `winding_losses_from_resistance` and `turn_shares`. -/
example : ((ohmic (fun _ => 1) true coil currents).holds fun o =>
      o.dividers == [1 / 2, 1 / 2, 1] && o.resistances == [some (3 / 2), some 5]) = true ∧ (coil.windings.map Winding.name).Nodup ∧ rmsOf currents 0 = .ok 5 ∧
      connectionLengths true coil = .ok [[1, 0], [0]] := by
  decide +kernel

/-- The turns chosen for `shares_add_to_one`. -/
example : OnePer (coil.turns.getD []) ⟨"p", 2, wire, []⟩ id := by
  intro p hp
  have hp : p < 2 := hp
  interval_cases p
  · exact ⟨_, rfl, rfl, rfl⟩
  · exact ⟨_, rfl, rfl, rfl⟩

/-- The case of `totals_agree_partial`: the four sums, none of them nothing. -/
example : ((losses (setup false) coil currents true ()).2.holds fun o =>
    o.total != 0 && o.total == elementsTotal o.perTurn && o.total == elementsTotal o.perLayer) = true := by
  decide +kernel

example : SharesOut (coil.turns.getD []) Turn.layer ["l1", "l2"] ∧ SharesOut (coil.turns.getD []) Turn.sect ["s1", "s2"] ∧
    SharesOut (coil.turns.getD []) (fun t => some t.winding) (coil.windings.map Winding.name) := by
  unfold SharesOut; decide +kernel

/-- C88 is false with connections: their losses are in the total, but not in what is reported for the windings. -/
theorem connections_lost : ∃ (S : Type) (u : Setup S) (c : Coil) (exc : List (Option Current)) (s s' : S) (o : Output),
    losses u c exc true s = (s', .ok o) ∧ elementsTotal o.perWinding < o.total := by
  have h : ((losses (setup true) coil currents true ()).2.holds fun o =>
    decide (elementsTotal o.perWinding < o.total)) = true := by decide +kernel
  obtain ⟨o, h1, h2⟩ := Res.holds_ok h
  exact ⟨Unit, setup true, coil, currents, (), (), o, Prod.ext rfl h1, of_decide_eq_true h2⟩

end Verif.WindingLosses
