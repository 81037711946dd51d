import Verif.Thermal.SolverProps
import Mathlib.Tactic.FieldSimp
import Mathlib.Tactic.Ring
import Mathlib.Tactic.Linarith

/-!
# Where losses go, cooling, queries and conductivities

Properties C115 (losses given to parts), C116 (cooling), C117 (queries by component, turn and point) and C118 (coefficients and
conductivities).
-/

set_option linter.unusedSectionVars false
set_option linter.unusedSimpArgs false
set_option linter.unusedVariables false

namespace Verif.Thermal

variable {K : Type} [Field K] [LinearOrder K] [IsStrictOrderedRing K] {n : Nat}

/-! ## C115 -/

/-- C115: all the losses of a core that is no toroid are given to its parts. -/
theorem concentric_losses_kept {p : Piece K} {losses : K} {l : List (Part × K)} (h : concentricCorePowers p losses = .ok l) :
    (l.map (·.2)).sum = losses := by
  unfold concentricCorePowers at h
  split at h
  · simp at h
  · unfold fractions at h
    simp only at h
    by_cases ht : columnVolume p 0 + 2 * columnVolume p 1 + yokeVolume p + yokeVolume p < 1 / 10 ^ 18
    · rw [if_pos ht] at h; simp at h
    · rw [if_neg ht] at h
      have hpos : (0 : K) < columnVolume p 0 + 2 * columnVolume p 1 + yokeVolume p + yokeVolume p :=
        lt_of_lt_of_le (by positivity) (not_lt.mp ht)
      simp only [Res.ok.injEq] at h
      rw [← h]
      by_cases hl : p.columns.length > 1
      · rw [if_pos hl]
        simp only [List.map_append, List.map_cons, List.map_nil, List.sum_append, List.sum_cons, List.sum_nil]
        field_simp
        ring
      · rw [if_neg hl]
        have h1 : columnVolume p 1 = 0 := by
          unfold columnVolume
          rw [List.getElem?_eq_none (by omega)]
          rfl
        rw [h1] at hpos ⊢
        simp only [List.map_append, List.map_cons, List.map_nil, List.sum_append, List.sum_cons, List.sum_nil]
        field_simp
        ring

/-- C115: with sizes that are not negative, no part of a core gets less than nothing. -/
theorem concentric_losses_nonneg {p : Piece K} {losses : K} {l : List (Part × K)} (h : concentricCorePowers p losses = .ok l)
    (hl : 0 ≤ losses) (hc : ∀ c ∈ p.columns, 0 ≤ c.1 ∧ 0 ≤ c.2) (hm : 0 ≤ p.mainWidth) (hw : 0 ≤ p.width) (hd : 0 ≤ p.depth) :
    ∀ e ∈ l, 0 ≤ e.2 := by
  have hv : ∀ i, 0 ≤ columnVolume p i := by
    intro i
    unfold columnVolume
    cases hi : p.columns[i]? with
    | none => simp
    | some c =>
      have := hc c (List.mem_of_getElem? hi)
      simpa using mul_nonneg this.1 this.2
  have hy : 0 ≤ yokeVolume p := by
    unfold yokeVolume
    split
    · exact le_refl _
    · positivity
  unfold concentricCorePowers at h
  split at h
  · simp at h
  · unfold fractions at h
    simp only at h
    by_cases ht : columnVolume p 0 + 2 * columnVolume p 1 + yokeVolume p + yokeVolume p < 1 / 10 ^ 18
    · rw [if_pos ht] at h; simp at h
    · rw [if_neg ht] at h
      have hpos : (0 : K) < columnVolume p 0 + 2 * columnVolume p 1 + yokeVolume p + yokeVolume p :=
        lt_of_lt_of_le (by positivity) (not_lt.mp ht)
      simp only [Res.ok.injEq] at h
      have h0 := hv 0
      have h1 := hv 1
      rw [← h]
      intro e he
      have hparts : ∀ x : K, 0 ≤ x → 0 ≤ losses * (x / (columnVolume p 0 + 2 * columnVolume p 1 + yokeVolume p + yokeVolume p)) :=
        fun x hx => mul_nonneg hl (div_nonneg hx hpos.le)
      by_cases hlen : p.columns.length > 1
      · rw [if_pos hlen] at he
        simp at he
        rcases he with rfl | rfl | rfl | rfl
        · exact hparts _ h0
        · exact hparts _ hy
        · exact hparts _ hy
        · exact hparts _ (by linarith)
      · rw [if_neg hlen] at he
        simp at he
        rcases he with rfl | rfl | rfl
        · exact hparts _ h0
        · exact hparts _ hy
        · exact hparts _ hy

/-- Two columns of 1 cm by 1 cm by 2 cm: the lateral one stands for two. -/
example : concentricCorePowers (⟨[(1 / 10 ^ 4, 2 / 100), (1 / 10 ^ 4, 2 / 100)], 1 / 100, 4 / 100, 1 / 100⟩ : Piece ℚ) 10 =
    .ok [(.coreCentral, 2), (.coreTop, 2), (.coreBottom, 2), (.coreLateral, 4)] := by decide +kernel

theorem sum_ones (n : Nat) : ((List.range n).map fun _ => (1 : K)).sum = n := by
  rw [List.map_const', List.sum_replicate]
  simp

/-- C115: all the losses of a toroid are given to its segments, if it has any, the same to each. -/
theorem toroidal_losses_kept_partial {segments : Nat} (hs : segments ≠ 0) (losses : K) :
    ((toroidalCorePowers segments losses).map (·.2)).sum = losses ∧ ∀ e ∈ toroidalCorePowers segments losses, e.2 = losses / segments := by
  have h0 : (segments : K) ≠ 0 := by exact_mod_cast hs
  unfold toroidalCorePowers
  rw [sum_ones]
  constructor
  · rw [List.map_map, show ((fun x : Part × K => x.2) ∘ fun _ : Nat => ((Part.coreSegment, losses * (1 / (segments : K))) : Part × K)) =
      fun _ => losses * (1 / (segments : K)) from rfl, List.map_const', List.sum_replicate]
    simp only [List.length_range, nsmul_eq_mul]
    field_simp
  · intro e he
    obtain ⟨_, _, rfl⟩ := List.mem_map.mp he
    simp [div_eq_mul_inv]

/-- C115 fails without segments, which is how many are asked for: the losses are lost. -/
theorem no_segments_lose (losses : K) : toroidalCorePowers 0 losses = [] := rfl

theorem halves_sum : ∀ (split : List Bool) (l : List K), l.length = split.length →
    ((split.zip l).flatMap fun t => if t.1 then [t.2 / 2, t.2 / 2] else [t.2]).sum = l.sum
  | [], [], _ => by simp
  | [], _ :: _, h => by simp at h
  | _ :: _, [], h => by simp at h
  | b :: split, x :: l, h => by
    have ih := halves_sum split l (by simpa using h)
    simp only [List.zip_cons_cons, List.flatMap_cons, List.sum_append, List.sum_cons]
    rw [ih]
    cases b
    · simp
    · simp

/-- C115: all the losses of the turns of a toroid are given to them, also when a turn is in two halves. -/
theorem toroidal_turns_kept {split : List Bool} {losses : List K} {l : List K} (h : turnPowers true split (some losses) = .ok l) :
    l.sum = losses.sum ∧ losses.length = split.length := by
  unfold turnPowers at h
  split at h
  · simp at h
  · simp only [if_true] at h
    split at h
    · simp at h
    · rename_i hl
      have hl : losses.length = split.length := by simpa using hl
      simp only [Res.ok.injEq] at h
      rw [← h]
      exact ⟨halves_sum _ _ hl, hl⟩

/-- C115: turns of other cores get the losses of each, if there are no more losses than turns. -/
theorem concentric_turns_kept_partial {split : List Bool} {losses : List K} {l : List K} (h : turnPowers false split (some losses) = .ok l)
    (hl : losses.length ≤ split.length) : l = losses := by
  unfold turnPowers at h
  split at h
  · simp at h
  · simp only [Bool.false_eq_true, if_false] at h
    split at h
    · simp at h
    · rename_i hlt
      simp only [Res.ok.injEq] at h
      rw [← h]
      exact List.take_of_length_le hl

/-- C115: the losses of each turn are its ohmic losses and those by skin effect and proximity of every harmonic, the missing ones
    being none. -/
theorem turn_losses_all (t : List (TurnLosses K)) (windingLosses : K) (turns : Nat) (hne : t ≠ []) :
    ∃ l, turnLossesOf (some (some t)) windingLosses turns = some l ∧ l.length = t.length ∧
      ∀ (i : Nat) (o : K) (s p : List K) (x : TurnLosses K), t[i]? = some x → x.ohmic = some o ∨ (x.ohmic = none ∧ o = 0) →
        x.skin = some s ∨ (x.skin = none ∧ s = []) → x.proximity = some p ∨ (x.proximity = none ∧ p = []) →
        l[i]? = some (o + s.sum + p.sum) := by
  refine ⟨t.map lossOf, by simp [turnLossesOf, hne], by simp, ?_⟩
  intro i o s p x hx ho hs hp
  rw [List.getElem?_map, hx]
  rcases ho with ho | ⟨ho, rfl⟩ <;> rcases hs with hs | ⟨hs, rfl⟩ <;> rcases hp with hp | ⟨hp, rfl⟩ <;> simp [lossOf, ho, hs, hp]

/-- C115: without losses for every turn there are no temperatures, but when there are no losses in the coil at all. -/
theorem losses_required {toroidal : Bool} {split : List Bool} {output : Option (Option (List (TurnLosses K)))} {windingLosses : K} {l : List K}
    (h : turnPowers toroidal split (turnLossesOf output windingLosses split.length) = .ok l) :
    (output = none ∧ windingLosses ≤ 0 ∧ ∀ x ∈ l, x = 0) ∨ ∃ t, output = some (some t) ∧ split.length ≤ t.length := by
  cases output with
  | none =>
    refine .inl ⟨rfl, ?_⟩
    unfold turnLossesOf at h
    simp only at h
    by_cases hw : windingLosses ≤ 0
    · refine ⟨hw, ?_⟩
      rw [if_pos hw] at h
      cases toroidal with
      | false =>
        have := concentric_turns_kept_partial h (by simp)
        rw [this]
        intro x hx
        exact List.eq_of_mem_replicate hx
      | true =>
        unfold turnPowers at h
        split at h
        · simp at h
        · simp only [if_true] at h
          split at h
          · simp at h
          · simp only [Res.ok.injEq] at h
            rw [← h]
            intro x hx
            obtain ⟨t, ht, hxt⟩ := List.mem_flatMap.mp hx
            have h0 : t.2 = 0 := List.eq_of_mem_replicate (List.of_mem_zip ht).2
            rw [h0] at hxt
            split at hxt <;> simpa using hxt
    · rw [if_neg hw] at h
      unfold turnPowers at h
      split at h
      · simp at h
      · cases toroidal <;> simp at h
  | some o =>
    cases o with
    | none =>
      exfalso
      simp only [turnLossesOf] at h
      unfold turnPowers at h
      split at h
      · simp at h
      · cases toroidal <;> simp at h
    | some t =>
      refine .inr ⟨t, rfl, ?_⟩
      simp only [turnLossesOf] at h
      by_cases ht : t = []
      · rw [if_pos ht] at h
        unfold turnPowers at h
        split at h
        · simp at h
        · cases toroidal <;> simp at h
      · rw [if_neg ht] at h
        cases toroidal with
        | true =>
          have := (toroidal_turns_kept h).2
          rw [List.length_map] at this
          omega
        | false =>
          unfold turnPowers at h
          split at h
          · simp at h
          · simp only [Bool.false_eq_true, if_false] at h
            split at h
            · simp at h
            · rename_i hlt
              rw [List.length_map] at hlt
              omega

example : turnPowers true [true, false] (turnLossesOf (some (some [⟨some (1 : ℚ), some [1, 1], none⟩, ⟨some 2, none, some [1]⟩])) 9 2) =
    .ok [3 / 2, 3 / 2, 3] := by decide +kernel

/-- C115 fails with losses of more turns than there are: those of a toroid are refused, of others they are lost. -/
theorem spare_losses_dropped : turnPowers false [false, false] (some [(1 : ℚ), 2, 4]) = .ok [1, 2] ∧
    turnPowers true [false, false] (some [(1 : ℚ), 2, 4]) = .throws .unevenLosses := by decide +kernel

/-! ## C116 -/

/-- C116: which cooling is meant: a plate if a maximum temperature is given, or else moving air if a velocity is, or else a heat sink
    if a thermal resistance is, or else still air if a temperature is. -/
theorem cooling_priority (c : Cooling K) :
    (detect c = .coldPlate ↔ c.maximumTemperature ≠ none) ∧
    (detect c = .forced ↔ c.maximumTemperature = none ∧ ∃ x v, c.velocity = some (x :: v)) ∧
    (detect c = .heatsink ↔ c.maximumTemperature = none ∧ (c.velocity = none ∨ c.velocity = some []) ∧ c.thermalResistance ≠ none) ∧
    (detect c = .natural ↔ c.maximumTemperature = none ∧ (c.velocity = none ∨ c.velocity = some []) ∧ c.thermalResistance = none ∧
      c.temperature ≠ none) := by
  obtain ⟨m, v, t, x, i, k⟩ := c
  cases m <;> cases t <;> cases x <;> rcases v with _ | _ | ⟨a, v⟩ <;> simp [detect]

/-- C116: the cooling is not known only of an empty description. -/
theorem cooling_unknown (c : Cooling K) : detect c = .unknown ↔
    c.maximumTemperature = none ∧ (c.velocity = none ∨ c.velocity = some []) ∧ c.thermalResistance = none ∧ c.temperature = none := by
  obtain ⟨m, v, t, x, i, k⟩ := c
  cases m <;> cases t <;> cases x <;> rcases v with _ | _ | ⟨a, v⟩ <;> simp [detect]

/-- C116: a heat sink adds a node without losses after the others, joined to a top yoke by the interface and to the ambient by
    its resistance; what was there stays. -/
theorem heatsink_adds {c : Cooling K} {ambient r : K} {nodes nodes' : List (Node K)} {es es' : List (Element K)}
    (hr : c.thermalResistance = some r) (ha : ∃ v ∈ nodes, v.part = .ambient)
    (h : heatsink c ambient nodes es = .ok (nodes', es')) :
    ∃ (sink yoke air : Node K) (top a : Nat) (e f : Element K), nodes' = nodes ++ [sink] ∧ sink.part = .heatsink ∧ sink.power = 0 ∧ sink.fixed = false ∧
      nodes[top]? = some yoke ∧ (yoke.part = .coreTop ∨ yoke.part = .bobbinTop) ∧ nodes[a]? = some air ∧ air.part = .ambient ∧
      es' = es ++ [e, f] ∧ e.source = top ∧ e.target = nodes.length ∧ f.source = nodes.length ∧ f.target = a ∧ f.resistance = r ∧
      (∀ s, c.interfaceResistance = some s → 0 < yoke.area → e.resistance * yoke.area = s) := by
  unfold heatsink at h
  split at h
  · simp at h
  · rename_i top htop
    rw [List.findIdx?_eq_some_iff_getElem] at htop
    obtain ⟨hlt, hp, _⟩ := htop
    rw [List.getElem?_eq_getElem hlt, hr] at h
    simp only at h
    split at h
    · rename_i a hfind
      simp only [Res.ok.injEq, Prod.mk.injEq] at h
      obtain ⟨h1, h2⟩ := h
      rw [List.findIdx?_eq_some_iff_getElem] at hfind
      obtain ⟨hal, hap, hmin⟩ := hfind
      have hlen : a < nodes.length := by
        by_contra hge
        obtain ⟨v, hv, hvp⟩ := ha
        obtain ⟨j, hj, rfl⟩ := List.getElem_of_mem hv
        have hjlt : j < a := by omega
        have := hmin j hjlt
        rw [List.getElem_append_left hj] at this
        simp at this
        exact this hvp
      rw [List.getElem_append_left hlen] at hap
      refine ⟨_, nodes[top], nodes[a], top, a, _, _, h1.symm, rfl, rfl, rfl, List.getElem?_eq_getElem hlt, by simpa using hp,
        List.getElem?_eq_getElem hlen, by simpa using hap, by rw [← h2]; simp only [List.append_assoc, List.cons_append, List.nil_append]; rfl,
        rfl, rfl, rfl, rfl, rfl, ?_⟩
      intro s hs hpos
      simp only [sinkInterface, hs]
      rw [if_pos hpos, div_mul_cancel₀ _ hpos.ne']
    · rename_i hnone
      exfalso
      rw [List.findIdx?_eq_none_iff] at hnone
      obtain ⟨v, hv, hvp⟩ := ha
      have := hnone v (by simp [hv])
      simp at this
      exact this hvp

/-- C116: without a top yoke, as in a toroid, a heat sink is refused. -/
theorem heatsink_needs_yoke {c : Cooling K} {ambient : K} {nodes : List (Node K)} {es : List (Element K)}
    (h : ∀ v ∈ nodes, v.part ≠ .coreTop ∧ v.part ≠ .bobbinTop) : heatsink c ambient nodes es = .throws .noTopYoke := by
  unfold heatsink
  rw [List.findIdx?_eq_none_iff.mpr]
  intro v hv
  have := h v hv
  simp [this.1, this.2]

/-- C116: a cold plate adds a node of fixed temperature after the others, joined to every bottom part; what was there stays. -/
theorem coldPlate_adds {c : Cooling K} {threshold t : K} {nodes nodes' : List (Node K)} {es es' : List (Element K)}
    (ht : c.maximumTemperature = some t) (h : coldPlate c threshold nodes es = .ok (nodes', es')) :
    ∃ (plate : Node K) (new : List (Element K)), nodes' = nodes ++ [plate] ∧ plate.part = .coldPlate ∧ plate.power = 0 ∧ plate.fixed = true ∧
      plate.temperature = t ∧ es' = es ++ new ∧ new ≠ [] ∧ (∀ e ∈ new, e.target = nodes.length ∧ e.kind = .conduction) ∧
      ∀ i : Fin nodes.length, nodes[i].part = .coreBottom ∨ nodes[i].part = .bobbinBottom → ∃ e ∈ new, e.source = i.val := by
  unfold coldPlate at h
  rw [ht] at h
  simp only at h
  split at h
  · simp at h
  · rename_i hne
    simp only [Res.ok.injEq, Prod.mk.injEq] at h
    refine ⟨_, _, h.1.symm, rfl, rfl, rfl, rfl, h.2.symm, by simpa using hne, ?_, ?_⟩
    · intro e he
      obtain ⟨v, _, rfl⟩ := List.mem_map.mp he
      exact ⟨rfl, rfl⟩
    · intro i hi
      refine ⟨_, List.mem_map_of_mem (a := (i.val, nodes[i])) ?_, rfl⟩
      unfold surfaceNodes
      rw [List.mem_filterMap]
      refine ⟨(nodes[i], i.val), ?_, ?_⟩
      · rw [List.mem_zipIdx_iff_getElem?]
        simp
      · have : touches threshold (lowest nodes) nodes[i] = true := by
          unfold touches
          simp only [decide_eq_true_eq]
          rcases hi with hi | hi
          · exact .inl hi
          · exact .inr (.inl hi)
        simp only [this, if_true]

/-- C116: the interface of a plate has the resistance given for it, if a thickness is given too. -/
theorem plate_interface_partial {c : Cooling K} {area r d : K} (ha : 0 < area) (hr : c.interfaceResistance = some r)
    (hd : c.interfaceThickness = some d) : plateInterface c area * area = r := by
  unfold plateInterface
  rw [hr, hd]
  simp only
  rw [if_pos ha, div_mul_cancel₀ _ ha.ne']

/-- C116 fails of a plate when no thickness is given: the resistance given for the interface is not used, though that of a heat
    sink is. -/
theorem plate_ignores_interface {c : Cooling K} {area r : K} (ha : 0 < area) (hr : c.interfaceResistance = some r)
    (hd : c.interfaceThickness = none) : plateInterface c area = 1 / 2 ∧ sinkInterface c area * area = r := by
  unfold plateInterface sinkInterface
  rw [hr, hd]
  simp only
  rw [if_pos ha, div_mul_cancel₀ _ ha.ne']
  exact ⟨rfl, rfl⟩

/-- The disagreement seen: an interface of 1 cm²·K/W under 10 cm² should have a resistance of a tenth. -/
example : plateInterface (⟨some 40, none, none, none, some (1 / 10 ^ 4), none⟩ : Cooling ℚ) (1 / 10 ^ 3) = 1 / 2 ∧
    sinkInterface (⟨none, none, some 2, none, some (1 / 10 ^ 4), none⟩ : Cooling ℚ) (1 / 10 ^ 3) = 1 / 10 := by decide +kernel

/-- C116: only convection changes in moving air, and what moves is the air at the magnitude of the velocity, whatever its direction. -/
theorem forced_changes {rt : K → K} {mixed : K → K → K → K} {c : Cooling K} {cfg cfg' : Config K} {es es' : List (Element K)}
    (hrt : IsRoot rt) (h : forcedCooling rt mixed c cfg es = .ok (cfg', es')) :
    (∃ v, c.velocity = some v ∧ 0 ≤ cfg'.airVelocity ∧ cfg'.airVelocity * cfg'.airVelocity = (v.map fun x => x * x).sum) ∧
    cfg'.ambient = cfg.ambient ∧ es'.length = es.length ∧
    ∀ (i : Nat) (e e' : Element K), es[i]? = some e → es'[i]? = some e' → (e.kind ≠ .natural → e' = e) ∧ e'.source = e.source ∧ e'.target = e.target ∧
      e'.area = e.area := by
  unfold forcedCooling at h
  split at h
  · simp at h
  · simp at h
  · rename_i v hne hv
    simp only [Res.ok.injEq, Prod.mk.injEq] at h
    obtain ⟨h1, h2⟩ := h
    refine ⟨⟨v, hv, ?_⟩, by rw [← h1], by rw [← h2]; simp, ?_⟩
    · rw [← h1]
      refine hrt _ (List.sum_nonneg fun x hx => ?_)
      obtain ⟨y, _, rfl⟩ := List.mem_map.mp hx
      exact mul_self_nonneg y
    · intro i e e' he he'
      rw [← h2, List.getElem?_map, he] at he'
      simp only [Option.map_some, Option.some.injEq] at he'
      rw [← he']
      unfold blow
      split
      · rename_i hk
        split
        · exact ⟨fun hn => absurd hk.1 hn, rfl, rfl, rfl⟩
        · exact ⟨fun _ => rfl, rfl, rfl, rfl⟩
      · exact ⟨fun _ => rfl, rfl, rfl, rfl⟩

/-- C116: every convection of still air, of an area of more than 1e-15, becomes one of moving air, at the mixed coefficient at that
    speed, provided that one is more than 1e-9; the rest of them stay as they were. -/
theorem forced_mixed {rt : K → K} {mixed : K → K → K → K} {c : Cooling K} {cfg cfg' : Config K} {es es' : List (Element K)}
    (h : forcedCooling rt mixed c cfg es = .ok (cfg', es')) (i : Nat) (e e' : Element K) (he : es[i]? = some e) (he' : es'[i]? = some e')
    (hk : e.kind = .natural) (ha : 1 / 10 ^ 15 < e.area) (coefficient : K)
    (hm : coefficient = mixed cfg'.airVelocity (1 / (max e.resistance (1 / 10 ^ 9) * e.area)) e.area) :
    (1 / 10 ^ 9 < coefficient → e'.kind = .forced ∧ e'.resistance * (coefficient * e.area) = 1) ∧
    (coefficient ≤ 1 / 10 ^ 9 → e' = e) := by
  unfold forcedCooling at h
  split at h
  · simp at h
  · simp at h
  · simp only [Res.ok.injEq, Prod.mk.injEq] at h
    obtain ⟨h1, h2⟩ := h
    rw [← h2, List.getElem?_map, he] at he'
    simp only [Option.map_some, Option.some.injEq] at he'
    rw [← h1] at hm
    simp only at hm
    rw [← he']
    unfold blow
    rw [if_pos ⟨hk, not_le.mpr ha⟩, ← hm]
    constructor
    · intro hc
      rw [if_pos hc]
      refine ⟨rfl, ?_⟩
      have h3 : 0 < coefficient := lt_trans (by positivity) hc
      have h4 : 0 < e.area := lt_trans (by positivity) ha
      exact one_div_mul_cancel (mul_pos h3 h4).ne'
    · intro hc
      rw [if_neg (not_lt.mpr hc)]

/-- C116: a resistance in moving air is at the mixed coefficient for one iteration only: when it is calculated again it is at the
    coefficient of the moving air alone. -/
theorem moving_air_alone {cfg : Config K} {air : Air K} {length : K} {t : Vec n K} {e : Element K} (hk : e.kind = .forced) (ha : 0 < e.area)
    (hs : e.source < n) (hh : 0 < air.forced cfg.airVelocity length (t ⟨e.source, hs⟩)) :
    (recalculate cfg air length t e).resistance = 1 / (air.forced cfg.airVelocity length (t ⟨e.source, hs⟩) * e.area) := by
  unfold recalculate
  rw [dif_pos hs, hk]
  simp only
  rw [if_pos ha]
  unfold atCoefficient
  rw [if_pos hh]

/-- C116 fails in slow air: whatever the coefficient of still air, there is a speed that is slow enough that moving air cools worse,
    and even slower ones do too. -/
theorem slow_air_cools_worse {rt : K → K} (hrt : IsRoot rt) {viscosity conductivity prandtl length still : K} (hv : 0 < viscosity)
    (hc : 0 < conductivity) (hp : 0 < prandtl) (hl : 0 < length) (hs : 0 < still) :
    ∃ speed > 0, ∀ u, 0 < u → u ≤ speed → 0 < laminar rt viscosity conductivity prandtl u length ∧
      laminar rt viscosity conductivity prandtl u length < still := by
  set k : K := 664 / 1000 * prandtl * conductivity / length with hk
  have hkpos : 0 < k := by rw [hk]; positivity
  set x : K := (still / (2 * k)) * (still / (2 * k)) with hx
  have hxpos : 0 < x := by rw [hx]; positivity
  refine ⟨x * viscosity / length, by positivity, fun u hu hle => ?_⟩
  have hre : 0 < u * length / viscosity := by positivity
  have hre' : u * length / viscosity ≤ x := by
    rw [div_le_iff₀ hv]
    rw [le_div_iff₀ hl] at hle
    exact hle
  obtain ⟨h1, h2⟩ := hrt _ hre.le
  have hrpos : 0 < rt (u * length / viscosity) := by
    rcases h1.lt_or_eq with h | h
    · exact h
    · rw [← h] at h2; simp at h2; exact absurd h2 hre.ne
  have hlam : laminar rt viscosity conductivity prandtl u length = rt (u * length / viscosity) * k := by
    unfold laminar; rw [hk]; field_simp
  rw [hlam]
  refine ⟨by positivity, ?_⟩
  have hbound : rt (u * length / viscosity) ≤ still / (2 * k) := by
    by_contra hgt
    have hgt := not_le.mp hgt
    have : still / (2 * k) * (still / (2 * k)) < rt (u * length / viscosity) * rt (u * length / viscosity) :=
      mul_self_lt_mul_self (by positivity) hgt
    rw [h2] at this
    linarith
  have : rt (u * length / viscosity) * k ≤ still / (2 * k) * k := mul_le_mul_of_nonneg_right hbound hkpos.le
  have h3 : still / (2 * k) * k = still / 2 := by field_simp
  linarith

/-! ## C117 -/

/-- The largest of the temperatures of some nodes, each under a key or under none, is what a map says of the key. -/
def Largest (key : Node K → Option (List Char)) (nodes : List (Node K)) (m : List (List Char × K)) : Prop :=
  (m.map (·.1)).Nodup ∧ (∀ e ∈ m, ∃ v ∈ nodes, key v = some e.1 ∧ v.temperature = e.2) ∧
    ∀ v ∈ nodes, ∀ k, key v = some k → ∃ e ∈ m, e.1 = k ∧ v.temperature ≤ e.2

theorem raise_keys (m : List (List Char × K)) (k : List Char) (x : K) :
    (raise m k x).map (·.1) = if k ∈ m.map (·.1) then m.map (·.1) else m.map (·.1) ++ [k] := by
  induction m with
  | nil => simp [raise]
  | cons e m ih =>
    unfold raise
    by_cases he : e.1 = k
    · rw [if_pos he]; simp [he]
    · rw [if_neg he]
      simp only [List.map_cons, ih, List.mem_cons, Ne.symm he, false_or]
      split <;> simp

theorem raise_mem (m : List (List Char × K)) (k : List Char) (x : K) :
    ∀ e ∈ raise m k x, e ∈ m ∨ e = (k, x) := by
  induction m with
  | nil => simp [raise]
  | cons f m ih =>
    unfold raise
    by_cases hf : f.1 = k
    · rw [if_pos hf]
      intro e he
      rcases List.mem_cons.mp he with rfl | he
      · rcases max_choice f.2 x with h | h
        · left; rw [h, ← hf]; simp
        · right; rw [h]
      · left; simp [he]
    · rw [if_neg hf]
      intro e he
      rcases List.mem_cons.mp he with rfl | he
      · left; simp
      · rcases ih e he with h | h
        · left; simp [h]
        · right; exact h

theorem raise_has (m : List (List Char × K)) (k : List Char) (x : K) : ∃ e ∈ raise m k x, e.1 = k ∧ x ≤ e.2 := by
  induction m with
  | nil => exact ⟨(k, x), by simp [raise], rfl, le_refl _⟩
  | cons f m ih =>
    unfold raise
    by_cases hf : f.1 = k
    · rw [if_pos hf]; exact ⟨_, List.mem_cons_self, rfl, le_max_right _ _⟩
    · rw [if_neg hf]
      obtain ⟨e, he, h1, h2⟩ := ih
      exact ⟨e, by simp [he], h1, h2⟩

theorem raise_keeps (m : List (List Char × K)) (k : List Char) (x : K) : ∀ e ∈ m, ∃ f ∈ raise m k x, f.1 = e.1 ∧ e.2 ≤ f.2 := by
  induction m with
  | nil => simp
  | cons f m ih =>
    intro e he
    unfold raise
    by_cases hf : f.1 = k
    · rw [if_pos hf]
      rcases List.mem_cons.mp he with rfl | he
      · exact ⟨_, List.mem_cons_self, hf.symm, le_max_left _ _⟩
      · exact ⟨e, by simp [he], rfl, le_refl _⟩
    · rw [if_neg hf]
      rcases List.mem_cons.mp he with rfl | he
      · exact ⟨e, by simp, rfl, le_refl _⟩
      · obtain ⟨g, hg, h1, h2⟩ := ih e he
        exact ⟨g, by simp [hg], h1, h2⟩

theorem largest_step {key : Node K → Option (List Char)} {nodes : List (Node K)} {m : List (List Char × K)} {v : Node K} {k : List Char}
    (h : Largest key nodes m) (hk : key v = some k) : Largest key (nodes ++ [v]) (raise m k v.temperature) := by
  obtain ⟨h1, h2, h3⟩ := h
  refine ⟨?_, ?_, ?_⟩
  · rw [raise_keys]
    split
    · exact h1
    · rename_i hn
      rw [List.nodup_append]
      refine ⟨h1, by simp, ?_⟩
      rintro a ha b hb rfl
      simp at hb
      exact hn (hb ▸ ha)
  · intro e he
    rcases raise_mem _ _ _ e he with he | rfl
    · obtain ⟨w, hw, h4, h5⟩ := h2 e he
      exact ⟨w, by simp [hw], h4, h5⟩
    · exact ⟨v, by simp, hk, rfl⟩
  · intro w hw k' hk'
    rcases List.mem_append.mp hw with hw | hw
    · obtain ⟨e, he, h4, h5⟩ := h3 w hw k' hk'
      obtain ⟨f, hf, h6, h7⟩ := raise_keeps m k v.temperature e he
      exact ⟨f, hf, h6.trans h4, le_trans h5 h7⟩
    · simp at hw
      subst hw
      rw [hk] at hk'
      simp at hk'
      subst hk'
      exact raise_has m k w.temperature

theorem largest_skip {key : Node K → Option (List Char)} {nodes : List (Node K)} {m : List (List Char × K)} {v : Node K}
    (h : Largest key nodes m) (hk : key v = none) : Largest key (nodes ++ [v]) m := by
  obtain ⟨h1, h2, h3⟩ := h
  refine ⟨h1, fun e he => ?_, fun w hw k' hk' => ?_⟩
  · obtain ⟨w, hw, h4, h5⟩ := h2 e he
    exact ⟨w, by simp [hw], h4, h5⟩
  · rcases List.mem_append.mp hw with hw | hw
    · exact h3 w hw k' hk'
    · simp at hw
      subst hw
      rw [hk] at hk'
      simp at hk'

theorem largest_foldl {key : Node K → Option (List Char)} {f : List (List Char × K) → Node K → List (List Char × K)}
    (h1 : ∀ m v k, key v = some k → f m v = raise m k v.temperature) (h2 : ∀ m v, key v = none → f m v = m) (rest : List (Node K)) :
    ∀ (done : List (Node K)) (m : List (List Char × K)), Largest key done m → Largest key (done ++ rest) (rest.foldl f m) := by
  induction rest with
  | nil => intro done m h; simpa using h
  | cons v rest ih =>
    intro done m h
    rw [List.foldl_cons, show done ++ v :: rest = (done ++ [v]) ++ rest by simp]
    refine ih _ _ ?_
    cases hk : key v with
    | none => rw [h2 m v hk]; exact largest_skip h hk
    | some k => rw [h1 m v k hk]; exact largest_step h hk

/-- The component a part is of: the core, the bobbin, each winding by its number, the insulation, the heat sink or the cold plate. -/
def componentOf (v : Node K) : Option (List Char) :=
  if v.part = .ambient then none
  else if v.part = .turn then some (match v.winding with | some i => "winding ".toList ++ (toString i).toList | none => "winding".toList)
  else if v.part = .insulation then some "insulation".toList
  else if v.part = .heatsink then some "heatsink".toList
  else if v.part = .coldPlate then some "cold plate".toList
  else if v.part = .bobbinCentral ∨ v.part = .bobbinTop ∨ v.part = .bobbinBottom then some "bobbin".toList
  else some "core".toList

theorem category_eq (v : Node K) : category v = componentOf v := by
  obtain ⟨name, part, power, temperature, fixed, winding, x, y, area⟩ := v
  cases part <;> cases winding <;> simp [category, componentOf, digits]

/-- C117: temperatures by component are the largest of the parts of each, of all components there are and no others. -/
theorem by_component_largest (nodes : List (Node K)) : Largest componentOf nodes (byComponent nodes) := by
  have := largest_foldl (key := componentOf) (f := fun m v => match category v with | some k => raise m k v.temperature | none => m)
    (fun m v k hk => by rw [← category_eq] at hk; simp only [hk]) (fun m v hk => by rw [← category_eq] at hk; simp only [hk])
    nodes [] [] ⟨by simp, by simp, by simp⟩
  rw [List.nil_append] at this
  exact this

/-- C117: temperatures per turn are the largest of the halves of each. -/
theorem per_turn_largest (nodes : List (Node K)) :
    Largest (fun v => if v.part = .turn then some (turnKey v.name) else none) nodes (perTurn nodes) := by
  have := largest_foldl (key := fun v : Node K => if v.part = .turn then some (turnKey v.name) else none)
    (f := fun m v => if v.part = .turn then raise m (turnKey v.name) v.temperature else m)
    (fun m v k hk => by
      by_cases hp : v.part = .turn
      · simp only [hp, if_true, Option.some.injEq] at hk ⊢; rw [hk]
      · simp [hp] at hk)
    (fun m v hk => by
      by_cases hp : v.part = .turn
      · simp [hp] at hk
      · simp [hp])
    nodes [] [] ⟨by simp, by simp, by simp⟩
  rw [List.nil_append] at this
  exact this

/-- C117: the halves of a turn have the key of the turn, and names of other shapes are their own keys. -/
theorem turn_halves (name : List Char) (h : name ≠ []) :
    turnKey (name ++ "_Inner".toList) = name ∧ turnKey (name ++ "_Outer".toList) = name ∧
    ((∀ s, name ≠ s ++ "_Inner".toList) → (∀ s, name ≠ s ++ "_Outer".toList) → turnKey name = name) := by
  have hpos : 0 < name.length := List.length_pos_iff.mpr h
  have hi : ("_Inner".toList : List Char).length = 6 := by decide
  have ho : ("_Outer".toList : List Char).length = 6 := by decide
  have hne : ("_Outer".toList : List Char) ≠ "_Inner".toList := by decide
  refine ⟨?_, ?_, ?_⟩
  · unfold turnKey
    rw [List.length_append, hi, Nat.add_sub_cancel, List.drop_left, List.take_left]
    rw [if_pos ⟨by omega, rfl⟩]
  · unfold turnKey
    rw [List.length_append, ho, Nat.add_sub_cancel, List.drop_left, List.take_left]
    rw [if_neg (fun hh => hne hh.2), if_pos ⟨by omega, rfl⟩]
  · intro h1 h2
    unfold turnKey
    rw [if_neg, if_neg]
    · rintro ⟨_, hd⟩
      exact h2 (name.take (name.length - 6)) (by rw [← hd, List.take_append_drop])
    · rintro ⟨_, hd⟩
      exact h1 (name.take (name.length - 6)) (by rw [← hd, List.take_append_drop])

theorem nearest_fold (x y : K) (nodes : List (Node K)) (d t : K) :
    (nodes.foldl (fun m v => if v.part = .ambient then m else if distance2 v x y < m.1 then (distance2 v x y, v.temperature) else m) (d, t) =
        (d, t) ∧ ∀ v ∈ nodes, v.part ≠ .ambient → d ≤ distance2 v x y) ∨
    ∃ v ∈ nodes, v.part ≠ .ambient ∧ distance2 v x y < d ∧
      nodes.foldl (fun m v => if v.part = .ambient then m else if distance2 v x y < m.1 then (distance2 v x y, v.temperature) else m) (d, t) =
        (distance2 v x y, v.temperature) ∧ ∀ w ∈ nodes, w.part ≠ .ambient → distance2 v x y ≤ distance2 w x y := by
  induction nodes generalizing d t with
  | nil => left; simp
  | cons u l ih =>
    rw [List.foldl_cons]
    by_cases hp : u.part = .ambient
    · rw [if_pos hp]
      rcases ih d t with ⟨h1, h2⟩ | ⟨v, hv, h1, h2, h3, h4⟩
      · left
        refine ⟨h1, fun v hv hvp => ?_⟩
        rcases List.mem_cons.mp hv with rfl | hv
        · exact absurd hp hvp
        · exact h2 v hv hvp
      · right
        refine ⟨v, by simp [hv], h1, h2, h3, fun w hw hwp => ?_⟩
        rcases List.mem_cons.mp hw with rfl | hw
        · exact absurd hp hwp
        · exact h4 w hw hwp
    · rw [if_neg hp]
      by_cases hd : distance2 u x y < d
      · simp only [if_pos hd]
        right
        rcases ih (distance2 u x y) u.temperature with ⟨h1, h2⟩ | ⟨v, hv, h1, h2, h3, h4⟩
        · refine ⟨u, by simp, hp, hd, h1, fun w hw hwp => ?_⟩
          rcases List.mem_cons.mp hw with rfl | hw
          · exact le_refl _
          · exact h2 w hw hwp
        · refine ⟨v, by simp [hv], h1, lt_trans h2 hd, h3, fun w hw hwp => ?_⟩
          rcases List.mem_cons.mp hw with rfl | hw
          · exact h2.le
          · exact h4 w hw hwp
      · simp only [if_neg hd]
        rcases ih d t with ⟨h1, h2⟩ | ⟨v, hv, h1, h2, h3, h4⟩
        · left
          refine ⟨h1, fun v hv hvp => ?_⟩
          rcases List.mem_cons.mp hv with rfl | hv
          · exact not_lt.mp hd
          · exact h2 v hv hvp
        · right
          refine ⟨v, by simp [hv], h1, h2, h3, fun w hw hwp => ?_⟩
          rcases List.mem_cons.mp hw with rfl | hw
          · exact le_trans h2.le (not_lt.mp hd)
          · exact h4 w hw hwp

/-- C117: the temperature at a point is that of a part no other part is nearer than, if there is one within a million kilometres. -/
theorem at_point_nearest {ambient : K} {nodes : List (Node K)} {x y : K} {rest : List K}
    (h : ∃ v ∈ nodes, v.part ≠ .ambient ∧ (v.x - x) * (v.x - x) + (v.y - y) * (v.y - y) < 10 ^ 18) :
    ∃ v ∈ nodes, v.part ≠ .ambient ∧ atPoint ambient nodes (x :: y :: rest) = .ok v.temperature ∧
      ∀ w ∈ nodes, w.part ≠ .ambient →
        (v.x - x) * (v.x - x) + (v.y - y) * (v.y - y) ≤ (w.x - x) * (w.x - x) + (w.y - y) * (w.y - y) := by
  rcases nearest_fold x y nodes (10 ^ 18) ambient with ⟨_, h2⟩ | ⟨v, hv, h1, h2, h3, h4⟩
  · obtain ⟨v, hv, hp, hlt⟩ := h
    exact absurd hlt (not_lt.mpr (h2 v hv hp))
  · exact ⟨v, hv, h1, by unfold atPoint; simp only [h3], h4⟩

/-- C117: a point of fewer than two coordinates is refused. -/
theorem at_point_refused (ambient : K) (nodes : List (Node K)) (p : List K) :
    atPoint ambient nodes p = .throws .fewCoordinates ↔ p.length < 2 := by
  rcases p with _ | ⟨x, _ | ⟨y, p⟩⟩ <;> simp [atPoint]

/-- Two halves of a turn and a core. -/
def fewNodes : List (Node ℚ) :=
  [⟨"Core".toList, .coreSegment, 0, 40, false, none, 0, 0, 1⟩, ⟨"A_Inner".toList, .turn, 0, 50, false, some 0, 1, 0, 1⟩,
   ⟨"A_Outer".toList, .turn, 0, 45, false, some 0, 3, 0, 1⟩, ⟨"Ambient".toList, .ambient, 0, 25, true, none, 2, 0, 0⟩]

example : byComponent fewNodes = [("core".toList, 40), ("winding 0".toList, 50)] ∧ perTurn fewNodes = [("A".toList, 50)] ∧
    atPoint 25 fewNodes [2, 0] = .ok 50 ∧ atPoint 25 fewNodes [5 / 2, 1, 7] = .ok 45 := by decide +kernel

/-! ## C118 -/

/-- C118: the heat radiated by a surface at the coefficient is the difference of the radiations of black bodies by the emissivity. -/
theorem radiation_exact (surface other emissivity : K) :
    radiationCoefficient surface other emissivity * (surface - other) =
      emissivity * sigma * ((surface + kelvin) ^ 4 - (other + kelvin) ^ 4) := by
  unfold radiationCoefficient
  ring

/-- C118: it does not matter which of two surfaces is said to radiate, and the coefficient is positive above absolute zero. -/
theorem radiation_symmetric (surface other emissivity : K) :
    radiationCoefficient surface other emissivity = radiationCoefficient other surface emissivity ∧
    (0 < emissivity → 0 < surface + kelvin → 0 < other + kelvin → 0 < radiationCoefficient surface other emissivity) := by
  refine ⟨by unfold radiationCoefficient; ring, fun h1 h2 h3 => ?_⟩
  unfold radiationCoefficient sigma
  positivity

/-- C118: the heat through a resistance of radiation, at the temperatures it is calculated for, is what the surface radiates to the
    other node, or to the ambient if there is no such node. -/
theorem radiation_through {cfg : Config K} {air : Air K} {length : K} {t : Vec n K} {e : Element K} (hk : e.kind = .radiation)
    (ha : 0 < e.area) (hs : e.source < n) {other : K}
    (ho : (∃ h : e.target < n, other = t ⟨e.target, h⟩) ∨ (n ≤ e.target ∧ other = cfg.ambient))
    (hem : 0 < cfg.emissivity) (h1 : 0 < t ⟨e.source, hs⟩ + kelvin) (h2 : 0 < other + kelvin) :
    0 < (recalculate cfg air length t e).resistance ∧
    (t ⟨e.source, hs⟩ - other) / (recalculate cfg air length t e).resistance =
      cfg.emissivity * sigma * e.area * ((t ⟨e.source, hs⟩ + kelvin) ^ 4 - (other + kelvin) ^ 4) := by
  have hoth : (if h' : e.target < n then t ⟨e.target, h'⟩ else cfg.ambient) = other := by
    rcases ho with ⟨h, rfl⟩ | ⟨h, rfl⟩
    · rw [dif_pos h]
    · rw [dif_neg (by omega)]
  have hpos := (radiation_symmetric (t ⟨e.source, hs⟩) other cfg.emissivity).2 hem h1 h2
  have hres : (recalculate cfg air length t e).resistance =
      1 / (radiationCoefficient (t ⟨e.source, hs⟩) other cfg.emissivity * e.area) := by
    unfold recalculate
    rw [dif_pos hs, hk]
    simp only
    rw [if_pos ha, hoth]
    unfold atCoefficient
    rw [if_pos hpos]
  rw [hres]
  refine ⟨by positivity, ?_⟩
  have hx := radiation_exact (t ⟨e.source, hs⟩) other cfg.emissivity
  rw [div_div_eq_mul_div, div_one]
  linear_combination e.area * hx

/-- C118: resistances of still air are at the coefficient for the surface and the ambient, and those of conduction and of the rest,
    of no area or of no node are left as they were. -/
theorem recalculated_others {cfg : Config K} {air : Air K} {length : K} {t : Vec n K} {e : Element K} :
    (∀ hs : e.source < n, e.kind = .natural → 0 < e.area → 0 < air.natural (t ⟨e.source, hs⟩) cfg.ambient length e.facing →
      (recalculate cfg air length t e).resistance = 1 / (air.natural (t ⟨e.source, hs⟩) cfg.ambient length e.facing * e.area)) ∧
    (¬ 0 < e.area ∨ n ≤ e.source ∨ (e.kind ≠ .natural ∧ e.kind ≠ .forced ∧ e.kind ≠ .radiation) → recalculate cfg air length t e = e) := by
  refine ⟨fun hs hk ha hh => ?_, fun hc => ?_⟩
  · unfold recalculate
    rw [dif_pos hs, hk]
    simp only
    rw [if_pos ha]
    unfold atCoefficient
    rw [if_pos hh]
  · unfold recalculate
    by_cases hs : e.source < n
    · rw [dif_pos hs]
      rcases hc with hc | hc | ⟨h1, h2, h3⟩
      · cases hk : e.kind <;> simp [not_lt.mp hc]
      · omega
      · cases hk : e.kind <;> simp_all
    · rw [dif_neg hs]

/-- A surface that radiates to the ambient. -/
example : (0 : ℚ) < 80 + kelvin ∧ (0 : ℚ) < 25 + kelvin := by decide +kernel

/-- The temperatures of a table rise. -/
def Rising : List (K × K) → Prop
  | p :: q :: l => p.1 < q.1 ∧ Rising (q :: l)
  | _ => True

theorem rising_lt {p : K × K} {l : List (K × K)} (h : Rising (p :: l)) : ∀ e ∈ l, p.1 < e.1 := by
  induction l generalizing p with
  | nil => simp
  | cons q l ih =>
    intro e he
    rcases List.mem_cons.mp he with rfl | he
    · exact h.1
    · exact lt_trans h.1 (ih h.2 e he)

theorem between_of_bracket (t : K) : ∀ (a : List (K × K)) (p q : K × K) (b : List (K × K)), Rising (a ++ p :: q :: b) → p.1 < t → t ≤ q.1 →
    between t (a ++ p :: q :: b) = some (.ok (p.2 + (t - p.1) / (q.1 - p.1) * (q.2 - p.2)))
  | [], p, q, b, hr, h1, h2 => by
    simp only [List.nil_append, between]
    rw [if_pos ⟨h1.le, h2⟩, if_neg (by have := hr.1; intro h0; linarith)]
  | [x], p, q, b, hr, h1, h2 => by
    have := between_of_bracket t [] p q b hr.2 h1 h2
    simp only [List.cons_append, List.nil_append] at this ⊢
    rw [between, if_neg (fun h => absurd h.2 (not_le.mpr h1))]
    exact this
  | x :: y :: a, p, q, b, hr, h1, h2 => by
    have := between_of_bracket t (y :: a) p q b hr.2 h1 h2
    simp only [List.cons_append] at this hr ⊢
    rw [between, if_neg]
    · exact this
    · intro h
      have hy : y.1 < p.1 := rising_lt hr.2 p (by simp)
      exact absurd h.2 (not_le.mpr (lt_trans hy h1))

/-- C118: between two temperatures of a table that rises, the conductivity is on the line through their conductivities. -/
theorem table_interpolates {a b : List (K × K)} {p q : K × K} {t : K} (hr : Rising (a ++ p :: q :: b)) (h1 : p.1 < t) (h2 : t ≤ q.1) :
    ∃ k, fromTable (a ++ p :: q :: b) t = .ok k ∧ (k - p.2) * (q.1 - p.1) = (q.2 - p.2) * (t - p.1) ∧
      min p.2 q.2 ≤ k ∧ k ≤ max p.2 q.2 := by
  have hb := between_of_bracket t a p q b hr h1 h2
  have hlt : p.1 < q.1 := lt_of_lt_of_le h1 h2
  have hpos : 0 < q.1 - p.1 := by linarith
  refine ⟨p.2 + (t - p.1) / (q.1 - p.1) * (q.2 - p.2), ?_, ?_, ?_⟩
  · unfold fromTable
    rcases a with _ | ⟨x, _ | ⟨y, a⟩⟩
    · simp only [List.nil_append] at hb ⊢
      rw [hb]
    · simp only [List.cons_append, List.nil_append] at hb ⊢
      rw [hb]
    · simp only [List.cons_append] at hb ⊢
      rw [hb]
  · field_simp
    ring
  · set s : K := (t - p.1) / (q.1 - p.1) with hs
    have hs0 : 0 ≤ s := div_nonneg (by linarith) hpos.le
    have hs1 : s ≤ 1 := by rw [hs, div_le_one hpos]; linarith
    rcases le_total p.2 q.2 with h | h
    · rw [min_eq_left h, max_eq_right h]
      constructor <;> nlinarith
    · rw [min_eq_right h, max_eq_left h]
      constructor <;> nlinarith

theorem between_below (t : K) : ∀ l : List (K × K), (∀ e ∈ l, t < e.1) → between t l = none
  | [], _ => rfl
  | [_], _ => rfl
  | p :: q :: l, h => by
    rw [between, if_neg (fun hh => absurd hh.1 (not_le.mpr (h p (by simp))))]
    exact between_below t (q :: l) fun e he => h e (by simp [he])

theorem between_above (t : K) : ∀ l : List (K × K), (∀ e ∈ l, e.1 < t) → between t l = none
  | [], _ => rfl
  | [_], _ => rfl
  | p :: q :: l, h => by
    rw [between, if_neg (fun hh => absurd hh.2 (not_le.mpr (h q (by simp))))]
    exact between_above t (q :: l) fun e he => h e (by simp [he])

/-- C118: at or below the first temperature of a table that rises the conductivity is the first, above the last it is the last; a table of
    one entry says the same everywhere. -/
theorem table_ends {p : K × K} {l : List (K × K)} (hr : Rising (p :: l)) (t : K) :
    (t ≤ p.1 → fromTable (p :: l) t = .ok p.2) ∧ (l = [] → fromTable (p :: l) t = .ok p.2) ∧
    ((∀ e ∈ p :: l, e.1 < t) → ∃ q, (p :: l).getLast? = some q ∧ fromTable (p :: l) t = .ok q.2) := by
  rcases l with _ | ⟨q, l⟩
  · exact ⟨fun _ => rfl, fun _ => rfl, fun _ => ⟨p, rfl, rfl⟩⟩
  refine ⟨fun ht => ?_, fun h => by simp at h, fun h => ?_⟩
  · rcases ht.lt_or_eq with hlt | heq
    · unfold fromTable
      simp only
      rw [between_below]
      · simp [hlt]
      · intro e he
        rcases List.mem_cons.mp he with rfl | he
        · exact hlt
        · exact lt_trans hlt (rising_lt hr e he)
    · unfold fromTable
      simp only [between]
      have hpq : p.1 < q.1 := hr.1
      rw [if_pos ⟨heq.ge, by rw [heq]; exact hpq.le⟩, if_neg (by intro h0; linarith)]
      rw [heq]; simp
  · refine ⟨(q :: l).getLastD q, ?_, ?_⟩
    · rw [List.getLast?_cons_cons]
      cases l <;> simp [List.getLast?_cons, List.getLastD_cons]
    · unfold fromTable
      simp only
      rw [between_above t _ h]
      simp only
      rw [if_neg (not_lt.mpr (h p (by simp)).le)]

/-- C118: an empty table is refused. -/
theorem table_empty (t : K) : fromTable ([] : List (K × K)) t = .throws .emptyTable := rfl

example : fromTable [((20 : ℚ), (400 : ℚ)), (100, 392), (200, 384)] 60 = .ok 396 ∧ fromTable [((20 : ℚ), (400 : ℚ)), (100, 392), (200, 384)] 100 = .ok 392 ∧
    fromTable [((20 : ℚ), (400 : ℚ)), (100, 392)] 0 = .ok 400 ∧ fromTable [((20 : ℚ), (400 : ℚ)), (100, 392)] 300 = .ok 392 := by decide +kernel

/-- C118 fails of a table that has a temperature twice: the conductivity at it is a quotient of zeros. -/
theorem repeated_temperature_nan : fromTable [((20 : ℚ), (400 : ℚ)), (20, 400), (100, 392)] 20 = .nan := by decide +kernel

/-- C118: with a table, the conductivity of a wire material by its name is the one of its table at 25 degrees. -/
theorem material_table {wires : List (List Char × WireMaterial K)} {others : List Char → Res K} {name : List Char} {w : WireMaterial K}
    {p : K × K} {l : List (K × K)} (hw : wires.find? (fun e => e.1 = name.map Char.toLower) = some (name.map Char.toLower, w))
    (ht : w.table = some (p :: l)) (k : Nat) : materialConductivity wires others (k + 1) name = some (fromTable (p :: l) 25) := by
  rw [materialConductivity]
  simp only [hw, ht]
  split
  · rename_i e he
    exfalso
    rcases l with _ | ⟨q, l⟩
    · simp [fromTable] at he
    · unfold fromTable at he
      simp only at he
      have hb : ∀ (m : List (K × K)) r, between (25 : K) m = some r → ∀ e, r ≠ .throws e := by
        intro m
        induction m with
        | nil => intro r h; simp [between] at h
        | cons a m ih =>
          intro r h e
          rcases m with _ | ⟨b, m⟩
          · simp [between] at h
          · rw [between] at h
            split at h
            · split at h <;> (simp at h; rw [← h]; simp)
            · exact ih r h e
      split at he
      · rename_i r hbr
        exact hb _ _ hbr _ he
      · split at he <;> simp at he
  · rfl

/-- C118 fails of a wire material without a table: asked by its name, its conductivity never comes, however many calls are made. -/
theorem material_never_ends {wires : List (List Char × WireMaterial K)} {others : List Char → Res K} {name : List Char} {w : WireMaterial K}
    (hw : wires.find? (fun e => e.1 = name.map Char.toLower) = some (name.map Char.toLower, w)) (hn : w.name.map Char.toLower = name.map Char.toLower)
    (ht : w.table = none) (k : Nat) : materialConductivity wires others k name = none := by
  induction k generalizing name with
  | zero => rfl
  | succ k ih =>
    rw [materialConductivity]
    simp only [hw, ht]
    rw [ih (by rw [hn]; exact hw) (by rw [hn])]

/-- Such a material: silver, without a table. -/
example : ([("silver".toList, (⟨"silver".toList, none⟩ : WireMaterial ℚ))].find? fun e => e.1 = "Silver".toList.map Char.toLower).isSome = true ∧
    ("silver".toList).map Char.toLower = "Silver".toList.map Char.toLower := by decide +kernel

end Verif.Thermal
