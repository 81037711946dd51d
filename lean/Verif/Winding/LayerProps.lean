import Verif.Winding.PlanLemmas
import Verif.Winding.Props

/-! # C69 to C71: what the layers of a section hold -/

namespace Verif.Winding

open Verif.Round

set_option linter.unusedSimpArgs false

/-! ## Specification -/

/-- The turns of parallel `j` over the conduction layers. -/
def woundLayers (T j : Nat) (ls : List Layer) : ℤ := ((condLayers ls).map fun l => share T j l.props).sum

/-- The exception for a layer without turns. -/
def emptyLayer : String := "Parallel proportion in layer cannot be all be 0"

/-- A section of two parallels of 12 turns in a window that takes five turns of wire per layer and four layers. -/
def sampleSection : SectionIn where
  turns := 12
  parallels := 2
  override := none
  wire := ⟨.round, some 1, none⟩
  props := [1, 1]
  style := some .parallels
  numberLayers := none
  orientation := .overlapping
  alignment := .centered
  dims := (10, 5)
  centre := (5, 0)
  interlayer := none
  capacity := fun _ => 5
  room := fun _ => 0
  shift := fun _ => 0

/-- Default settings. -/
def plainEnv : LayerEnv := ⟨false, false, false, false⟩

/-! ## Counts -/

theorem consistent_counts {T P : Nat} {ps : List ℚ} {n : Nat} (hT : 0 < T) (h : Consistent T P ps n) :
    ∃ cs : List Nat, cs.length = P ∧ ps = props T cs ∧ cs.sum = n ∧ ∀ c ∈ cs, c ≤ T := by
  obtain ⟨hlen, hall, hsum⟩ := h
  have key : ∀ l : List ℚ, (∀ p ∈ l, ∃ k : Nat, k ≤ T ∧ p = (k : ℚ) / T) →
      ∃ cs : List Nat, l = props T cs ∧ ∀ c ∈ cs, c ≤ T := by
    intro l
    induction l with
    | nil => intro _; exact ⟨[], rfl, by simp⟩
    | cons p l ih =>
      intro h
      obtain ⟨k, hk, rfl⟩ := h p List.mem_cons_self
      obtain ⟨cs, rfl, hcs⟩ := ih fun q hq => h q (List.mem_cons_of_mem _ hq)
      refine ⟨k :: cs, rfl, ?_⟩
      intro c hc
      rcases List.mem_cons.mp hc with rfl | hc
      · exact hk
      · exact hcs c hc
  obtain ⟨cs, rfl, hcs⟩ := key ps hall
  have hl : cs.length = P := by simpa using hlen
  refine ⟨cs, hl, rfl, ?_, hcs⟩
  subst hl
  have := sum_range_getD cs
  have e : ((List.range cs.length).map fun j => share T j (props T cs)) =
      (List.range cs.length).map fun j => ((cs.getD j 0 : ℕ) : ℤ) := by
    apply List.map_congr_left
    intro j _
    exact share_props hT j cs
  rw [e, this] at hsum
  omega

theorem woundLayers_rows {T : Nat} (hT : 0 < T) {ls : List Layer} {rows : List (List Nat)}
    (h : (condLayers ls).map (·.props) = rows.map (props T)) (j : Nat) :
    woundLayers T j ls = (column j rows : ℕ) := by
  have e : (condLayers ls).map (fun l => share T j l.props) =
      ((condLayers ls).map (·.props)).map (share T j) := by rw [List.map_map]; rfl
  unfold woundLayers column
  rw [e, h, List.map_map]
  have : (share T j ∘ props T) = fun r : List Nat => ((r.getD j 0 : ℕ) : ℤ) := by
    funext r; exact share_props hT j r
  rw [this]
  clear h e
  induction rows with
  | nil => rfl
  | cons r rows ih =>
    rw [List.map_cons, List.map_cons, List.sum_cons, List.sum_cons, ih]
    push_cast; rfl

theorem layers_consistent {T P : Nat} (hT : 0 < T) {ls : List Layer} {rows : List (List Nat)}
    (h : (condLayers ls).map (·.props) = rows.map (props T))
    (h' : (condLayers ls).map (·.physical) = rows.map List.sum)
    (hr : ∀ r ∈ rows, r.length = P ∧ ∀ k ∈ r, k ≤ T) :
    ∀ l ∈ condLayers ls, Consistent T P l.props l.physical := by
  intro l hl
  obtain ⟨i, hi, rfl⟩ := List.mem_iff_getElem.mp hl
  have hlen : (condLayers ls).length = rows.length := by
    have := congrArg List.length h; simpa using this
  have hri : i < rows.length := by omega
  have e1 : (condLayers ls)[i].props = props T rows[i] := by
    have := congrArg (·[i]?) h
    simp only [List.getElem?_map, List.getElem?_eq_getElem hi, List.getElem?_eq_getElem hri,
      Option.map_some, Option.some.injEq] at this
    exact this
  have e2 : (condLayers ls)[i].physical = rows[i].sum := by
    have := congrArg (·[i]?) h'
    simp only [List.getElem?_map, List.getElem?_eq_getElem hi, List.getElem?_eq_getElem hri,
      Option.map_some, Option.some.injEq] at this
    exact this
  rw [e1, e2]
  obtain ⟨h1, h2⟩ := hr _ (List.getElem_mem hri)
  exact consistent_props hT h1 h2

theorem getD_mem_le {j : Nat} {cs : List Nat} {T : Nat} (h : ∀ c ∈ cs, c ≤ T) : cs.getD j 0 ≤ T := by
  rw [List.getD]
  cases hj : cs[j]? with
  | none => simp
  | some c => exact h c (List.mem_of_getElem? hj)

theorem rows_le {T : Nat} {cs : List Nat} {rows : List (List Nat)} (hcs : ∀ c ∈ cs, c ≤ T)
    (hlen : ∀ r ∈ rows, r.length = cs.length) (hcol : ∀ j, column j rows ≤ cs.getD j 0) :
    ∀ r ∈ rows, r.length = cs.length ∧ ∀ k ∈ r, k ≤ T := by
  intro r hr
  refine ⟨hlen r hr, fun k hk => ?_⟩
  obtain ⟨j, hj, rfl⟩ := List.mem_iff_getElem.mp hk
  have h1 := column_mem (j := j) hr
  rw [List.getD, List.getElem?_eq_getElem hj, Option.getD_some] at h1
  exact le_trans h1 (le_trans (hcol j) (getD_mem_le hcs))

theorem runForced_lengths (style : Style) : ∀ (per cs : List Nat), ∀ r ∈ runForced style per cs, r.length = cs.length
  | [], cs, r, h => by simp [runForced] at h
  | k :: ks, cs, r, h => by
    rw [runForced] at h
    rcases List.mem_cons.mp h with rfl | h
    · exact (forcedNat_le style k cs).length
    · rw [runForced_lengths style ks _ r h, minus_length (forcedNat_le style k cs)]

theorem runForced_column_le (style : Style) (j : Nat) : ∀ (per cs : List Nat),
    column j (runForced style per cs) ≤ cs.getD j 0
  | [], cs => by simp [column, runForced]
  | k :: ks, cs => by
    have ih := runForced_column_le style j ks (minus cs (forcedNat style k cs))
    have h2 := (minus_getD j (forcedNat_le style k cs)).1
    simp only [column, runForced, List.map_cons, List.sum_cons] at ih ⊢
    omega

/-- What a run over the layers of a section gives, blocked or not. -/
theorem windLayers_rows {env : LayerEnv} {s : SectionIn} {plan : LayerPlan} {n : Nat}
    (hplan : planLayers env s = .ok plan) (hT : 0 < s.turns) (hsec : Consistent s.turns s.parallels s.props n)
    (hb : n ≤ 2 * 10 ^ 10) :
    ∃ (cs : List Nat) (rows : List (List Nat)), cs.length = s.parallels ∧ s.props = props s.turns cs ∧ cs.sum = n ∧
      (∀ c ∈ cs, c ≤ s.turns) ∧
      (rows = if blocked env s plan.room = true then
          runForced plan.style (blockedTurns s.parallels s.capacity n 0) cs
        else runNat plan.style plan.count cs) ∧
      ((∀ row ∈ rows, ∃ k ∈ row, k ≠ 0) →
        ∃ ls, windLayers env s = .ok ls ∧
          (condLayers ls).map (·.props) = rows.map (props s.turns) ∧
          (condLayers ls).map (·.physical) = rows.map List.sum ∧
          (condLayers ls).map (·.index) = List.range plan.count ∧
          ∀ l ∈ condLayers ls, l.style = plan.style) ∧
      ((∃ row ∈ rows, ∀ k ∈ row, k = 0) → windLayers env s = .thrown emptyLayer) := by
  obtain ⟨cs, hlen, hps, hsum, hle⟩ := consistent_counts hT hsec
  obtain ⟨h1, ⟨n₀, h2, h3⟩, h4, h5⟩ := planLayers_ok hplan hT hlen hps
  refine ⟨cs, _, hlen, hps, hsum, hle, rfl, ?_⟩
  unfold windLayers
  rw [hplan]
  simp only [Res.bind]
  rw [hps]
  cases hbl : blocked env s plan.room
  · rw [if_neg (by simp)]
    obtain ⟨h6, h7⟩ := h3 hbl
    have hc : plan.count ≤ 2 * 10 ^ 10 := by
      have := (growLayers_ok h6).1 (baseLayers_ok h2).1
      omega
    exact layerLoop_free env s plan hT h7 hc hlen _
  · rw [if_pos rfl]
    obtain ⟨h6, h7, _⟩ := h5 hbl
    rw [← hsum]
    exact layerLoop_forced env s plan hT h6 h7 hlen (blockedTurns_facts _ _ _ _).1 _

theorem windLayers_plan {env : LayerEnv} {s : SectionIn} {ls : List Layer} (h : windLayers env s = .ok ls) :
    ∃ plan, planLayers env s = .ok plan := by
  obtain ⟨plan, hp, _⟩ := bind_ok h
  exact ⟨plan, hp⟩

theorem windLayers_ok {env : LayerEnv} {s : SectionIn} {plan : LayerPlan} {n : Nat} {ls : List Layer}
    (h : windLayers env s = .ok ls) (hplan : planLayers env s = .ok plan) (hT : 0 < s.turns)
    (hsec : Consistent s.turns s.parallels s.props n) (hb : n ≤ 2 * 10 ^ 10) :
    ∃ (cs : List Nat) (rows : List (List Nat)), cs.length = s.parallels ∧ s.props = props s.turns cs ∧ cs.sum = n ∧
      (∀ c ∈ cs, c ≤ s.turns) ∧
      (rows = if blocked env s plan.room = true then
          runForced plan.style (blockedTurns s.parallels s.capacity n 0) cs
        else runNat plan.style plan.count cs) ∧
      (∀ row ∈ rows, ∃ k ∈ row, k ≠ 0) ∧
      (condLayers ls).map (·.props) = rows.map (props s.turns) ∧
      (condLayers ls).map (·.physical) = rows.map List.sum ∧
      (condLayers ls).map (·.index) = List.range plan.count ∧
      ∀ l ∈ condLayers ls, l.style = plan.style := by
  obtain ⟨cs, rows, a1, a2, a3, a4, a5, a6, a7⟩ := windLayers_rows hplan hT hsec hb
  refine ⟨cs, rows, a1, a2, a3, a4, a5, ?_⟩
  by_cases hz : ∃ row ∈ rows, ∀ k ∈ row, k = 0
  · rw [a7 hz] at h; simp at h
  · have hnz : ∀ row ∈ rows, ∃ k ∈ row, k ≠ 0 := by
      intro row hr
      by_contra hc
      push Not at hc
      exact hz ⟨row, hr, hc⟩
    obtain ⟨ls', e1, e2, e3, e4, e5⟩ := a6 hnz
    rw [h, Res.ok.injEq] at e1
    subst e1
    exact ⟨hnz, e2, e3, e4, e5⟩

/-! ## C69: every turn of a section is in one of its layers -/

/-- C69: when `wind_by_layers` succeeds, the layers of a section hold exactly its turns, parallel by parallel, as
long as it was not told to use zero layers, and no layer is left without space for a row of parallels by
connections. The layers are numbered from zero without gaps and each is consistent. -/
theorem layers_hold_every_turn {env : LayerEnv} {s : SectionIn} {ls : List Layer} {n : Nat}
    (h : windLayers env s = .ok ls) (hT : 0 < s.turns) (hsec : Consistent s.turns s.parallels s.props n)
    (hb : n ≤ 2 * 10 ^ 10) (h0 : s.numberLayers ≠ some 0)
    (hcap : env.real = true → env.blocking = true → ∀ k, s.parallels ≤ s.capacity k) :
    (∀ j < s.parallels, woundLayers s.turns j ls = share s.turns j s.props) ∧
    (∀ l ∈ condLayers ls, Consistent s.turns s.parallels l.props l.physical) ∧
    (condLayers ls).map (·.index) = List.range (condLayers ls).length := by
  obtain ⟨plan, hplan⟩ := windLayers_plan h
  obtain ⟨cs, rows, hlen, hps, hsum, hle, hrows, _, e2, e3, e4, _⟩ := windLayers_ok h hplan hT hsec hb
  have hidx : (condLayers ls).map (·.index) = List.range (condLayers ls).length := by
    have : (condLayers ls).length = plan.count := by
      have := congrArg List.length e4; simpa using this
    rw [this]; exact e4
  obtain ⟨h1, ⟨n₀, h2, h3⟩, _, h5⟩ := planLayers_ok hplan hT hlen hps
  have hcol : ∀ j, column j rows = cs.getD j 0 := by
    intro j
    subst hrows
    cases hbl : blocked env s plan.room
    · rw [if_neg (by simp)]
      obtain ⟨h6, _⟩ := h3 hbl
      have hc := runNat_column plan.style j plan.count cs
      rcases Nat.eq_zero_or_pos cs.sum with hz | hz
      · have hj : cs.getD j 0 = 0 := by
          have := List.sum_eq_zero_iff.mp hz
          have : cs.getD j 0 ≤ 0 := getD_mem_le fun c hc => by rw [this c hc]
          omega
        omega
      · have hpos := (growLayers_ok h6).2.1 ((baseLayers_ok h2).2.1 h0 hz)
        rw [leftNat_zero plan.style plan.count cs hpos] at hc
        have : (List.replicate cs.length 0).getD j 0 = 0 := by
          simp [List.getD, List.getElem?_replicate]
          split <;> rfl
        omega
    · rw [if_pos rfl]
      obtain ⟨_, _, h8⟩ := h5 hbl
      have hbb := hbl
      simp only [blocked, Bool.and_eq_true] at hbb
      rcases Nat.eq_zero_or_pos n with hz | hz
      · apply runForced_column
        have := (blockedTurns_facts s.parallels s.capacity n 0).1
        omega
      · apply runForced_column
        rw [hsum]
        exact (blockedTurns_facts s.parallels s.capacity n 0).2.2.2
          (hcap hbb.1.1.1.1 hbb.1.1.1.2) (h8 (by omega))
  refine ⟨fun j _ => ?_, ?_, hidx⟩
  · rw [woundLayers_rows hT e2, hps, share_props hT, hcol]
  · refine layers_consistent hT e2 e3 ?_
    have := rows_le hle (rows := rows) (by
      intro r hr
      subst hrows
      cases hbl : blocked env s plan.room
      · rw [hbl, if_neg (by simp)] at hr
        exact runNat_rows _ _ _ r hr
      · rw [hbl, if_pos rfl] at hr
        exact runForced_lengths _ _ _ r hr) (fun j => le_of_eq (hcol j))
    rw [hlen] at this
    exact this

/-- The section of the sample: six layers of two turns of each parallel. -/
example : (windLayers plainEnv sampleSection).returns fun ls =>
    (condLayers ls).map (fun l => (l.physical, share 12 0 l.props, share 12 1 l.props)) = List.replicate 6 (4, 2, 2) := by
  decide +kernel

example : Consistent sampleSection.turns sampleSection.parallels sampleSection.props 24 := by
  refine ⟨rfl, ?_, by decide +kernel⟩
  intro p hp
  simp only [sampleSection, List.mem_cons, List.not_mem_nil, or_false, or_self] at hp
  exact ⟨12, by decide, by rw [hp]; norm_num [sampleSection]⟩

/-- C69: a section told to use zero layers loses its turns without an error. -/
theorem layers_zero_drops_turns :
    windLayers plainEnv { sampleSection with numberLayers := some 0 } = .ok [] := by decide +kernel

/-- C69: with real winding geometry, a layer left with less space than a row of parallels by connections ends the
section without an error, and the turns not yet placed are lost. -/
theorem layers_blocked_drops_turns :
    (windLayers { plainEnv with real := true, blocking := true }
      { sampleSection with capacity := fun k => if k = 0 then 4 else 1 }).returns fun ls =>
      woundLayers 12 0 ls = 2 := by decide +kernel

/-! ## C70: no empty layer -/

theorem windLayers_throws_iff {env : LayerEnv} {s : SectionIn} {plan : LayerPlan} {n : Nat}
    (hplan : planLayers env s = .ok plan) (hT : 0 < s.turns) (hsec : Consistent s.turns s.parallels s.props n)
    (hb : n ≤ 2 * 10 ^ 10) :
    windLayers env s = .thrown emptyLayer ↔
      blocked env s plan.room = false ∧ 0 < plan.count ∧ plan.style = .parallels ∧
        ∀ j < s.parallels, share s.turns j s.props < plan.count := by
  obtain ⟨cs, rows, hlen, hps, hsum, hle, hrows, h6, h7⟩ := windLayers_rows hplan hT hsec hb
  obtain ⟨h1, ⟨n₀, h2, h3⟩, _, h5⟩ := planLayers_ok hplan hT hlen hps
  have hiff : windLayers env s = .thrown emptyLayer ↔ ∃ row ∈ rows, ∀ k ∈ row, k = 0 := by
    constructor
    · intro h
      by_contra hc
      have hnz : ∀ row ∈ rows, ∃ k ∈ row, k ≠ 0 := by
        intro row hr
        by_contra hcc
        push Not at hcc
        exact hc ⟨row, hr, hcc⟩
      obtain ⟨ls, e, _⟩ := h6 hnz
      rw [h] at e
      simp at e
    · exact h7
  rw [hiff]
  have hshare : (∀ j < s.parallels, share s.turns j s.props < plan.count) ↔ ∀ c ∈ cs, c < plan.count := by
    rw [hps]
    constructor
    · intro h c hc
      obtain ⟨j, hj, rfl⟩ := List.mem_iff_getElem.mp hc
      have := h j (by omega)
      rw [share_props hT, List.getD, List.getElem?_eq_getElem hj, Option.getD_some] at this
      exact_mod_cast this
    · intro h j hj
      rw [share_props hT, List.getD, List.getElem?_eq_getElem (by omega), Option.getD_some]
      exact_mod_cast h _ (List.getElem_mem (by omega))
  rw [hshare]
  subst hrows
  cases hbl : blocked env s plan.room
  · rw [if_neg (by simp)]
    have hnz := runNat_nonzero (style := plan.style) (m := plan.count) (cs := cs)
    have hcnt : plan.count ≤ cs.sum := by
      obtain ⟨h6, _⟩ := h3 hbl
      exact (growLayers_ok h6).1 (baseLayers_ok h2).1
    constructor
    · rintro ⟨row, hr, hz⟩
      have hn : ¬ (∀ row ∈ runNat plan.style plan.count cs, ∃ k ∈ row, k ≠ 0) := by
        intro h
        obtain ⟨k, hk, hne⟩ := h row hr
        exact hne (hz k hk)
      rw [hnz] at hn
      push Not at hn
      obtain ⟨n1, n2, n3⟩ := hn
      refine ⟨rfl, by omega, ?_, ?_⟩
      · cases hst : plan.style
        · have := n2 hst; omega
        · rfl
      · intro c hc
        cases hst : plan.style
        · have := n2 hst; omega
        · exact n3 hst c hc
    · rintro ⟨_, hpos, hst, hlt⟩
      by_contra hc
      have hn : ∀ row ∈ runNat plan.style plan.count cs, ∃ k ∈ row, k ≠ 0 := by
        intro row hr
        by_contra hcc
        push Not at hcc
        exact hc ⟨row, hr, hcc⟩
      rw [hnz] at hn
      rcases hn with hn | ⟨hn, _⟩ | ⟨_, c, hc, hn⟩
      · omega
      · rw [hst] at hn; simp at hn
      · have := hlt c hc; omega
  · rw [if_pos rfl]
    simp only [Bool.true_eq_false, false_and, iff_false]
    rintro ⟨row, hr, hz⟩
    obtain ⟨k, hk, hne⟩ := runForced_nonzero (style := plan.style) (cs := cs)
      (by rw [hsum]; exact (blockedTurns_facts _ _ _ _).1) (blockedTurns_facts _ _ _ _).2.1 row hr
    exact hne (hz k hk)

theorem bind_thrown {α β : Type} {a : Res α} {f : α → Res β} {m : String} (h : a.bind f = .thrown m) :
    a = .thrown m ∨ ∃ x, a = .ok x ∧ f x = .thrown m := by
  cases a with
  | ok x => exact .inr ⟨x, rfl, h⟩
  | refused => simp [Res.bind] at h
  | ub => simp [Res.bind] at h
  | nan => simp [Res.bind] at h
  | thrown k => left; simpa [Res.bind] using h

theorem layerStyle_not_thrown (T P n : Nat) (o : Option Style) (m : String) : layerStyle T P n o ≠ .thrown m := by
  unfold layerStyle
  cases o <;> simp only [] <;> repeat' (first | split | simp)

theorem sumTurns_not_thrown (T : Nat) (m : String) : ∀ ps : List ℚ, sumTurns T ps ≠ .thrown m
  | [] => by simp [sumTurns]
  | p :: ps => by
    intro h
    rw [sumTurns] at h
    rcases bind_thrown h with h | ⟨x, _, h⟩
    · unfold turnsOf at h
      simp only [] at h
      split at h <;> simp at h
    · rcases bind_thrown h with h | ⟨y, _, h⟩
      · exact sumTurns_not_thrown T m ps h
      · simp at h

theorem styleFor_not_thrown (env : LayerEnv) (s : SectionIn) (r : Room) (n : Nat) (m : String) :
    styleFor env s r n ≠ .thrown m := by
  intro h
  unfold styleFor at h
  rcases bind_thrown h with h | ⟨x, _, h⟩
  · cases hs : s.style with
    | some st => rw [hs] at h; simp at h
    | none => rw [hs] at h; exact layerStyle_not_thrown _ _ _ _ _ h
  · simp at h

theorem growLayers_not_thrown (s : SectionIn) (p : Nat) (r : Room) (n : Nat) (m : String) :
    growLayers s p r n ≠ .thrown m := by
  intro h
  unfold growLayers at h
  split at h
  · rcases bind_thrown h with h | ⟨x, _, h⟩
    · cases hs : s.style with
      | some st => rw [hs] at h; simp at h
      | none => rw [hs] at h; exact layerStyle_not_thrown _ _ _ _ _ h
    · simp only [] at h
      split at h
      · split at h <;> simp at h
      · simp at h
  · simp at h

theorem baseLayers_not_thrown (env : LayerEnv) (s : SectionIn) (p : Nat) (r : Room) (m : String) :
    baseLayers env s p r ≠ .thrown m := by
  intro h
  unfold baseLayers at h
  rcases bind_thrown h with h | ⟨x, _, h⟩
  · cases hs : s.numberLayers with
    | some st => rw [hs] at h; simp at h
    | none =>
      rw [hs] at h
      simp only [] at h
      split at h
      · split at h <;> simp at h
      · split at h <;> simp at h
  · simp at h

theorem floorCount_not_thrown (x d : ℚ) (m : String) : floorCount x d ≠ .thrown m := by
  unfold floorCount; split <;> simp

theorem truncCount_not_thrown (x d : ℚ) (m : String) : truncCount x d ≠ .thrown m := by
  unfold truncCount; split <;> simp

theorem roomFor_message {env : LayerEnv} {s : SectionIn} (m : String) (h1 : m ≠ "Missing wire outer diameter")
    (h2 : m ≠ "Missing wire outer width") (h3 : m ≠ "Missing wire outer height") : roomFor env s ≠ .thrown m := by
  intro h
  unfold roomFor at h
  have fin : ∀ {a b : Res Nat} {f : Nat → Nat → Room}, (a.bind fun x => b.bind fun y => .ok (f x y)) = .thrown m →
      a ≠ .thrown m → b ≠ .thrown m → False := by
    intro a b f h ha hb
    rcases bind_thrown h with h | ⟨x, _, h⟩
    · exact ha h
    · rcases bind_thrown h with h | ⟨y, _, h⟩
      · exact hb h
      · simp at h
  cases hk : s.wire.kind <;> rw [hk] at h <;> simp only [] at h
  · cases hw : s.wire.width with
    | none => rw [hw] at h; simp only [Res.thrown.injEq] at h; exact h1 h.symm
    | some d =>
      rw [hw] at h
      cases ho : s.orientation <;> rw [ho] at h <;>
        exact fin h (truncCount_not_thrown _ _ _) (floorCount_not_thrown _ _ _)
  all_goals
    cases hw : s.wire.width with
    | none => rw [hw] at h; simp only [Res.thrown.injEq] at h; exact h2 h.symm
    | some w =>
      cases hh : s.wire.height with
      | none => rw [hw, hh] at h; simp only [Res.thrown.injEq] at h; exact h3 h.symm
      | some v =>
        rw [hw, hh] at h
        cases ho : s.orientation <;> rw [ho] at h <;>
          refine fin h (truncCount_not_thrown _ _ _) ?_
        all_goals
          split
          · simp
          · exact floorCount_not_thrown _ _ _

/-- The planning throws only for sizes missing from the wire. -/
theorem planLayers_message {env : LayerEnv} {s : SectionIn} (m : String) (h1 : m ≠ "Missing wire outer diameter")
    (h2 : m ≠ "Missing wire outer width") (h3 : m ≠ "Missing wire outer height") : planLayers env s ≠ .thrown m := by
  intro h
  unfold planLayers at h
  split at h
  · simp at h
  rcases bind_thrown h with h | ⟨phys, _, h⟩
  · exact sumTurns_not_thrown _ _ _ h
  rcases bind_thrown h with h | ⟨room, _, h⟩
  · exact roomFor_message m h1 h2 h3 h
  rcases bind_thrown h with h | ⟨n₀, _, h⟩
  · exact baseLayers_not_thrown _ _ _ _ _ h
  split at h
  · split at h
    · simp at h
    · rcases bind_thrown h with h | ⟨st, _, h⟩
      · exact styleFor_not_thrown _ _ _ _ _ h
      · simp at h
  · rcases bind_thrown h with h | ⟨n, _, h⟩
    · exact growLayers_not_thrown _ _ _ _ _ h
    · rcases bind_thrown h with h | ⟨st, _, h⟩
      · exact styleFor_not_thrown _ _ _ _ _ h
      · simp at h

/-- C70: with the number of layers left to the library, the exception for an empty layer is never thrown, whatever
the distribution of turns in the section. -/
theorem layers_never_empty {env : LayerEnv} {s : SectionIn} {n : Nat} (hT : 0 < s.turns)
    (hsec : Consistent s.turns s.parallels s.props n) (hb : n ≤ 2 * 10 ^ 10) (hnone : s.numberLayers = none) :
    windLayers env s ≠ .thrown emptyLayer := by
  intro h
  cases hplan : planLayers env s with
  | ok plan =>
    obtain ⟨hbl, hpos, hst, hlt⟩ := (windLayers_throws_iff hplan hT hsec hb).mp h
    obtain ⟨cs, hlen, hps, hsum, hle⟩ := consistent_counts hT hsec
    obtain ⟨h1, ⟨n₀, h2, h3⟩, h4, _⟩ := planLayers_ok hplan hT hlen hps
    obtain ⟨h6, _⟩ := h3 hbl
    have hP := (styleFor_ok h4).1 hst
    rcases Nat.eq_zero_or_pos s.parallels with hP0 | hP0
    · have : cs = [] := List.length_eq_zero_iff.mp (by omega)
      have hc := (growLayers_ok h6).1 (baseLayers_ok h2).1
      rw [this] at hc
      simp at hc
      omega
    · have hbase := (baseLayers_ok h2).2.2.2 hnone (by omega)
      have hle2 : plan.count ≤ cdiv cs.sum s.parallels :=
        (growLayers_ok h6).2.2.2 hP0 (le_trans hbase.1 (cdiv_anti hP0 hP))
      obtain ⟨c, hc, hge⟩ := exists_ge_cdiv (cs := cs) (by omega)
      rw [hlen] at hge
      obtain ⟨j, hj, rfl⟩ := List.mem_iff_getElem.mp hc
      have := hlt j (by omega)
      rw [hps, share_props hT, List.getD, List.getElem?_eq_getElem hj, Option.getD_some] at this
      omega
  | refused => unfold windLayers at h; rw [hplan] at h; simp [Res.bind] at h
  | ub => unfold windLayers at h; rw [hplan] at h; simp [Res.bind] at h
  | nan => unfold windLayers at h; rw [hplan] at h; simp [Res.bind] at h
  | thrown m =>
    have : m = emptyLayer := by
      unfold windLayers at h; rw [hplan] at h; simpa [Res.bind] using h
    subst this
    exact absurd hplan (planLayers_message _ (by decide) (by decide) (by decide))

/-- C70: a given number of layers, when connections do not block: the exception is thrown exactly when the
parallels are wound together and the number of layers, limited to the turns, is above the turns of every parallel. -/
theorem layers_given_empty_iff {env : LayerEnv} {s : SectionIn} {plan : LayerPlan} {n m : Nat}
    (hplan : planLayers env s = .ok plan) (hT : 0 < s.turns)
    (hsec : Consistent s.turns s.parallels s.props n) (hb : n ≤ 2 * 10 ^ 10) (hm : s.numberLayers = some m) :
    windLayers env s = .thrown emptyLayer ↔
      0 < min m n ∧ plan.style = .parallels ∧ ∀ j < s.parallels, share s.turns j s.props < (min m n : ℕ) := by
  rw [windLayers_throws_iff hplan hT hsec hb]
  obtain ⟨cs, hlen, hps, hsum, hle⟩ := consistent_counts hT hsec
  obtain ⟨h1, ⟨n₀, h2, h3⟩, h4, _⟩ := planLayers_ok hplan hT hlen hps
  have hbl : blocked env s plan.room = false := by simp [blocked, hm]
  obtain ⟨h6, _⟩ := h3 hbl
  have hc : plan.count = min m n := by
    rw [(growLayers_ok h6).2.2.1 m hm, (baseLayers_ok h2).2.2.1 m hm, hsum]
  rw [hbl, hc]
  simp

/-- C70: one turn of each of two parallels, and two layers asked for. -/
theorem layers_given_empty_example :
    windLayers plainEnv { sampleSection with turns := 1, numberLayers := some 2 } = .thrown emptyLayer := by
  decide +kernel

/-! ## Sizes -/

/-- The size of the wire along a layer. -/
def wireAlong (s : SectionIn) : Option ℚ :=
  match s.wire.kind, s.orientation with
  | .round, _ => s.wire.width
  | _, .overlapping => s.wire.height
  | _, .contiguous => s.wire.width

/-- The size of the wire across a layer, which is the thickness of the layer. -/
def wireAcross (s : SectionIn) : Option ℚ :=
  match s.wire.kind, s.orientation with
  | .round, _ => s.wire.width
  | _, .overlapping => s.wire.width
  | _, .contiguous => s.wire.height

/-- The length of the layers of the section. -/
def layerLength (s : SectionIn) : ℚ :=
  match s.orientation with
  | .overlapping => s.dims.2
  | .contiguous => s.dims.1

/-- The size of the section across its layers. -/
def sectionDepth (s : SectionIn) : ℚ :=
  match s.orientation with
  | .overlapping => s.dims.1
  | .contiguous => s.dims.2

/-- Wires that get one turn per layer whatever their size. -/
def onePerLayer (env : LayerEnv) (s : SectionIn) : Prop :=
  (s.wire.kind = .foil ∧ s.orientation = .overlapping) ∨
    (s.wire.kind = .rectangular ∧ s.orientation = .contiguous ∧ env.oneTurnContiguous = true)

/-- The size of a layer along the axis turns are placed on. -/
def Layer.length (l : Layer) : ℚ :=
  match l.orientation with
  | .overlapping => l.dims.2
  | .contiguous => l.dims.1

theorem floorCount_ok {x d : ℚ} (hd : 0 < d) (hx : 0 ≤ x) : floorCount x d = .ok ⌊x / d⌋.toNat := by
  unfold floorCount
  rw [if_neg]
  rintro (h | h)
  · exact hd.ne' h
  · have : 0 ≤ ⌊x / d⌋ := Int.floor_nonneg.mpr (div_nonneg hx hd.le)
    omega

theorem truncCount_ok {x d : ℚ} (hd : 0 < d) (hx : 0 ≤ x) : truncCount x d = .ok ⌊x / d⌋.toNat := by
  unfold truncCount
  rw [if_neg]
  rintro (h | h)
  · exact hd.ne' h
  · have : 0 ≤ x / d := div_nonneg hx hd.le
    linarith

theorem roomFor_spec {env : LayerEnv} {s : SectionIn} {a b : ℚ} (ha : wireAlong s = some a) (hb : wireAcross s = some b)
    (hpa : 0 < a) (hpb : 0 < b) (hl : 0 ≤ layerLength s) (hd : 0 ≤ sectionDepth s) :
    ∃ r, roomFor env s = .ok r ∧ r.fit = ⌊sectionDepth s / b⌋.toNat ∧
      (onePerLayer env s → r.maxPer = 1) ∧ (¬ onePerLayer env s → r.maxPer = ⌊layerLength s / a⌋.toNat) ∧
      r.depth s.orientation = b ∧
      (match s.orientation with | .overlapping => r.height | .contiguous => r.width) = layerLength s := by
  unfold wireAlong at ha
  unfold wireAcross at hb
  unfold roomFor layerLength sectionDepth onePerLayer at *
  cases hk : s.wire.kind <;> cases ho : s.orientation <;> rw [hk, ho] at ha hb <;> simp only [hk, ho] at ha hb hl hd ⊢ <;>
    simp only [ha, hb, truncCount_ok hpb hd, floorCount_ok hpa hl, Res.bind_eq_ok]
  all_goals first
    | (rw [ha] at hb
       simp only [Option.some.injEq] at hb
       subst hb
       simp only [truncCount_ok hpb hd, Res.bind_eq_ok]
       exact ⟨_, rfl, rfl, by simp, by simp, rfl, rfl⟩)
    | exact ⟨_, rfl, rfl, by simp, by simp, rfl, rfl⟩
    | (by_cases hc : env.oneTurnContiguous = true
       · simp only [hc, and_self, if_true, Res.bind_eq_ok]
         exact ⟨_, rfl, rfl, by simp, by simp, rfl, rfl⟩
       · simp only [hc, and_false, if_false, Res.bind_eq_ok, floorCount_ok hpa hl]
         exact ⟨_, rfl, rfl, by simp, by simp, rfl, rfl⟩)

end Verif.Winding
