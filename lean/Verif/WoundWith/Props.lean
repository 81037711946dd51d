import Verif.WoundWith.WindLemmas

/-!
# Properties of windings wound together (C82-C85)

What is expected is in `Spec.lean`: `Agreed` (lists of windings that agree), `Merged`, `MergedPattern`,
`MergedProportions` (what is wound in place of windings wound together), `Proper` (what winds does as asked) and
`AllTurns` (each winding has all its turns).
-/

namespace Verif.WoundWith

set_option linter.unusedSimpArgs false

/-! ## A coil to try things on -/

/-- Two windings of three and six turns wound together, and a third on its own. -/
def trifilar : List Winding :=
  [⟨"A", 3, 2, 0, 7, [1, 2], some ["B"]⟩, ⟨"X", 5, 1, 1, 8, [], none⟩, ⟨"B", 6, 2, 0, 7, [3], some ["A"]⟩]

/-- Winds a section and a layer for each winding, and all turns. -/
def plain : Winder where
  sections ws _ _ _ := .ok (some (ws.map fun w => ⟨false, [⟨w.name, List.replicate w.parallels 1⟩], w.turns⟩))
  layers _ s := .ok (some s)
  turns ws _ _ := .ok (some (ws.flatMap fun w => (List.range (w.turns * w.parallels)).map fun k => ⟨w.name, w.name, 0, k⟩))
  rename _ _ real := real

/-- A coil not wound yet. -/
def unwound (ws : List Winding) : Coil := ⟨ws, none, none, none, none, [], []⟩

theorem agreed_trifilar : Agreed trifilar where
  named := by unfold Named; decide
  exist := by decide
  both := by unfold Lists; decide
  complete := by unfold Lists; decide
  alike := by unfold Lists; decide

/-! ## C82: each winding gets its own turns back -/

/-- **C82.** Whatever winds the turns, when `wind_by_turns` ends well each winding has, on each of its parallels, all its
turns, and there are no turns of anything else: windings wound together do not lose turns to each other. -/
theorem together_turns_kept (winder : Winder) {c c' : Coil} (hn : Named c.windings)
    (hneed : needsVirtualization c.windings = true) (h : windTurns winder c = (c', .ok true)) :
    ∃ l, c'.turns = some l ∧ AllTurns c.windings l := by
  unfold windTurns at h
  simp only at h
  split at h
  · simp at h
  · split at h
    · simp at h
    · rw [if_pos hneed] at h
      cases hcm : createMap { c with turns := none } with
      | throws e => simp [orStop, hcm] at h
      | ub => simp [orStop, hcm] at h
      | ok d =>
        unfold createMap at hcm
        rw [res_bind_ok] at hcm
        obtain ⟨ls, hl, hcm⟩ := hcm
        simp only [Res.ok.injEq] at hcm
        subst hcm
        unfold createMap at h
        simp only [hl, Res.bind, orStop] at h
        split at h
        · split at h
          · split at h
            · split at h
              · rename_i r _
                cases r with
                | none => simp at h
                | some ts =>
                  simp only at h
                  split at h
                  · rename_i l hreal
                    simp only [Prod.mk.injEq, and_true] at h
                    subst h
                    exact ⟨l, rfl, allTurns_of hn hl (by simp [leaderNames_length]) hreal⟩
                  all_goals simp at h
              all_goals simp at h
            all_goals simp at h
          all_goals simp at h
        all_goals simp at h

/-- **C82.** Windings whose lists agree are wound as one: what winds sees one winding for each group, with all its turns
and connections, the groups of the coil with those, the pattern of groups and their proportions; it sees again in the layers the sections it wound, and in
the turns the sections and layers it wound; and when it does as asked no step fails, every turn it places is given once,
at its place, and each winding has all its turns. -/
theorem together_wound {winder : Winder} (hw : Proper winder) {c : Coil} (ha : Agreed c.windings)
    (hneed : needsVirtualization c.windings = true) (hpos : ∀ w ∈ c.windings, 0 < w.turns ∧ 0 < w.parallels)
    (hfresh : c.virtualNames = []) {pattern : List Nat} (hp : ∀ i ∈ pattern, i < c.windings.length)
    {proportions : List ℚ} (hq : c.windings.length ≤ proportions.length)
    (hg : ∀ gs, c.groups = some gs → ∀ g ∈ gs, ∀ p ∈ g.parts, p.winding ∈ c.windings.map fun w => w.name) :
    ∃ (groups : List (List Nat)) (vws : List Winding) (vg : Option (List Group)) (vp : List Nat) (vq : List ℚ),
      Merged c.windings groups vws ∧ MergedGroups c.windings groups vws c.groups vg ∧
      MergedPattern groups pattern vp ∧ MergedProportions groups proportions vq ∧
      ∀ sections, winder.sections vws vg vp vq = .ok (some sections) →
        ∃ c₁, windSections winder pattern proportions c = (c₁, .ok true) ∧ c₁.windings = c.windings ∧ c₁.groups = c.groups ∧
        ∀ layers, winder.layers vws sections = .ok (some layers) →
          ∃ c₂, windLayers winder c₁ = (c₂, .ok true) ∧ c₂.windings = c.windings ∧ c₂.sections = c₁.sections ∧
          ∀ turns, winder.turns vws sections layers = .ok (some turns) →
            ∃ c₃ l, windTurns winder c₂ = (c₃, .ok true) ∧ c₃.windings = c.windings ∧ c₃.sections = c₁.sections ∧
              c₃.layers = c₂.layers ∧ c₃.turns = some l ∧ AllTurns c.windings l ∧
              (l.map fun t => t.rest).Perm (turns.map fun t => t.rest) := by
  obtain ⟨ls, hl⟩ := leaders_ok ha.toPaired
  obtain ⟨vws, hv⟩ := virtualWindings_ok ha hl
  have hne := members_pos hl hneed
  obtain ⟨vp, hvp, hmp⟩ := virtualPattern_ok ha hl hne hp
  obtain ⟨vq, hvq, hmq⟩ := virtualProportions_ok hne (proportions := proportions) (by rw [leaders_length hl]; exact hq)
  have hvg : ∃ vg, virtualAllGroups c.windings c.groups = Res.ok vg ∧
      MergedGroups c.windings (membersOf (virtualIndexes ls)) vws c.groups vg := by
    cases hcg : c.groups with
    | none => exact ⟨none, rfl, trivial⟩
    | some gs =>
      obtain ⟨l, hl', hmg⟩ := virtualGroups_ok ha hl hv (hg gs hcg)
      exact ⟨some l, by simp [virtualAllGroups, hl', Res.bind], hmg⟩
  obtain ⟨vg, hvg, hmg⟩ := hvg
  have hnames := virtualWindings_names ha hl hv
  refine ⟨membersOf (virtualIndexes ls), vws, vg, vp, vq, merged_of ha hl hv, hmg, hmp, hmq, ?_⟩
  intro sections hsec
  have hone : ∀ s ∈ sections, s.insulation = true ∨
      ∃ p, s.parts = [p] ∧ p.winding ∈ leaderNames c.windings ls (virtualIndexes ls) := by
    rw [← hnames]; exact hw.sections _ _ _ _ _ hsec
  obtain ⟨rsec, hrsec, hback⟩ := pieces_round ha hl hone
  refine ⟨{ c with sections := some rsec, layers := none, turns := none, virtualNames := leaderNames c.windings ls (virtualIndexes ls), members := membersOf (virtualIndexes ls) }, ?_, rfl, rfl, ?_⟩
  · unfold windSections createMap
    simp only [hneed, if_true, hl, Res.bind, orStop, hfresh, List.drop_nil, List.append_nil, hv, hvp, hvq, hvg, hsec,
      hrsec]
  · intro layers hlay
    have honel : ∀ s ∈ layers, s.insulation = true ∨
        ∃ p, s.parts = [p] ∧ p.winding ∈ leaderNames c.windings ls (virtualIndexes ls) := by
      rw [← hnames]; exact hw.layers _ _ _ (hw.sections _ _ _ _ _ hsec) hlay
    obtain ⟨rlay, hrlay, hbackl⟩ := pieces_round ha hl honel
    refine ⟨{ c with sections := some rsec, layers := some rlay, turns := none, virtualNames := leaderNames c.windings ls (virtualIndexes ls), members := membersOf (virtualIndexes ls) }, ?_, rfl, rfl, ?_⟩
    · unfold windLayers createMap
      simp only [hneed, if_true, hl, Res.bind, orStop, List.drop_length, List.append_nil, hv, hback, hlay, hrlay]
    · intro turns hturns
      obtain ⟨t1, t2⟩ := hw.turns _ _ _ _ hturns
      obtain ⟨l, hreal, hperm⟩ := realTurns_given ha hpos hl hv winder.rename t1
        (t2 (by rw [hnames]; exact leaderNames_nodup ha.toPaired hl))
      refine ⟨{ c with sections := some rsec, layers := some rlay, turns := some l, virtualNames := leaderNames c.windings ls (virtualIndexes ls), members := membersOf (virtualIndexes ls) }, l, ?_, rfl, rfl, rfl, rfl,
        allTurns_of ha.named hl (by rw [leaderNames_length]) hreal, hperm⟩
      unfold windTurns createMap
      simp only [hneed, if_true, hl, Res.bind, orStop, List.drop_length, List.append_nil, hv, hback, hbackl, hturns, hreal]

theorem proper_plain : Proper plain where
  sections := by
    intro ws g p q l h s hs
    simp only [plain, Res.ok.injEq, Option.some.injEq] at h
    subst h
    obtain ⟨w, hw, rfl⟩ := List.mem_map.mp hs
    exact Or.inr ⟨_, rfl, List.mem_map_of_mem hw⟩
  layers := by
    intro ws s l hs h x hx
    simp only [plain, Res.ok.injEq, Option.some.injEq] at h
    subst h
    exact hs x hx
  turns := by
    intro ws s x ts h
    simp only [plain, Res.ok.injEq, Option.some.injEq] at h
    subst h
    refine ⟨?_, ?_⟩
    · intro t ht
      obtain ⟨w, hw, ht⟩ := List.mem_flatMap.mp ht
      obtain ⟨k, _, rfl⟩ := List.mem_map.mp ht
      exact List.mem_map_of_mem hw
    · induction ws with
      | nil => simp
      | cons u rest ih =>
        intro hn w hw
        rw [List.map_cons, List.nodup_cons] at hn
        rw [List.flatMap_cons, List.filter_append, List.length_append]
        rcases List.mem_cons.mp hw with rfl | hw
        · rw [List.filter_eq_self.mpr (by simp), List.filter_eq_nil_iff.mpr]
          · simp
          · intro t ht he
            obtain ⟨v, hv, ht⟩ := List.mem_flatMap.mp ht
            obtain ⟨k, _, rfl⟩ := List.mem_map.mp ht
            simp only [beq_iff_eq] at he
            exact hn.1 (by rw [← he]; exact List.mem_map_of_mem hv)
        · rw [List.filter_eq_nil_iff.mpr, ih hn.2 w hw]
          · simp
          · intro t ht he
            obtain ⟨k, _, rfl⟩ := List.mem_map.mp ht
            simp only [beq_iff_eq] at he
            exact hn.1 (by rw [he]; exact List.mem_map_of_mem hw)

/-- The example meets all hypotheses of `together_wound`, and winds. -/
example : ∃ l, (windTurns plain (windLayers plain (windSections plain [0, 1, 2, 0] [1/4, 1/2, 1/4] (unwound trifilar)).1).1).1.turns
    = some l ∧ AllTurns trifilar l := by
  obtain ⟨groups, vws, vg, vp, vq, _, _, _, _, h⟩ := together_wound proper_plain (c := unwound trifilar) agreed_trifilar
    (by decide) (by decide) rfl (pattern := [0, 1, 2, 0]) (by decide) (proportions := [1/4, 1/2, 1/4]) (by decide)
    (by simp [unwound])
  obtain ⟨c₁, h1, _, _, h⟩ := h _ rfl
  obtain ⟨c₂, h2, _, _, h⟩ := h _ rfl
  obtain ⟨c₃, l, h3, _, _, _, h4, h5, _⟩ := h _ rfl
  exact ⟨l, by rw [h1, h2, h3, h4], h5⟩

/-- Turns of the windings wound together alternate: one of three turns for two of six. -/
example : ((windTurns plain (windLayers plain (windSections plain [0, 1, 2, 0] [1/4, 1/2, 1/4]
    (unwound trifilar)).1).1).1.turns.getD []).map (fun t => (t.winding, t.parallel)) =
    [("A", 0), ("B", 0), ("B", 0), ("A", 0), ("B", 0), ("B", 0), ("A", 0), ("B", 0), ("B", 0), ("A", 1), ("B", 1), ("B", 1),
     ("A", 1), ("B", 1), ("B", 1), ("A", 1), ("B", 1), ("B", 1), ("X", 0), ("X", 0), ("X", 0), ("X", 0), ("X", 0)] := by
  decide +kernel

/-! ## C83: the windings asked for are still there after winding -/

/-- **C83** in part: when `wind_by_sections` ends without an exception, the windings and groups of the coil are those it
had. Missing: an exception of what winds leaves the virtual ones in place (`failed_sections_lose_windings`). -/
theorem sections_keep_windings_partial (winder : Winder) (pattern : List Nat) (proportions : List ℚ) {c c' : Coil} {b : Bool}
    (h : windSections winder pattern proportions c = (c', .ok b)) : c'.windings = c.windings ∧ c'.groups = c.groups := by
  unfold windSections at h
  simp only at h
  split at h
  · cases hcm : createMap { c with sections := none, layers := none, turns := none } with
    | throws e => simp [orStop, hcm] at h
    | ub => simp [orStop, hcm] at h
    | ok d =>
      have hd : d.windings = c.windings ∧ d.groups = c.groups := by
        unfold createMap at hcm
        rw [res_bind_ok] at hcm
        obtain ⟨ls, _, hcm⟩ := hcm
        simp only [Res.ok.injEq] at hcm
        subst hcm
        exact ⟨rfl, rfl⟩
      rw [hcm] at h
      simp only [orStop] at h
      split at h
      · split at h
        · split at h
          · split at h
            · split at h
              · rename_i r _
                cases r with
                | none => simp only [Prod.mk.injEq] at h; rw [← h.1]; exact hd
                | some l =>
                  simp only at h
                  split at h
                  · simp only [Prod.mk.injEq] at h; rw [← h.1]; exact hd
                  all_goals simp at h
              all_goals simp at h
            all_goals simp at h
          all_goals simp at h
        all_goals simp at h
      all_goals simp at h
  · unfold orStop at h
    split at h
    · simp only [Prod.mk.injEq] at h; rw [← h.1]; exact ⟨rfl, rfl⟩
    all_goals simp at h

/-- **C83** in part: when `wind_by_layers` ends without an exception, the windings, groups and sections of the coil are
those it had. -/
theorem layers_keep_windings_partial (winder : Winder) {c c' : Coil} {b : Bool} (h : windLayers winder c = (c', .ok b)) :
    c'.windings = c.windings ∧ c'.groups = c.groups ∧ c'.sections = c.sections := by
  unfold windLayers at h
  simp only at h
  split at h
  · simp only [Prod.mk.injEq] at h; rw [← h.1]; exact ⟨rfl, rfl, rfl⟩
  · split at h
    · cases hcm : createMap { c with layers := none } with
      | throws e => simp [orStop, hcm] at h
      | ub => simp [orStop, hcm] at h
      | ok d =>
        have hd : d.windings = c.windings ∧ d.groups = c.groups ∧ d.sections = c.sections := by
          unfold createMap at hcm
          rw [res_bind_ok] at hcm
          obtain ⟨ls, _, hcm⟩ := hcm
          simp only [Res.ok.injEq] at hcm
          subst hcm
          exact ⟨rfl, rfl, rfl⟩
        rw [hcm] at h
        simp only [orStop] at h
        split at h
        · split at h
          · split at h
            · rename_i r _
              cases r with
              | none => simp only [Prod.mk.injEq] at h; rw [← h.1]; exact hd
              | some l =>
                simp only at h
                split at h
                · simp only [Prod.mk.injEq] at h; rw [← h.1]; exact hd
                all_goals simp at h
            all_goals simp at h
          all_goals simp at h
        all_goals simp at h
    · unfold orStop at h
      split at h
      · simp only [Prod.mk.injEq] at h; rw [← h.1]; exact ⟨rfl, rfl, rfl⟩
      all_goals simp at h

/-- **C83** in part: when `wind_by_turns` ends without an exception, the windings, groups, sections and layers of the coil
are those it had. -/
theorem turns_keep_windings_partial (winder : Winder) {c c' : Coil} {b : Bool} (h : windTurns winder c = (c', .ok b)) :
    c'.windings = c.windings ∧ c'.groups = c.groups ∧ c'.sections = c.sections ∧ c'.layers = c.layers := by
  unfold windTurns at h
  simp only at h
  split at h
  · simp only [Prod.mk.injEq] at h; rw [← h.1]; exact ⟨rfl, rfl, rfl, rfl⟩
  · split at h
    · simp at h
    · split at h
      · cases hcm : createMap { c with turns := none } with
        | throws e => simp [orStop, hcm] at h
        | ub => simp [orStop, hcm] at h
        | ok d =>
          have hd : d.windings = c.windings ∧ d.groups = c.groups ∧ d.sections = c.sections ∧ d.layers = c.layers := by
            unfold createMap at hcm
            rw [res_bind_ok] at hcm
            obtain ⟨ls, _, hcm⟩ := hcm
            simp only [Res.ok.injEq] at hcm
            subst hcm
            exact ⟨rfl, rfl, rfl, rfl⟩
          rw [hcm] at h
          simp only [orStop] at h
          split at h
          · split at h
            · split at h
              · split at h
                · rename_i r _
                  cases r with
                  | none => simp only [Prod.mk.injEq] at h; rw [← h.1]; exact hd
                  | some l =>
                    simp only at h
                    split at h
                    · simp only [Prod.mk.injEq] at h; rw [← h.1]; exact hd
                    all_goals simp at h
                all_goals simp at h
              all_goals simp at h
            all_goals simp at h
          all_goals simp at h
      · unfold orStop at h
        split at h
        · simp only [Prod.mk.injEq] at h; rw [← h.1]; exact ⟨rfl, rfl, rfl, rfl⟩
        all_goals simp at h

/-- Winds nothing: every step throws. -/
def failing : Winder where
  sections _ _ _ _ := .throws .inner
  layers _ _ := .throws .inner
  turns _ _ _ := .throws .inner
  rename _ _ real := real

/-- **C83** is false when what winds throws: the coil is left with the virtual windings, here two in place of three and
none of them named `B`, so the windings asked for are lost to whoever catches the exception. -/
theorem failed_sections_lose_windings :
    (windSections failing [0, 1, 2] [1/4, 1/2, 1/4] (unwound trifilar)).2 = .throws .inner ∧
    (windSections failing [0, 1, 2] [1/4, 1/2, 1/4] (unwound trifilar)).1.windings.map (fun w => (w.name, w.turns)) =
      [("A", 9), ("X", 5)] := by
  decide +kernel

/-! ## C84: which windings are wound together -/

/-- Wound as one: what winds sees one winding with the turns of both. -/
def SeenTogether (c : Coil) (i j : Nat) : Prop := ∃ g ∈ c.members, i ∈ g ∧ j ∈ g

/-- **C84** in part: after a step of a coil whose lists agree two windings are wound as one exactly when they are the same or
one names the other. Missing: lists that do not agree (`list_of_first_ignored`, `chain_not_wound`). -/
theorem wound_together_iff_partial (winder : Winder) {c c' : Coil} (ha : Agreed c.windings)
    (hneed : needsVirtualization c.windings = true) {b : Bool} {pattern : List Nat} {proportions : List ℚ}
    (h : windSections winder pattern proportions c = (c', .ok b)) {i j : Nat} (hi : i < c.windings.length) :
    SeenTogether c' i j ↔ Together c.windings i j := by
  obtain ⟨ls, hl⟩ := leaders_ok ha.toPaired
  obtain ⟨vws, hv⟩ := virtualWindings_ok ha hl
  have hm := merged_of ha hl hv
  have hmem : c'.members = membersOf (virtualIndexes ls) := by
    unfold windSections createMap at h
    simp only [hneed, if_true, hl, Res.bind, orStop, hv] at h
    split at h
    · split at h
      · split at h
        · split at h
          · rename_i r _
            cases r with
            | none => simp only [Prod.mk.injEq] at h; rw [← h.1]
            | some l =>
              simp only at h
              split at h
              · simp only [Prod.mk.injEq] at h; rw [← h.1]
              all_goals simp at h
          all_goals simp at h
        all_goals simp at h
      all_goals simp at h
    all_goals simp at h
  unfold SeenTogether
  rw [hmem]
  constructor
  · rintro ⟨g, hg, h1, h2⟩
    exact (hm.together g hg i h1 j).mp h2
  · intro ht
    obtain ⟨g, hg, h1⟩ := List.mem_flatten.mp (hm.every.mem_iff.mpr (List.mem_range.mpr hi))
    exact ⟨g, hg, h1, (hm.together g hg i h1 j).mpr ht⟩

example : Together trifilar 2 0 ∧ ¬ Together trifilar 1 0 := by
  refine ⟨⟨_, _, rfl, rfl, Or.inr (by unfold Lists; decide)⟩, ?_⟩
  rintro ⟨a, b, ha, hb, h⟩
  simp only [trifilar, List.getElem?_cons_succ, List.getElem?_cons_zero, Option.some.injEq] at ha hb
  subst ha hb
  rcases h with h | h
  · omega
  · simp [Lists] at h

/-- The groups after winding sections. -/
def groupsOf (ws : List Winding) : List (List Nat) :=
  (windSections plain (List.range ws.length) (ws.map fun _ => 1) (unwound ws)).1.members

/-- **C84** is false when only the first winding names the other: the list is ignored and they are wound apart, while the
same list on the second winds them together. -/
theorem list_of_first_ignored :
    groupsOf [⟨"A", 3, 1, 0, 0, [], some ["B"]⟩, ⟨"B", 3, 1, 0, 0, [], none⟩] = [[0], [1]] ∧
    groupsOf [⟨"A", 3, 1, 0, 0, [], none⟩, ⟨"B", 3, 1, 0, 0, [], some ["A"]⟩] = [[0, 1]] := by
  decide +kernel

/-- **C84** is false for a chain of windings, the second wound with both others, which do not name each other: the
virtual winding is named after the first of them and the map expects the name of the second, so nothing is wound. -/
theorem chain_not_wound :
    (windSections plain [0, 1, 2] [1/3, 1/3, 1/3] (unwound [⟨"A", 3, 1, 0, 0, [], some ["B"]⟩,
      ⟨"B", 3, 1, 0, 0, [], some ["A", "C"]⟩, ⟨"C", 3, 1, 0, 0, [], some ["B"]⟩])).2 = .throws .internal := by
  decide +kernel

/-! ## C85: sections of windings wound together -/

/-- **C85** in part: in a coil not wound before, each section wound for windings wound together is a section of all of
them, with the proportions it was wound with, and nothing else of the section changes. Missing: a coil wound before
(`rewound_section_lost`). -/
theorem section_shared_partial {winder : Winder} (hw : Proper winder) {c c' : Coil} (ha : Agreed c.windings)
    (hneed : needsVirtualization c.windings = true) (hfresh : c.virtualNames = []) {pattern : List Nat}
    {proportions : List ℚ} (h : windSections winder pattern proportions c = (c', .ok true)) :
    ∃ vws vg vp vq sections real, winder.sections vws vg vp vq = .ok (some sections) ∧ c'.sections = some real ∧
      List.Forall₂ (fun s r => r.insulation = s.insulation ∧ r.rest = s.rest ∧ (s.insulation = true → r = s) ∧
        (s.insulation = false → ∃ p g, s.parts = [p] ∧ g ∈ c'.members ∧
          r.parts.map (fun q => q.proportions) = g.map (fun _ => p.proportions) ∧
          r.parts.map (fun q => some q.winding) = g.map (fun i => c.windings[i]?.map fun w => w.name) ∧
          some p.winding ∈ r.parts.map (fun q => some q.winding))) sections real := by
  obtain ⟨ls, hl⟩ := leaders_ok ha.toPaired
  obtain ⟨vws, hv⟩ := virtualWindings_ok ha hl
  have hnames := virtualWindings_names ha hl hv
  unfold windSections createMap at h
  simp only [hneed, if_true, hl, Res.bind, orStop, hfresh, List.drop_nil, List.append_nil, hv] at h
  split at h
  · rename_i vp _
    split at h
    · rename_i vq _
      split at h
      · rename_i vg _
        split at h
        · rename_i r hr
          cases r with
          | none => simp at h
          | some l =>
            simp only at h
            split at h
            · rename_i l' hl'
              simp only [Prod.mk.injEq, and_true] at h
              subst h
              refine ⟨vws, vg, vp, vq, l, l', hr, rfl, ?_⟩
              have hone := hw.sections _ _ _ _ _ hr
              clear hr
              induction l generalizing l' with
              | nil =>
                rw [mapM_nil_ok] at hl'
                subst hl'
                exact List.Forall₂.nil
              | cons s rest ih =>
                rw [mapM_cons_ok] at hl'
                obtain ⟨b, l'', hb, hrest, rfl⟩ := hl'
                refine List.Forall₂.cons ?_ (ih _ hrest fun x hx => hone x (List.mem_cons_of_mem _ hx))
                unfold realPiece at hb
                split at hb
                · rename_i hins
                  rw [Res.ok.injEq] at hb
                  subst hb
                  exact ⟨rfl, rfl, fun _ => rfl, fun hf => by rw [hins] at hf; simp at hf⟩
                · rename_i hins
                  obtain ⟨p, hp, hpn⟩ := (hone s List.mem_cons_self).resolve_left hins
                  rw [hnames] at hpn
                  obtain ⟨v, hvn⟩ := List.mem_iff_getElem?.mp hpn
                  have hvl : v < (membersOf (virtualIndexes ls)).length := by
                    rw [← leaderNames_length c.windings ls]
                    exact (List.getElem?_eq_some_iff.mp hvn).1
                  have g := List.getElem?_eq_getElem hvl
                  obtain ⟨m, wm, hml, hwm, _, hname⟩ := group_leader ha.toPaired hl g
                  rw [hvn, Option.some.injEq] at hname
                  have hnd := virtualNamed_get (leaderNames_nodup ha.toPaired hl) hvn
                  simp [hp, Res.mapM, realParts, hnd, Res.bind, g] at hb
                  subst hb
                  refine ⟨rfl, rfl, fun hf => absurd hf hins, fun _ => ⟨p, _, hp, List.mem_of_getElem? g, ?_, ?_, ?_⟩⟩
                  · rw [List.map_map]
                    rfl
                  · rw [List.map_map]
                    apply List.map_congr_left
                    intro i hi
                    have hil : i < c.windings.length := by
                      rw [← leaders_length hl]
                      exact members_lt (List.mem_of_getElem? g) hi
                    simp [List.getElem?_eq_getElem hil]
                  · rw [List.map_map]
                    refine List.mem_map.mpr ⟨m, hml, ?_⟩
                    simp [hwm, hname]
            all_goals simp at h
        all_goals simp at h
      all_goals simp at h
    all_goals simp at h
  all_goals simp at h

/-- The example winds one section of `A` and `B`, and one of `X`. -/
example : (windSections plain [0, 1, 2, 0] [1/4, 1/2, 1/4] (unwound trifilar)).1.sections =
    some [⟨false, [⟨"A", [1, 1]⟩, ⟨"B", [1, 1]⟩], 9⟩, ⟨false, [⟨"X", [1]⟩], 5⟩] := by
  decide +kernel

/-- A coil wound with `X`, and `A` and `B` together, whose windings are then set to `A` and `B` alone. -/
def rewound : Coil :=
  { (windSections plain [0, 1] [1/2, 1/4, 1/4] (unwound [⟨"X", 5, 1, 1, 8, [], none⟩, ⟨"A", 3, 1, 0, 7, [], some ["B"]⟩, ⟨"B", 3, 1, 0, 7, [], some ["A"]⟩])).1 with
    windings := [⟨"A", 3, 1, 0, 7, [], some ["B"]⟩, ⟨"B", 3, 1, 0, 7, [], some ["A"]⟩] }

/-- **C85** is false for a coil wound before with more windings: a name left from the first time is taken for a second
virtual winding with no windings, so the section of `A` and `B` holds no winding although the step ends well, and winding
its layers reads the first of no partial windings. -/
theorem rewound_section_lost :
    (windSections plain [0, 1] [1/2, 1/2] rewound).2 = .ok true ∧
    (windSections plain [0, 1] [1/2, 1/2] rewound).1.sections = some [⟨false, [], 6⟩] ∧
    (windLayers plain (windSections plain [0, 1] [1/2, 1/2] rewound).1).2 = .ub := by
  decide +kernel

/-- The same windings in a coil not wound before get their section. -/
example : (windSections plain [0, 1] [1/2, 1/2] (unwound rewound.windings)).1.sections =
    some [⟨false, [⟨"A", [1]⟩, ⟨"B", [1]⟩], 6⟩] := by
  decide +kernel

end Verif.WoundWith
