import Verif.WoundWith.AgreeLemmas

/-! # Lemmas on the steps of winding with windings wound together -/

namespace Verif.WoundWith

set_option linter.unusedSimpArgs false

/-! ## Every winding is in one group -/

theorem members_flatten {ls : List Nat} : (membersOf (virtualIndexes ls)).flatten.Perm (List.range ls.length) := by
  rw [List.perm_ext_iff_of_nodup ?_ List.nodup_range]
  · intro i
    rw [List.mem_flatten, List.mem_range, ← virtualIndexes_length]
    constructor
    · rintro ⟨l, hl, hi⟩
      obtain ⟨v, hv⟩ := List.mem_iff_getElem?.mp hl
      exact (List.getElem?_eq_some_iff.mp ((mem_members hv i).mp hi)).1
    · intro hi
      obtain ⟨l, hl, hm⟩ := members_of_index (List.getElem?_eq_getElem hi)
      exact ⟨l, List.mem_of_getElem? hl, hm⟩
  · rw [List.nodup_flatten]
    refine ⟨fun l hl => members_nodup hl, ?_⟩
    rw [List.pairwise_iff_getElem]
    intro u v hu hv huv i hi hj
    have h1 := (mem_members (List.getElem?_eq_getElem hu) i).mp hi
    have h2 := (mem_members (List.getElem?_eq_getElem hv) i).mp hj
    rw [h1, Option.some.injEq] at h2
    omega

theorem members_ne_nil {ls : List Nat} {l : List Nat} (h : l ∈ membersOf (virtualIndexes ls)) : l ≠ [] := by
  obtain ⟨v, hv⟩ := List.mem_iff_getElem?.mp h
  have hlt : v < virtualCount (virtualIndexes ls) := by
    rw [← membersOf_length]
    exact (List.getElem?_eq_some_iff.mp hv).1
  obtain ⟨i, hi⟩ := List.mem_iff_getElem?.mp ((lt_virtualCount ls v).mpr hlt)
  exact List.ne_nil_of_mem ((mem_members hv i).mpr hi)

theorem members_lt {ls : List Nat} {l : List Nat} (h : l ∈ membersOf (virtualIndexes ls)) {i : Nat} (hi : i ∈ l) :
    i < ls.length := by
  have := members_flatten.mem_iff.mp (List.mem_flatten.mpr ⟨l, h, hi⟩)
  simpa using this

/-! ## What a group is named after -/

/-- Under agreed lists all windings of a group have the same leader, which is one of them and names the group. -/
theorem group_leader {ws : List Winding} (h : Paired ws) {ls : List Nat} (hl : leaders ws = .ok ls) {v : Nat} {l : List Nat}
    (hv : (membersOf (virtualIndexes ls))[v]? = some l) :
    ∃ m w, m ∈ l ∧ ws[m]? = some w ∧ (∀ i ∈ l, ls[i]? = some m) ∧
      (leaderNames ws ls (virtualIndexes ls))[v]? = some w.name := by
  have hmem := List.mem_of_getElem? hv
  have hne := members_ne_nil hmem
  have hlen := leaders_length hl
  have hlast : l.getLast hne ∈ l := List.getLast_mem hne
  have hlt := members_lt hmem hlast
  have g := List.getElem?_eq_getElem hlt
  have hle : ∀ i m : Nat, ls[i]? = some m → m ≤ i := fun i m hm => leaders_le hl hm
  have hmle := hle _ _ g
  have hvl := (mem_members hv _).mp hlast
  have hm : ls[l.getLast hne] ∈ l := by
    rw [mem_members hv, ← virtualIndexes_leader hle g]
    exact hvl
  have hml := members_lt hmem hm
  have hw := List.getElem?_eq_getElem (show ls[l.getLast hne] < ws.length by omega)
  refine ⟨ls[l.getLast hne], _, hm, hw, ?_, ?_⟩
  · intro i hi
    have hil := members_lt hmem hi
    rw [← g]
    rw [leaders_eq_iff h hl (by omega) (by omega), ← virtualIndexes_iff h hl (by omega) (by omega), hvl]
    exact (mem_members hv i).mp hi
  · unfold leaderNames
    rw [List.getElem?_map, hv]
    simp only [Option.map_some, List.getLast?_eq_some_getLast hne, g, hw]

theorem leaderNames_length (ws : List Winding) (ls vs : List Nat) : (leaderNames ws ls vs).length = (membersOf vs).length := by
  simp [leaderNames]

/-- Groups have different names. -/
theorem leaderNames_nodup {ws : List Winding} (h : Paired ws) {ls : List Nat} (hl : leaders ws = .ok ls) :
    (leaderNames ws ls (virtualIndexes ls)).Nodup := by
  rw [List.nodup_iff_getElem?_ne_getElem?]
  intro u v huv hv he
  rw [leaderNames_length] at hv
  obtain ⟨m, w, h1, h2, _, h3⟩ := group_leader h hl (List.getElem?_eq_getElem hv)
  obtain ⟨m', w', h1', h2', _, h3'⟩ := group_leader h hl (List.getElem?_eq_getElem (show u < _ by omega))
  rw [h3, h3', Option.some.injEq] at he
  have := named_get h.named h2' h2 he
  subst this
  have e1 := (mem_members (List.getElem?_eq_getElem hv) m').mp h1
  have e2 := (mem_members (List.getElem?_eq_getElem (show u < (membersOf (virtualIndexes ls)).length by omega)) m').mp h1'
  rw [e1, Option.some.injEq] at e2
  omega

/-! ## Virtual windings -/

theorem mergeAll_from {ws : List Winding} {m : Nat} : ∀ {l : List Nat} {a : Winding},
    (∀ i ∈ l, ∃ w, ws[i]? = some w ∧ leader ws w i = .ok m ∧ w.parallels = a.parallels ∧ w.side = a.side ∧ w.wire = a.wire) →
    ∃ x, mergeAll ws l (some a) = .ok (some x) ∧ x.name = a.name ∧ x.parallels = a.parallels ∧ x.side = a.side ∧
      x.wire = a.wire ∧ x.turns = a.turns + (l.map (turnsAt ws)).sum ∧
      x.connections = a.connections ++ l.flatMap (connectionsAt ws)
  | [], a, _ => ⟨a, rfl, rfl, rfl, rfl, rfl, by simp, by simp⟩
  | i :: rest, a, h => by
    obtain ⟨w, hw, hm, hp, hs, hx⟩ := h i List.mem_cons_self
    obtain ⟨x, h1, h2, h3, h4, h5, h6, h7⟩ := mergeAll_from (l := rest)
      (a := { a with turns := a.turns + w.turns, parallels := w.parallels, connections := a.connections ++ w.connections })
      (fun j hj => by
        obtain ⟨u, e1, e2, e3, e4, e5⟩ := h j (List.mem_cons_of_mem _ hj)
        exact ⟨u, e1, e2, by simp only; omega, e4, e5⟩)
    refine ⟨x, ?_, h2, by rw [h3]; exact hp, h4, h5, ?_, ?_⟩
    · unfold mergeAll
      simp only [hw, hm, Res.bind, merge, hp, hs, hx, ne_eq, not_true_eq_false, and_false, if_false]
      rw [hp] at h1
      exact h1
    · rw [h6]
      simp [turnsAt, hw]
      omega
    · rw [h7]
      simp [connectionsAt, hw]

/-- Under agreed lists each group becomes one winding. -/
theorem mergeAll_group {ws : List Winding} (h : Agreed ws) {ls : List Nat} (hl : leaders ws = .ok ls) {v : Nat} {l : List Nat}
    (hv : (membersOf (virtualIndexes ls))[v]? = some l) :
    ∃ x, mergeAll ws l none = .ok (some x) ∧
      (leaderNames ws ls (virtualIndexes ls))[v]? = some x.name ∧
      (∀ i ∈ l, ∀ w, ws[i]? = some w → w.parallels = x.parallels ∧ w.side = x.side ∧ w.wire = x.wire) ∧
      x.turns = (l.map (turnsAt ws)).sum ∧ x.connections = l.flatMap (connectionsAt ws) := by
  obtain ⟨m, wm, hml, hwm, hlead, hname⟩ := group_leader h.toPaired hl hv
  have hlen := leaders_length hl
  have hmem := List.mem_of_getElem? hv
  have hall : ∀ i ∈ l, ∃ w, ws[i]? = some w ∧ leader ws w i = .ok m ∧ w.parallels = wm.parallels ∧ w.side = wm.side ∧
      w.wire = wm.wire := by
    intro i hi
    have hil : i < ws.length := by have := members_lt hmem hi; omega
    have hw := List.getElem?_eq_getElem hil
    obtain ⟨m', e1, e2, _⟩ := leaders_get hl hw
    rw [hlead i hi, Option.some.injEq] at e1
    subst e1
    exact ⟨_, hw, e2, together_alike h (leaders_spec h.toPaired hl (hlead i hi)).1 hw hwm⟩
  cases hl' : l with
  | nil => exact absurd hl' (members_ne_nil hmem)
  | cons i rest =>
    rw [hl'] at hall
    obtain ⟨w, hw, hm, hp, hs, hx⟩ := hall i List.mem_cons_self
    obtain ⟨x, h1, h2, h3, h4, h5, h6, h7⟩ := mergeAll_from (l := rest) (m := m)
      (a := { w with name := wm.name, woundWith := none }) (fun j hj => by
        obtain ⟨u, e1, e2, e3, e4, e5⟩ := hall j (List.mem_cons_of_mem _ hj)
        exact ⟨u, e1, e2, by simp only; omega, by simp only; omega, by simp only; omega⟩)
    refine ⟨x, ?_, by rw [hname, h2], ?_, ?_, ?_⟩
    · unfold mergeAll
      simp only [hw, hm, Res.bind, merge, hwm, Option.map_some, Option.getD_some]
      exact h1
    · intro j hj u hu
      obtain ⟨u', e1, _, e3, e4, e5⟩ := hall j hj
      rw [hu, Option.some.injEq] at e1
      subst e1
      rw [h3, h4, h5]
      simp only
      omega
    · rw [h6]; simp [turnsAt, hw]
    · rw [h7]; simp [connectionsAt, hw]

theorem virtualWindings_get {ws : List Winding} {members : List (List Nat)} {vws : List Winding}
    (h : virtualWindings ws members = .ok vws) {v : Nat} {l : List Nat} (hv : members[v]? = some l) :
    ∃ x, mergeAll ws l none = .ok (some x) ∧ vws[v]? = some x := by
  obtain ⟨b, h1, h2⟩ := mapM_get h hv
  rw [res_bind_ok] at h1
  obtain ⟨a, ha, h1⟩ := h1
  cases a with
  | none => simp at h1
  | some x =>
    simp only [Res.ok.injEq] at h1
    subst h1
    exact ⟨x, ha, h2⟩

/-- Under agreed lists the windings are merged without failing. -/
theorem virtualWindings_ok {ws : List Winding} (h : Agreed ws) {ls : List Nat} (hl : leaders ws = .ok ls) :
    ∃ vws, virtualWindings ws (membersOf (virtualIndexes ls)) = .ok vws := by
  apply mapM_ok
  intro l hmem
  obtain ⟨v, hv⟩ := List.mem_iff_getElem?.mp hmem
  obtain ⟨x, hx, _⟩ := mergeAll_group h hl hv
  exact ⟨x, by simp [hx, Res.bind]⟩

theorem virtualWindings_names {ws : List Winding} (h : Agreed ws) {ls : List Nat} (hl : leaders ws = .ok ls)
    {vws : List Winding} (hv : virtualWindings ws (membersOf (virtualIndexes ls)) = .ok vws) :
    vws.map (fun w => w.name) = leaderNames ws ls (virtualIndexes ls) := by
  have hlen := mapM_length hv
  apply List.ext_getElem?
  intro v
  rcases Nat.lt_or_ge v (membersOf (virtualIndexes ls)).length with hlt | hge
  · have g := List.getElem?_eq_getElem hlt
    obtain ⟨x, h1, h2⟩ := virtualWindings_get hv g
    obtain ⟨y, h3, h4, _⟩ := mergeAll_group h hl g
    rw [h1, Res.ok.injEq, Option.some.injEq] at h3
    subst h3
    rw [h4, List.getElem?_map, h2]
    rfl
  · rw [List.getElem?_eq_none (by simp; omega), List.getElem?_eq_none (by rw [leaderNames_length]; omega)]

/-! ## Sections and layers there and back -/

theorem virtualNamed_get {names : List String} (hn : names.Nodup) {v : Nat} {n : String} (h : names[v]? = some n) :
    virtualNamed names n = some v := by
  have hlt := (List.getElem?_eq_some_iff.mp h).1
  unfold virtualNamed
  have hc : ∀ u ∈ List.range names.length, (names[u]? == some n) = (u == v) := by
    intro u hu
    rw [List.mem_range] at hu
    rw [Bool.eq_iff_iff, beq_iff_eq, beq_iff_eq, ← h]
    constructor
    · exact fun he => (List.getElem?_inj hu hn).mp he
    · rintro rfl; rfl
  rw [List.filter_congr hc, List.filter_beq, List.count_eq_one_of_mem List.nodup_range (List.mem_range.mpr hlt)]
  rfl

/-- A section of one virtual winding becomes a section of its windings, with the same proportions, and back. -/
theorem piece_round {ws : List Winding} (h : Agreed ws) {ls : List Nat} (hl : leaders ws = .ok ls) {s : Piece}
    (hs : s.insulation = true ∨ ∃ p, s.parts = [p] ∧ p.winding ∈ leaderNames ws ls (virtualIndexes ls)) :
    ∃ s', realPiece ws (leaderNames ws ls (virtualIndexes ls)) (membersOf (virtualIndexes ls)) s = .ok s' ∧
      virtualPiece ws (leaderNames ws ls (virtualIndexes ls)) (membersOf (virtualIndexes ls)) s' = .ok s := by
  by_cases hi : s.insulation = true
  · exact ⟨s, by simp [realPiece, hi], by simp [virtualPiece, hi]⟩
  · obtain ⟨p, hp, hn⟩ := hs.resolve_left hi
    obtain ⟨v, hv⟩ := List.mem_iff_getElem?.mp hn
    have hvl : v < (membersOf (virtualIndexes ls)).length := by
      rw [← leaderNames_length ws ls]
      exact (List.getElem?_eq_some_iff.mp hv).1
    have g := List.getElem?_eq_getElem hvl
    obtain ⟨m, wm, hml, hwm, _, hname⟩ := group_leader h.toPaired hl g
    have hlen := leaders_length hl
    have hmem := List.mem_of_getElem? g
    rw [hv, Option.some.injEq] at hname
    have hnd := virtualNamed_get (leaderNames_nodup h.toPaired hl) hv
    generalize hgl : (membersOf (virtualIndexes ls))[v] = l at g hml hmem
    refine ⟨{ s with parts := l.map fun i => { p with winding := (ws[i]?.map fun w => w.name).getD "" } }, ?_, ?_⟩
    · simp [realPiece, hi, hp, Res.mapM, realParts, hnd, Res.bind, g]
    · cases hl' : l with
      | nil => exact absurd hl' (members_ne_nil hmem)
      | cons i rest =>
        have hil : i < ws.length := by
          have := members_lt hmem (show i ∈ l by rw [hl']; exact List.mem_cons_self)
          omega
        have hw := List.getElem?_eq_getElem hil
        have hidx := indexOf_get h.named hw
        have hvo : virtualOf (membersOf (virtualIndexes ls)) i = some v :=
          virtualOf_members ((mem_members g i).mp (by rw [hl']; exact List.mem_cons_self))
        have hfind : ((i :: rest).map fun i => ({ p with winding := (ws[i]?.map fun w => w.name).getD "" } : Part)).find?
            (fun q => some q.winding == (leaderNames ws ls (virtualIndexes ls))[v]?) = some p := by
          have hsome : (((i :: rest).map fun i => ({ p with winding := (ws[i]?.map fun w => w.name).getD "" } : Part)).find?
            (fun q => some q.winding == (leaderNames ws ls (virtualIndexes ls))[v]?)).isSome := by
            rw [List.find?_isSome]
            refine ⟨{ p with winding := (ws[m]?.map fun w => w.name).getD "" }, List.mem_map_of_mem (by rw [← hl']; exact hml), ?_⟩
            simp [hv, hwm, hname]
          obtain ⟨q, hq⟩ := Option.isSome_iff_exists.mp hsome
          have hq1 := List.find?_some hq
          have hq2 := List.mem_of_find?_eq_some hq
          obtain ⟨j, _, rfl⟩ := List.mem_map.mp hq2
          rw [hq]
          rw [hv, beq_iff_eq, Option.some.injEq] at hq1
          simp only at hq1
          rw [hq1]
        unfold virtualPiece
        rw [if_neg (by simpa using hi)]
        simp only [List.map_cons, hw, Option.map_some, Option.getD_some, hidx, Res.bind, hvo]
        rw [List.map_cons] at hfind
        simp only [hw, Option.map_some, Option.getD_some] at hfind
        rw [hfind]
        simp only [Res.ok.injEq]
        cases s
        simp at hp
        simp [hp]

theorem pieces_round {ws : List Winding} (h : Agreed ws) {ls : List Nat} (hl : leaders ws = .ok ls) {l : List Piece}
    (hs : ∀ s ∈ l, s.insulation = true ∨ ∃ p, s.parts = [p] ∧ p.winding ∈ leaderNames ws ls (virtualIndexes ls)) :
    ∃ l', Res.mapM (realPiece ws (leaderNames ws ls (virtualIndexes ls)) (membersOf (virtualIndexes ls))) l = .ok l' ∧
      Res.mapM (virtualPiece ws (leaderNames ws ls (virtualIndexes ls)) (membersOf (virtualIndexes ls))) l' = .ok l := by
  obtain ⟨l', hl'⟩ := mapM_ok (f := realPiece ws (leaderNames ws ls (virtualIndexes ls)) (membersOf (virtualIndexes ls)))
    (as := l) fun s hx => by
      obtain ⟨s', h1, _⟩ := piece_round h hl (hs s hx)
      exact ⟨s', h1⟩
  refine ⟨l', hl', mapM_round hl' ?_⟩
  intro s hx b hb
  obtain ⟨s', h1, h2⟩ := piece_round h hl (hs s hx)
  rw [h1, Res.ok.injEq] at hb
  subst hb
  exact h2

/-! ## Turns of all groups -/

theorem realTurns_ok {ws : List Winding} {rename : String → String → String → String} {turns : List Turn} :
    ∀ {pairs : List (List Nat × String)}, (∀ g ∈ pairs, ∃ l, realTurnsOf ws rename turns g.2 g.1 = .ok l) →
      ∃ l, realTurns ws rename turns pairs = .ok l
  | [], _ => ⟨[], rfl⟩
  | (group, name) :: rest, h => by
    obtain ⟨l, hl⟩ := h _ List.mem_cons_self
    obtain ⟨l', hl'⟩ := realTurns_ok (pairs := rest) fun g hg => h g (List.mem_cons_of_mem _ hg)
    exact ⟨l ++ l', by simp [realTurns, hl, hl', Res.bind]⟩

/-- The turns of one group. -/
theorem realTurnsOf_spec {ws : List Winding} (hn : Named ws) {rename : String → String → String → String}
    {turns : List Turn} {name : String} {group : List Nat} (hg : group.Nodup) {l : List Turn}
    (h : realTurnsOf ws rename turns name group = .ok l) :
    l.map (fun t => t.rest) = (turns.filter fun t => t.winding == name).map (fun t => t.rest) ∧
      (∀ t ∈ l, ∃ i ∈ group, ∃ w, ws[i]? = some w ∧ t.winding = w.name) ∧
      ∀ i ∈ group, ∀ w, ws[i]? = some w → 0 < w.turns ∧
        parallelsOf w.name l = (List.range (w.turns * w.parallels)).map fun j => j / w.turns := by
  unfold realTurnsOf at h
  simp only at h
  split at h
  · simp at h
  · rename_i hs
    rw [res_bind_ok] at h
    obtain ⟨p, hp, h⟩ := h
    obtain ⟨h1, h2⟩ := turnPattern_pos hp
    obtain ⟨p', hp', hmem⟩ := turnPattern_ok h1 h2
    rw [hp, Res.ok.injEq] at hp'
    subst hp'
    rw [not_not] at hs
    have hk : (turns.filter fun t => t.winding == name) = [] ∨ 0 < p.length := by
      by_cases he : (turns.filter fun t => t.winding == name) = []
      · exact Or.inl he
      · right
        have : 0 < (group.map (wanted ws)).sum := by rw [hs]; exact List.length_pos_of_ne_nil he
        obtain ⟨i, hi, _⟩ := exists_pos_of_sum this
        exact List.length_pos_of_mem ((hmem i).mpr hi)
    obtain ⟨l', e1, e2, e3, e4⟩ := giveTurns_spec hn (rename := rename name) hg h1 hmem (a := fun _ => 0) hk hs
    rw [h, Res.ok.injEq] at e1
    subst e1
    refine ⟨e2, e3, fun i hi w hw => ?_⟩
    have hwant : wanted ws i = w.turns * w.parallels := by simp [wanted, hw]
    have hpos := h2 i hi
    rw [hwant] at hpos
    refine ⟨Nat.pos_of_mul_pos_right hpos, ?_⟩
    rw [e4 i hi w hw, hwant]
    apply List.map_congr_left
    intro j hj
    rw [Nat.zero_add, parallelFor_eq (List.mem_range.mp hj)]

theorem realTurns_spec {ws : List Winding} (hn : Named ws) {rename : String → String → String → String}
    {turns : List Turn} : ∀ {pairs : List (List Nat × String)} {l : List Turn},
    (pairs.map fun g => g.1).flatten.Nodup → realTurns ws rename turns pairs = .ok l →
    (∀ t ∈ l, ∃ i ∈ (pairs.map fun g => g.1).flatten, ∃ w, ws[i]? = some w ∧ t.winding = w.name) ∧
    l.map (fun t => t.rest) =
      pairs.flatMap (fun g => (turns.filter fun t => t.winding == g.2).map fun t => t.rest) ∧
    ∀ i ∈ (pairs.map fun g => g.1).flatten, ∀ w, ws[i]? = some w → 0 < w.turns ∧
      parallelsOf w.name l = (List.range (w.turns * w.parallels)).map fun j => j / w.turns
  | [], l, _, h => by
    simp only [realTurns, Res.ok.injEq] at h
    subst h
    simp
  | (group, name) :: rest, l, hnd, h => by
    unfold realTurns at h
    rw [res_bind_ok] at h
    obtain ⟨a, ha, h⟩ := h
    rw [res_bind_ok] at h
    obtain ⟨b, hb, h⟩ := h
    rw [Res.ok.injEq] at h
    subst h
    rw [List.map_cons, List.flatten_cons, List.nodup_append] at hnd
    obtain ⟨n1, n2, n3⟩ := hnd
    obtain ⟨a1, a2, a3⟩ := realTurnsOf_spec hn n1 ha
    obtain ⟨b1, b2, b3⟩ := realTurns_spec hn n2 hb
    rw [List.map_cons, List.flatten_cons]
    refine ⟨?_, ?_, ?_⟩
    · intro t ht
      rcases List.mem_append.mp ht with ht | ht
      · obtain ⟨i, hi, hw⟩ := a2 t ht
        exact ⟨i, List.mem_append_left _ hi, hw⟩
      · obtain ⟨i, hi, hw⟩ := b1 t ht
        exact ⟨i, List.mem_append_right _ hi, hw⟩
    · rw [List.map_append, a1, b2, List.flatMap_cons]
    · intro i hi w hw
      rw [parallelsOf_append]
      rcases List.mem_append.mp hi with hi | hi
      · obtain ⟨p1, p2⟩ := a3 i hi w hw
        refine ⟨p1, ?_⟩
        have : parallelsOf w.name b = [] := by
          unfold parallelsOf
          rw [List.map_eq_nil_iff, List.filter_eq_nil_iff]
          intro t ht he
          rw [beq_iff_eq] at he
          obtain ⟨j, hj, u, hu, hun⟩ := b1 t ht
          have := named_get hn hw hu (by rw [← he, hun])
          exact n3 i hi j hj this
        rw [this, List.append_nil, p2]
      · obtain ⟨p1, p2⟩ := b3 i hi w hw
        refine ⟨p1, ?_⟩
        have : parallelsOf w.name a = [] := by
          unfold parallelsOf
          rw [List.map_eq_nil_iff, List.filter_eq_nil_iff]
          intro t ht he
          rw [beq_iff_eq] at he
          obtain ⟨j, hj, u, hu, hun⟩ := a2 t ht
          have := named_get hn hw hu (by rw [← he, hun])
          exact n3 j hj i hi this.symm
        rw [this, List.nil_append, p2]

end Verif.WoundWith
