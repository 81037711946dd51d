import Verif.WoundWith.StepLemmas
import Mathlib.Data.List.Chain

/-! # Lemmas on the three steps as a whole -/

namespace Verif.WoundWith

set_option linter.unusedSimpArgs false

/-- The groups and names the map is made of. -/
theorem createMap_ok {c : Coil} (h : Agreed c.windings) : ∃ ls, leaders c.windings = .ok ls ∧
    createMap c = .ok { c with members := membersOf (virtualIndexes ls), virtualNames := leaderNames c.windings ls (virtualIndexes ls) ++ c.virtualNames.drop (leaderNames c.windings ls (virtualIndexes ls)).length } := by
  obtain ⟨ls, hl⟩ := leaders_ok h.toPaired
  exact ⟨ls, hl, by simp [createMap, hl, Res.bind]⟩

theorem members_pos {ws : List Winding} {ls : List Nat} (hl : leaders ws = .ok ls) (hne : needsVirtualization ws = true) :
    membersOf (virtualIndexes ls) ≠ [] := by
  have hpos : 0 < ls.length := by
    rw [leaders_length hl]
    cases ws with
    | nil => simp [needsVirtualization] at hne
    | cons => simp
  intro he
  have := (members_flatten (ls := ls)).length_eq
  rw [he] at this
  simp at this
  omega

/-! ## Pattern -/

theorem compress_mem (v : Nat) : ∀ (l : List Nat) (last : Option Nat), v ∈ compressFrom last l → v ∈ l
  | [], _, h => by simp [compressFrom] at h
  | x :: rest, last, h => by
    unfold compressFrom at h
    split at h
    · exact List.mem_cons_of_mem _ (compress_mem v rest _ h)
    · rcases List.mem_cons.mp h with rfl | h
      · exact List.mem_cons_self
      · exact List.mem_cons_of_mem _ (compress_mem v rest _ h)

theorem mem_compress (v : Nat) : ∀ (l : List Nat) (last : Option Nat), v ∈ l → last = some v ∨ v ∈ compressFrom last l
  | [], _, h => by simp at h
  | x :: rest, last, h => by
    unfold compressFrom
    split
    · rename_i he
      rcases List.mem_cons.mp h with rfl | h
      · exact Or.inl he
      · exact mem_compress v rest last h
    · rcases List.mem_cons.mp h with rfl | h
      · exact Or.inr List.mem_cons_self
      · right
        rcases mem_compress v rest (some x) h with he | he
        · rw [Option.some.injEq] at he
          subst he
          exact List.mem_cons_self
        · exact List.mem_cons_of_mem _ he

theorem compress_chain : ∀ (l : List Nat) (last : Option Nat), (compressFrom last l).IsChain (· ≠ ·) ∧
    ∀ x, (compressFrom last l).head? = some x → last ≠ some x
  | [], last => by simp [compressFrom]
  | x :: rest, last => by
    unfold compressFrom
    split
    · exact compress_chain rest last
    · rename_i hne
      obtain ⟨h1, h2⟩ := compress_chain rest (some x)
      refine ⟨?_, ?_⟩
      · rw [List.isChain_cons]
        refine ⟨fun y hy => ?_, h1⟩
        have := h2 y hy
        rw [ne_eq, Option.some.injEq] at this
        exact this
      · intro y hy
        simp only [List.head?_cons, Option.some.injEq] at hy
        subst hy
        exact hne

theorem virtualPattern_ok {ws : List Winding} (h : Agreed ws) {ls : List Nat} (hl : leaders ws = .ok ls)
    (hne : membersOf (virtualIndexes ls) ≠ []) {pattern : List Nat} (hp : ∀ i ∈ pattern, i < ws.length) :
    ∃ vp, virtualPattern ws (membersOf (virtualIndexes ls)) pattern = .ok vp ∧
      MergedPattern (membersOf (virtualIndexes ls)) pattern vp := by
  have hlen := leaders_length hl
  have hle : ∀ i m : Nat, ls[i]? = some m → m ≤ i := fun i m hm => leaders_le hl hm
  -- each index of the pattern becomes the one of its group
  have each : ∀ i ∈ pattern, ∃ v, (virtualIndexes ls)[i]? = some v ∧
      virtualEntry ws (membersOf (virtualIndexes ls)) i = .ok v := by
    intro i hi
    have hil := hp i hi
    have hw := List.getElem?_eq_getElem hil
    have hvi := List.getElem?_eq_getElem (show i < (virtualIndexes ls).length by rw [virtualIndexes_length]; omega)
    refine ⟨_, hvi, ?_⟩
    unfold virtualEntry
    rw [hw]
    simp only
    split
    · simp [Res.bind, virtualOf_members hvi]
    · obtain ⟨m, h1, h2, _⟩ := leaders_get hl hw
      rw [h2]
      simp only [Res.bind]
      rw [virtualIndexes_leader hle h1] at hvi
      rw [virtualOf_members hvi]
  obtain ⟨l, hl'⟩ := mapM_ok (as := pattern) (fun i hi => by
    obtain ⟨v, _, h2⟩ := each i hi
    exact ⟨v, h2⟩)
  refine ⟨compressFrom none l, by unfold virtualPattern; rw [if_neg hne, hl']; rfl, ?_, (compress_chain l none).1⟩
  intro v
  have hmem : v ∈ compressFrom none l ↔ v ∈ l :=
    ⟨compress_mem v l none, fun hv => by simpa using mem_compress v l none hv⟩
  rw [hmem]
  constructor
  · intro hv
    obtain ⟨k, hk⟩ := List.mem_iff_getElem?.mp hv
    have hkl : k < pattern.length := by
      rw [← mapM_length hl']
      exact (List.getElem?_eq_some_iff.mp hk).1
    have hpk := List.getElem?_eq_getElem hkl
    obtain ⟨b, hb, hb'⟩ := mapM_get hl' hpk
    rw [hk, Option.some.injEq] at hb'
    subst hb'
    obtain ⟨v', e1, e2⟩ := each _ (List.mem_of_getElem? hpk)
    rw [e2, Res.ok.injEq] at hb
    subst hb
    obtain ⟨g, hg, hi⟩ := members_of_index e1
    exact ⟨_, List.mem_of_getElem? hpk, g, hg, hi⟩
  · rintro ⟨i, hi, g, hg, hig⟩
    obtain ⟨k, hk⟩ := List.mem_iff_getElem?.mp hi
    obtain ⟨b, hb, hb'⟩ := mapM_get hl' hk
    obtain ⟨v', e1, e2⟩ := each i hi
    rw [e2, Res.ok.injEq] at hb
    subst hb
    rw [(mem_members hg i).mp hig, Option.some.injEq] at e1
    subst e1
    exact List.mem_of_getElem? hb'

/-! ## Proportions -/

theorem mapM_map {α β : Type} {f : α → Res β} {g : α → β} : ∀ {l : List α}, (∀ a ∈ l, f a = .ok (g a)) →
    Res.mapM f l = .ok (l.map g)
  | [], _ => rfl
  | a :: rest, h => by
    rw [mapM_cons_ok]
    exact ⟨g a, rest.map g, h a List.mem_cons_self, mapM_map fun x hx => h x (List.mem_cons_of_mem _ hx), rfl⟩

theorem virtualProportions_ok {ls : List Nat} (hne : membersOf (virtualIndexes ls) ≠ []) {proportions : List ℚ}
    (hp : ls.length ≤ proportions.length) :
    ∃ vq, virtualProportions (membersOf (virtualIndexes ls)) proportions = .ok vq ∧
      MergedProportions (membersOf (virtualIndexes ls)) proportions vq := by
  refine ⟨_, ?_, rfl⟩
  unfold virtualProportions
  rw [if_neg hne]
  apply mapM_map
  intro l hmem
  rw [mapM_map (g := fun i => proportions[i]?.getD 0)]
  · rfl
  · intro i hi
    have := members_lt hmem hi
    rw [List.getElem?_eq_getElem (show i < proportions.length by omega)]
    rfl

/-! ## Groups of the coil -/

/-- The first part of each leader, in terms of a function that gives the name of the leader. -/
theorem virtualParts_spec {ws : List Winding} {f : String → String} : ∀ {parts : List Part} {seen : List String},
    (∀ p ∈ parts, ∃ i w m, indexOf ws p.winding = .ok i ∧ ws[i]? = some w ∧ leader ws w i = .ok m ∧
      f p.winding = (ws[m]?.map fun x => x.name).getD "") →
    ∃ l, virtualParts ws seen parts = .ok l ∧ (l.map fun q => q.winding).Nodup ∧
      (∀ q ∈ l, q.winding ∉ seen ∧ ∃ p ∈ parts, q.winding = f p.winding) ∧
      ∀ n, n ∉ seen → l.find? (fun q => q.winding == n) =
        (parts.find? fun p => f p.winding == n).map fun p => { p with winding := n }
  | [], _, _ => ⟨[], rfl, by simp⟩
  | p :: rest, seen, hp => by
    obtain ⟨i, w, m, hi, hw, hm, hf⟩ := hp p List.mem_cons_self
    have hrest := fun x hx => hp x (List.mem_cons_of_mem p hx)
    unfold virtualParts
    simp only [hi, Res.bind, hw, hm, ← hf]
    split
    · rename_i hs
      obtain ⟨l, h1, h2, h3, h4⟩ := virtualParts_spec (seen := seen) hrest
      refine ⟨l, h1, h2, fun q hq => ?_, fun n hn => ?_⟩
      · obtain ⟨a, x, hx, b⟩ := h3 q hq
        exact ⟨a, x, List.mem_cons_of_mem _ hx, b⟩
      · have : f p.winding ≠ n := fun e => hn (e ▸ hs)
        rw [h4 n hn, List.find?_cons_of_neg (by simpa using this)]
    · rename_i hs
      obtain ⟨l, h1, h2, h3, h4⟩ := virtualParts_spec (seen := f p.winding :: seen) hrest
      refine ⟨_, by rw [h1], ?_, ?_, fun n hn => ?_⟩
      · rw [List.map_cons, List.nodup_cons]
        refine ⟨fun hmem => ?_, h2⟩
        obtain ⟨q, hq, he⟩ := List.mem_map.mp hmem
        exact (h3 q hq).1 (by rw [he]; exact List.mem_cons_self)
      · intro q hq
        rcases List.mem_cons.mp hq with rfl | hq
        · exact ⟨hs, p, List.mem_cons_self, rfl⟩
        · obtain ⟨a, x, hx, b⟩ := h3 q hq
          exact ⟨fun hin => a (List.mem_cons_of_mem _ hin), x, List.mem_cons_of_mem _ hx, b⟩
      · by_cases he : f p.winding = n
        · rw [List.find?_cons_of_pos (by simpa using he), List.find?_cons_of_pos (by simpa using he)]
          simp [he]
        · rw [List.find?_cons_of_neg (by simpa using he), List.find?_cons_of_neg (by simpa using he)]
          exact h4 n (by simp [hn, Ne.symm he])

/-- Name of the leader of the winding of a name. -/
def leadName (ws : List Winding) (n : String) : String :=
  match indexOf ws n with
  | .ok i => match ws[i]? with
    | some w => match leader ws w i with
      | .ok m => (ws[m]?.map fun x => x.name).getD ""
      | _ => ""
    | none => ""
  | _ => ""

/-- It is the name of the group of the winding. -/
theorem leadName_group {ws : List Winding} (h : Paired ws) {ls : List Nat} (hl : leaders ws = .ok ls) {n : String}
    (hn : n ∈ ws.map fun w => w.name) :
    (∃ i w m, indexOf ws n = .ok i ∧ ws[i]? = some w ∧ leader ws w i = .ok m ∧
      leadName ws n = (ws[m]?.map fun x => x.name).getD "") ∧
    leadName ws n ∈ leaderNames ws ls (virtualIndexes ls) ∧
    ∀ (v : Nat) (g : List Nat) (x : String), (membersOf (virtualIndexes ls))[v]? = some g →
      (leaderNames ws ls (virtualIndexes ls))[v]? = some x → (leadName ws n = x ↔ InGroup ws g n) := by
  obtain ⟨b, hb, hbn⟩ := List.mem_map.mp hn
  obtain ⟨i, hi⟩ := indexOf_exists ⟨b, hb, hbn⟩
  obtain ⟨w, hw, hwn⟩ := indexOf_ok hi
  obtain ⟨m, hm1, hm2, _⟩ := leaders_get hl hw
  have hlead : leadName ws n = (ws[m]?.map fun x => x.name).getD "" := by simp only [leadName, hi, hw, hm2]
  have hlen := leaders_length hl
  have hil := (List.getElem?_eq_some_iff.mp hw).1
  obtain ⟨vi, hvi⟩ : ∃ u, (virtualIndexes ls)[i]? = some u :=
    ⟨_, List.getElem?_eq_getElem (show i < (virtualIndexes ls).length by rw [virtualIndexes_length]; omega)⟩
  obtain ⟨g, hg, hig⟩ := members_of_index hvi
  obtain ⟨m', wm, _, hwm, hall, hname⟩ := group_leader h hl hg
  have : m' = m := by
    have := hall i hig
    rw [hm1, Option.some.injEq] at this
    exact this.symm
  subst this
  have hlead' : leadName ws n = wm.name := by rw [hlead, hwm]; rfl
  refine ⟨⟨i, w, m', hi, hw, hm2, hlead⟩, ?_, ?_⟩
  · rw [hlead']
    exact List.mem_of_getElem? hname
  · intro v g' x hg' hx
    rw [hlead']
    have hnd := leaderNames_nodup h hl
    constructor
    · intro he
      subst he
      have hv : v = vi := by
        have h1 := List.getElem?_eq_some_iff.mp hx
        have h2 := List.getElem?_eq_some_iff.mp hname
        exact (List.Nodup.getElem_inj_iff hnd).mp (h1.2.trans h2.2.symm)
      rw [hv, hg, Option.some.injEq] at hg'
      subst hg'
      exact ⟨i, hig, w, hw, hwn⟩
    · rintro ⟨j, hj, u, hu, hun⟩
      have : j = i := named_get h.named hu hw (by rw [hun, hwn])
      subst this
      have hv := (mem_members hg' j).mp hj
      rw [hvi, Option.some.injEq] at hv
      rw [← hv, hname, Option.some.injEq] at hx
      exact hx

theorem virtualGroups_ok {ws : List Winding} (h : Agreed ws) {ls : List Nat} (hl : leaders ws = .ok ls)
    {vws : List Winding} (hv : virtualWindings ws (membersOf (virtualIndexes ls)) = .ok vws) : ∀ {gs : List Group},
    (∀ g ∈ gs, ∀ p ∈ g.parts, p.winding ∈ ws.map fun w => w.name) →
    ∃ l, virtualGroups ws gs = .ok l ∧ List.Forall₂ (MergedGroup ws (membersOf (virtualIndexes ls)) vws) gs l
  | [], _ => ⟨[], rfl, .nil⟩
  | g :: rest, hp => by
    have hnames := virtualWindings_names h hl hv
    obtain ⟨l, h1, h2⟩ := virtualGroups_ok h hl hv (gs := rest) fun x hx => hp x (List.mem_cons_of_mem _ hx)
    have hg := hp g List.mem_cons_self
    obtain ⟨l', e1, e2, e3, e4⟩ := virtualParts_spec (f := leadName ws) (seen := []) fun p hpp =>
      (leadName_group h.toPaired hl (hg p hpp)).1
    refine ⟨{ g with parts := l' } :: l, ?_, .cons ⟨rfl, e2, ?_, ?_⟩ h2⟩
    · unfold virtualGroups
      rw [mapM_cons_ok]
      exact ⟨_, _, by rw [e1]; rfl, h1, rfl⟩
    · intro q hq
      obtain ⟨_, p, hpp, he⟩ := e3 q hq
      rw [he, hnames]
      exact (leadName_group h.toPaired hl (hg p hpp)).2.1
    · intro v g' x hg' hx
      have hx' : (leaderNames ws ls (virtualIndexes ls))[v]? = some x.name := by
        rw [← hnames, List.getElem?_map, hx]; rfl
      simp only
      rw [e4 x.name (by simp)]
      congr 1
      have : ∀ {α : Type} {l : List α} {p q : α → Bool}, (∀ a ∈ l, p a = q a) → l.find? p = l.find? q := by
        intro α l p q hpq
        induction l with
        | nil => rfl
        | cons a rest ih =>
          rw [List.find?_cons, List.find?_cons, hpq a List.mem_cons_self, ih fun b hb => hpq b (List.mem_cons_of_mem _ hb)]
      apply this
      intro p hpp
      have := (leadName_group h.toPaired hl (hg p hpp)).2.2 v g' x.name hg' hx'
      rw [Bool.eq_iff_iff]
      simpa using this

/-! ## Merged windings -/

theorem merged_of {ws : List Winding} (h : Agreed ws) {ls : List Nat} (hl : leaders ws = .ok ls) {vws : List Winding}
    (hv : virtualWindings ws (membersOf (virtualIndexes ls)) = .ok vws) :
    Merged ws (membersOf (virtualIndexes ls)) vws where
  every := by
    have := members_flatten (ls := ls)
    rwa [leaders_length hl] at this
  together := by
    intro g hg i hi j
    have hlen := leaders_length hl
    have hil := members_lt hg hi
    obtain ⟨v, hgv⟩ := List.mem_iff_getElem?.mp hg
    have hvi := (mem_members hgv i).mp hi
    constructor
    · intro hj
      have hjl := members_lt hg hj
      rw [← virtualIndexes_iff h.toPaired hl (by omega) (by omega), hvi, (mem_members hgv j).mp hj]
    · intro ht
      have hjl : j < ws.length := by
        obtain ⟨_, b, _, hb, _⟩ := ht
        exact (List.getElem?_eq_some_iff.mp hb).1
      rw [mem_members hgv, ← (virtualIndexes_iff h.toPaired hl (by omega) hjl).mpr ht, hvi]
  count := mapM_length hv
  merged := by
    intro v g x hg hx
    obtain ⟨y, h1, h2⟩ := virtualWindings_get hv hg
    rw [hx, Option.some.injEq] at h2
    subst h2
    obtain ⟨z, e1, _, e3, e4, e5⟩ := mergeAll_group h hl hg
    rw [h1, Res.ok.injEq, Option.some.injEq] at e1
    subst e1
    exact ⟨e4, e5, e3⟩
  names := by
    rw [virtualWindings_names h hl hv]
    exact leaderNames_nodup h.toPaired hl

/-- The turns wanted by a group are those of its merged winding. -/
theorem wanted_group {ws : List Winding} {groups : List (List Nat)} {vws : List Winding} (hm : Merged ws groups vws)
    {v : Nat} {g : List Nat} {x : Winding} (hg : groups[v]? = some g) (hx : vws[v]? = some x) :
    (g.map (wanted ws)).sum = x.turns * x.parallels := by
  obtain ⟨h1, _, h3⟩ := hm.merged v g x hg hx
  rw [h1]
  have : ∀ l : List Nat, (∀ i ∈ l, i ∈ g) → (l.map (wanted ws)).sum = (l.map (turnsAt ws)).sum * x.parallels := by
    intro l
    induction l with
    | nil => simp
    | cons i rest ih =>
      intro hl
      rw [List.map_cons, List.map_cons, List.sum_cons, List.sum_cons, ih fun j hj => hl j (List.mem_cons_of_mem _ hj),
        Nat.add_mul]
      congr 1
      cases hw : ws[i]? with
      | some w => simp only [wanted, turnsAt, hw, (h3 i (hl i List.mem_cons_self) w hw).1]
      | none => simp [wanted, turnsAt, hw]
  exact this g fun i hi => hi

/-! ## Turns -/

theorem allTurns_of {ws : List Winding} (hn : Named ws) {ls : List Nat} (hl : leaders ws = .ok ls)
    {rename : String → String → String → String} {turns l : List Turn} {names : List String}
    (hlen : (membersOf (virtualIndexes ls)).length ≤ names.length)
    (h : realTurns ws rename turns ((membersOf (virtualIndexes ls)).zip names) = .ok l) : AllTurns ws l := by
  have hfst : (((membersOf (virtualIndexes ls)).zip names).map fun g => g.1) = membersOf (virtualIndexes ls) :=
    List.map_fst_zip hlen
  have hflat := members_flatten (ls := ls)
  rw [leaders_length hl] at hflat
  obtain ⟨h1, _, h3⟩ := realTurns_spec hn (by rw [hfst]; exact hflat.nodup_iff.mpr List.nodup_range) h
  rw [hfst] at h1 h3
  refine ⟨?_, ?_⟩
  · intro w hw p
    obtain ⟨i, hi⟩ := List.mem_iff_getElem?.mp hw
    have hil := (List.getElem?_eq_some_iff.mp hi).1
    obtain ⟨hpos, hpar⟩ := h3 i (hflat.mem_iff.mpr (List.mem_range.mpr hil)) w hi
    have : turnsOn l w.name p = (parallelsOf w.name l).count p := by
      unfold turnsOn parallelsOf
      rw [List.count_eq_countP, List.countP_map, List.countP_eq_length_filter, List.filter_filter]
      congr 1
      apply List.filter_congr
      intro t _
      simp [Bool.and_comm]
    rw [this, hpar, count_div hpos]
  · intro t ht
    obtain ⟨i, _, w, hw, hwn⟩ := h1 t ht
    exact ⟨w, List.mem_of_getElem? hw, hwn⟩

/-- The turns at their places, for names that cover all turns. -/
theorem places_perm {ts : List Turn} : ∀ {names : List String}, names.Nodup → (∀ t ∈ ts, t.winding ∈ names) →
    (names.flatMap fun n => (ts.filter fun t => t.winding == n).map fun t => t.rest).Perm (ts.map fun t => t.rest) := by
  intro names hn hall
  have key : (names.flatMap fun n => ts.filter fun t => t.winding == n).Perm ts := by
    rw [List.perm_iff_count]
    intro t
    rw [List.count_flatMap]
    have hc : ∀ n, ((ts.filter fun u => u.winding == n).count t) = if t.winding = n then ts.count t else 0 := by
      intro n
      by_cases he : t.winding = n
      · rw [if_pos he, List.count_filter (by simp [he])]
      · rw [if_neg he, List.count_eq_zero]
        intro hm
        rw [List.mem_filter] at hm
        exact he (by simpa using hm.2)
    have hs : ∀ (l : List String), l.Nodup → (l.map (List.count t ∘ fun n => ts.filter fun u => u.winding == n)).sum =
        if t.winding ∈ l then ts.count t else 0 := by
      intro l
      induction l with
      | nil => simp
      | cons n rest ih =>
        intro hnd
        rw [List.nodup_cons] at hnd
        rw [List.map_cons, List.sum_cons, ih hnd.2]
        simp only [Function.comp]
        rw [hc n]
        by_cases he : t.winding = n
        · rw [if_pos he, if_neg (by rw [he]; exact hnd.1), if_pos (by rw [he]; exact List.mem_cons_self), Nat.add_zero]
        · rw [if_neg he, Nat.zero_add]
          by_cases hr : t.winding ∈ rest
          · rw [if_pos hr, if_pos (List.mem_cons_of_mem _ hr)]
          · rw [if_neg hr, if_neg (by simp [he, hr])]
    rw [hs names hn]
    by_cases ht : t ∈ ts
    · rw [if_pos (hall t ht)]
    · rw [List.count_eq_zero_of_not_mem ht]
      split <;> rfl
  have := key.map fun t => t.rest
  rwa [List.map_flatMap] at this

theorem realTurns_given {ws : List Winding} (h : Agreed ws) (hpos : ∀ w ∈ ws, 0 < w.turns ∧ 0 < w.parallels)
    {ls : List Nat} (hl : leaders ws = .ok ls) {vws : List Winding}
    (hv : virtualWindings ws (membersOf (virtualIndexes ls)) = .ok vws)
    (rename : String → String → String → String) {ts : List Turn} (hall : ∀ t ∈ ts, t.winding ∈ vws.map fun w => w.name)
    (hcount : ∀ w ∈ vws, (ts.filter fun t => t.winding == w.name).length = w.turns * w.parallels) :
    ∃ l, realTurns ws rename ts ((membersOf (virtualIndexes ls)).zip (leaderNames ws ls (virtualIndexes ls))) = .ok l ∧
      (l.map fun t => t.rest).Perm (ts.map fun t => t.rest) := by
  have hm := merged_of h hl hv
  have hnames := virtualWindings_names h hl hv
  have hlen := leaders_length hl
  obtain ⟨l, hl'⟩ := realTurns_ok (ws := ws) (rename := rename) (turns := ts)
    (pairs := (membersOf (virtualIndexes ls)).zip (leaderNames ws ls (virtualIndexes ls))) (by
      intro g hg
      obtain ⟨v, hgv⟩ := List.mem_iff_getElem?.mp hg
      rw [List.getElem?_zip_eq_some] at hgv
      obtain ⟨hg1, hg2⟩ := hgv
      rw [← hnames, List.getElem?_map, Option.map_eq_some_iff] at hg2
      obtain ⟨x, hx, hxn⟩ := hg2
      have hmem := List.mem_of_getElem? hg1
      have hw := wanted_group hm hg1 hx
      have hc := hcount x (List.mem_of_getElem? hx)
      rw [hxn] at hc
      have h1 : ∀ i ∈ g.1, i < ws.length := fun i hi => by have := members_lt hmem hi; omega
      have h2 : ∀ i ∈ g.1, 0 < wanted ws i := fun i hi => by
        have hil := h1 i hi
        obtain ⟨p1, p2⟩ := hpos _ (List.getElem_mem hil)
        simp only [wanted, List.getElem?_eq_getElem hil]
        exact Nat.mul_pos p1 p2
      obtain ⟨p, hp, hpm⟩ := turnPattern_ok h1 h2
      have hsum : (g.1.map (wanted ws)).sum = (ts.filter fun t => t.winding == g.2).length := by rw [hw, hc]
      obtain ⟨i, hi⟩ := List.exists_mem_of_ne_nil _ (members_ne_nil hmem)
      obtain ⟨l, e1, _⟩ := giveTurns_spec h.named (rename := rename g.2) (members_nodup hmem) h1 hpm (a := fun _ => 0)
        (k := 0) (Or.inr (List.length_pos_of_mem ((hpm i).mpr hi))) hsum
      refine ⟨l, ?_⟩
      unfold realTurnsOf
      simp only
      rw [if_neg (by simp [hsum]), hp]
      exact e1)
  refine ⟨l, hl', ?_⟩
  have hfst : (((membersOf (virtualIndexes ls)).zip (leaderNames ws ls (virtualIndexes ls))).map fun g => g.1) =
      membersOf (virtualIndexes ls) := List.map_fst_zip (by rw [leaderNames_length])
  have hsnd : (((membersOf (virtualIndexes ls)).zip (leaderNames ws ls (virtualIndexes ls))).map fun g => g.2) =
      leaderNames ws ls (virtualIndexes ls) := List.map_snd_zip (by rw [leaderNames_length])
  obtain ⟨_, e2, _⟩ := realTurns_spec h.named (by
    rw [hfst]; exact members_flatten.nodup_iff.mpr List.nodup_range) hl'
  rw [e2]
  have : (((membersOf (virtualIndexes ls)).zip (leaderNames ws ls (virtualIndexes ls))).flatMap fun g =>
      (ts.filter fun t => t.winding == g.2).map fun t => t.rest) =
      (leaderNames ws ls (virtualIndexes ls)).flatMap fun n => (ts.filter fun t => t.winding == n).map fun t => t.rest := by
    conv_rhs => rw [← hsnd]
    rw [List.flatMap_map]
  rw [this]
  exact places_perm (leaderNames_nodup h.toPaired hl) (by rw [← hnames]; exact hall)

end Verif.WoundWith
