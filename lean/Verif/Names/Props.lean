import Verif.Names.Lemmas

/-! # Names of the parts of a coil, and looking them up: C91, C92, C93 -/

namespace Verif.Names

open Verif.Winding

set_option linter.unusedSimpArgs false

/-! ## Specification -/

/-- The name of a section says what it is. -/
def Named (names : Nat → Name) (s : Section) (n : Name) : Prop :=
  match s.winding with
  | some w => n = names w ++ " section ".toList ++ decimal s.index
  | none => ∃ a b, n = "Insulation between ".toList ++ names a ++ " and ".toList ++ names b ++ " section ".toList ++
      decimal s.index

/-- Different windings have different names, none of which reads as insulation. -/
def GoodNames (windings : Nat) (names : Nat → Name) : Prop :=
  (∀ a < windings, ∀ b < windings, names a = names b → a = b) ∧
  ∀ a < windings, ¬ "Insulation between ".toList <+: names a

/-- Of several groups, no two share a winding; then names must not contain " and" either. -/
def GroupsApart (windings : Nat) (names : Nat → Name) (gs : List Group) : Prop :=
  gs.length > 1 → gs.Pairwise (fun g h => ∀ w, ¬ (w ∈ g.members ∧ w ∈ h.members)) ∧
    ∀ a < windings, ¬ " and".toList <:+: names a

/-! ## C91: sections -/

/-- The tags of all groups. -/
def groupTags (c : Ctx) (prop : Nat → ℚ) (pattern : List Nat) (reps : Nat) (multi : Bool) :
    List Group → Res (List (List Tag))
  | [] => .ok []
  | g :: gs =>
    if multi = true ∧ g.members = [] then groupTags c prop pattern reps multi gs
    else
      (planGroup c (mirrored multi g) prop pattern reps multi true).bind fun plan =>
        (groupTags c prop pattern reps multi gs).bind fun rest =>
          .ok (entryTags c.insulation (plan.entries.head?.bind Entry.winding) plan.entries none 0 (fun _ => 0) :: rest)

theorem groupNames_tags (names : Nat → Name) (c : Ctx) (prop : Nat → ℚ) (pattern : List Nat) (reps : Nat) (multi : Bool) :
    ∀ (gs : List Group) (ns : List Name), groupNames names c prop pattern reps multi gs = .ok ns →
      ∃ ts, groupTags c prop pattern reps multi gs = .ok ts ∧ ns = ts.flatten.map (Tag.name names)
  | [], ns, h => by
    simp only [groupNames, Res.ok.injEq] at h
    subst h
    exact ⟨[], rfl, rfl⟩
  | g :: gs, ns, h => by
    unfold groupNames at h
    unfold groupTags
    split at h
    · rename_i hs
      rw [if_pos hs]
      exact groupNames_tags names c prop pattern reps multi gs ns h
    · rename_i hs
      rw [if_neg hs]
      obtain ⟨plan, hp, h⟩ := bind_ok h
      obtain ⟨rest, hr, h⟩ := bind_ok h
      simp only [Res.ok.injEq] at h
      subst h
      obtain ⟨ts, ht, he⟩ := groupNames_tags names c prop pattern reps multi gs rest hr
      refine ⟨_, by rw [hp, Res.bind_eq_ok, ht, Res.bind_eq_ok], ?_⟩
      rw [List.flatten_cons, List.map_append, entryNames_tags, he]

/-- The tags of every group: distinct, and of windings of the group. -/
theorem groupTags_good (c : Ctx) (prop : Nat → ℚ) (pattern : List Nat) (reps : Nat) (multi : Bool) :
    ∀ (gs : List Group) (ts : List (List Tag)), groupTags c prop pattern reps multi gs = .ok ts →
      ∃ hs, hs.Sublist gs ∧ List.Forall₂ (fun (g : Group) (t : List Tag) => t.Nodup ∧
        (∀ w i, Tag.conduction w i ∈ t → w < c.windings ∧ (multi = true → w ∈ g.members)) ∧
        (∀ a b k, Tag.insulation a b k ∈ t → a < c.windings ∧ (multi = true → a ∈ g.members))) hs ts
  | [], ts, h => by
    simp only [groupTags, Res.ok.injEq] at h
    subst h
    exact ⟨[], List.Sublist.refl _, List.Forall₂.nil⟩
  | g :: gs, ts, h => by
    unfold groupTags at h
    split at h
    · obtain ⟨hs, h1, h2⟩ := groupTags_good c prop pattern reps multi gs ts h
      exact ⟨hs, h1.cons _, h2⟩
    · obtain ⟨plan, hp, h⟩ := bind_ok h
      obtain ⟨rest, hr, h⟩ := bind_ok h
      simp only [Res.ok.injEq] at h
      subst h
      obtain ⟨hs, h1, h2⟩ := groupTags_good c prop pattern reps multi gs rest hr
      refine ⟨g :: hs, h1.cons_cons _, List.Forall₂.cons ?_ h2⟩
      obtain ⟨b1, b2, b3⟩ := entryTags_bounds c.insulation (plan.entries.head?.bind Entry.winding) plan.entries none 0
        (fun _ => 0)
      have hw : ∀ w ∈ condWindings plan.entries, w < c.windings ∧ (multi = true → w ∈ g.members) := by
        intro w hm
        obtain ⟨h3, _, h4, _⟩ := planGroup_ok hp
        have hg : w ∈ groupPattern (mirrored multi g) pattern multi := by
          rw [h3] at hm
          obtain ⟨l, hl, hw⟩ := List.mem_flatten.mp hm
          rw [List.eq_of_mem_replicate hl] at hw
          exact hw
        refine ⟨h4 w hg, fun e => ?_⟩
        subst e
        unfold groupPattern at hg
        rw [if_pos rfl, List.mem_filter] at hg
        have hmem := of_decide_eq_true hg.2
        have : (mirrored true g).members = g.members := by
          unfold mirrored
          split <;> rfl
        rwa [this] at hmem
      refine ⟨b3, fun w i hm => hw w (b1 w i hm).2, fun a b k hm => ?_⟩
      rcases (b2 a b k hm).2 with e | e
      · simp at e
      · exact hw a e

/-- Names of tags of one group are different. -/
theorem tags_names_nodup {names : Nat → Name} {windings : Nat} (hn : GoodNames windings names) {t : List Tag} (h : t.Nodup)
    (hc : ∀ w i, Tag.conduction w i ∈ t → w < windings) (hk : ∀ a b a' b' k, Tag.insulation a b k ∈ t →
      Tag.insulation a' b' k ∈ t → a = a' ∧ b = b') : (t.map (Tag.name names)).Nodup := by
  rw [List.nodup_map_iff_inj_on h]
  intro x hx y hy e
  cases x with
  | conduction w i =>
    cases y with
    | conduction v j =>
      obtain ⟨e1, e2⟩ := section_name_inj e
      rw [hn.1 w (hc w i hx) v (hc v j hy) e1, e2]
    | insulation a b k =>
      refine absurd ?_ (hn.2 w (hc w i hx))
      rw [section_insulation e]
      exact ⟨names a ++ " and ".toList ++ names b, by simp only [List.append_assoc]⟩
  | insulation a b k =>
    cases y with
    | conduction v j =>
      refine absurd ?_ (hn.2 v (hc v j hy))
      rw [section_insulation e.symm]
      exact ⟨names a ++ " and ".toList ++ names b, by simp only [List.append_assoc]⟩
    | insulation a' b' k' =>
      obtain ⟨_, e2⟩ := insulation_name_inj e
      subst e2
      obtain ⟨h1, h2⟩ := hk a b a' b' k hx hy
      rw [h1, h2]

/-- The place of insulation in a group says the windings around it. -/
theorem entryTags_place (ins : Nat → Nat → Option (ℚ × ℚ)) (first : Option Nat) :
    ∀ (es : List Entry) (prev : Option Nat) (k : Nat) (count : Nat → Nat) (a b a' b' j : Nat),
      Tag.insulation a b j ∈ entryTags ins first es prev k count →
      Tag.insulation a' b' j ∈ entryTags ins first es prev k count → a = a' ∧ b = b'
  | [], _, _, _, _, _, _, _, _, h, _ => by simp [entryTags] at h
  | .cond w sp :: rest, prev, k, count, a, b, a', b', j, h, h' => by
    rw [entryTags, List.mem_cons] at h h'
    simp only [reduceCtorEq, false_or] at h h'
    exact entryTags_place ins first rest _ _ _ a b a' b' j h h'
  | .ins :: rest, prev, k, count, a, b, a', b', j, h, h' => by
    obtain ⟨_, i2, _⟩ := entryTags_bounds ins first rest none (k + 1) count
    unfold entryTags at h h'
    simp only at h h'
    split at h
    · rename_i u v hv
      simp only [hv] at h'
      rw [List.mem_append] at h h'
      have hin : ∀ x y q, Tag.insulation x y q ∈ (if (ins u v).isSome then [Tag.insulation u v k] else []) →
          x = u ∧ y = v ∧ q = k := by
        intro x y q hq
        split at hq <;> simp at hq
        exact hq
      rcases h with h | h
      · obtain ⟨rfl, rfl, rfl⟩ := hin _ _ _ h
        rcases h' with h' | h'
        · obtain ⟨rfl, rfl, _⟩ := hin _ _ _ h'
          exact ⟨rfl, rfl⟩
        · have := (i2 _ _ _ h').1
          omega
      · rcases h' with h' | h'
        · obtain ⟨rfl, rfl, rfl⟩ := hin _ _ _ h'
          have := (i2 _ _ _ h).1
          omega
        · exact entryTags_place ins first rest _ _ _ a b a' b' j h h'
    · rename_i hne
      split at h'
      · rename_i u v hv
        exact absurd hv (hne u v rfl)
      · exact entryTags_place ins first rest _ _ _ a b a' b' j h h'

theorem groupTags_place (c : Ctx) (prop : Nat → ℚ) (pattern : List Nat) (reps : Nat) (multi : Bool) :
    ∀ (gs : List Group) (ts : List (List Tag)), groupTags c prop pattern reps multi gs = .ok ts →
      ∀ t ∈ ts, ∀ a b a' b' k, Tag.insulation a b k ∈ t → Tag.insulation a' b' k ∈ t → a = a' ∧ b = b'
  | [], ts, h => by
    simp only [groupTags, Res.ok.injEq] at h
    subst h
    simp
  | g :: gs, ts, h => by
    unfold groupTags at h
    split at h
    · exact groupTags_place c prop pattern reps multi gs ts h
    · obtain ⟨plan, hp, h⟩ := bind_ok h
      obtain ⟨rest, hr, h⟩ := bind_ok h
      simp only [Res.ok.injEq] at h
      subst h
      intro t ht
      rcases List.mem_cons.mp ht with e | e
      · subst e
        exact entryTags_place _ _ _ _ _ _
      · exact groupTags_place c prop pattern reps multi gs rest hr t e

/-- Names of tags of different groups are different. -/
theorem tags_names_apart {names : Nat → Name} {windings : Nat} (hn : GoodNames windings names)
    (hand : ∀ a < windings, ¬ " and".toList <:+: names a) {g h : Group} (hgh : ∀ w, ¬ (w ∈ g.members ∧ w ∈ h.members))
    {x y : Tag} (hx : ∀ w i, x = .conduction w i → w < windings ∧ w ∈ g.members)
    (hx' : ∀ a b k, x = .insulation a b k → a < windings ∧ a ∈ g.members)
    (hy : ∀ w i, y = .conduction w i → w < windings ∧ w ∈ h.members)
    (hy' : ∀ a b k, y = .insulation a b k → a < windings ∧ a ∈ h.members) : x.name names ≠ y.name names := by
  intro e
  cases x with
  | conduction w i =>
    obtain ⟨h1, h2⟩ := hx w i rfl
    cases y with
    | conduction v j =>
      obtain ⟨h3, h4⟩ := hy v j rfl
      obtain ⟨e1, _⟩ := section_name_inj e
      have := hn.1 w h1 v h3 e1
      subst this
      exact hgh w ⟨h2, h4⟩
    | insulation a b k =>
      refine absurd ?_ (hn.2 w h1)
      rw [section_insulation e]
      exact ⟨names a ++ " and ".toList ++ names b, by simp only [List.append_assoc]⟩
  | insulation a b k =>
    obtain ⟨h1, h2⟩ := hx' a b k rfl
    cases y with
    | conduction v j =>
      refine absurd ?_ (hn.2 v (hy v j rfl).1)
      rw [section_insulation e.symm]
      exact ⟨names a ++ " and ".toList ++ names b, by simp only [List.append_assoc]⟩
    | insulation a' b' k' =>
      obtain ⟨h3, h4⟩ := hy' a' b' k' rfl
      have := hn.1 a h1 a' h3 (and_first (hand a h1) (hand a' h3) (insulation_name_inj e).1)
      subst this
      exact hgh a ⟨h2, h4⟩

/-- C91: when the sections are wound, each has the name that says what it is: that of its winding and its number, or
those of the windings around the insulation and its place. -/
theorem section_names_match {names : Nat → Name} {c : Ctx} {gs : List Group} {prop : Nat → ℚ} {pattern : List Nat}
    {reps : Nat} {secs : List Section} (h : windRectangularSections c (some gs) prop pattern reps = .ok secs) :
    ∃ ns, sectionNames names c gs prop pattern reps = .ok ns ∧ List.Forall₂ (Named names) secs ns := by
  unfold windRectangularSections at h
  simp only at h
  obtain ⟨x, hx, h⟩ := bind_ok h
  split at h
  · simp only [Res.ok.injEq] at h
    subst h
    unfold sectionNames
    have key : ∀ (multi : Bool) (gs : List Group) (s : St) (x : List Section × St),
        windGroups c prop pattern reps multi gs s = .ok x →
        ∃ ns, groupNames names c prop pattern reps multi gs = .ok ns ∧ List.Forall₂ (Named names) x.1 ns := by
      intro multi gs
      induction gs with
      | nil =>
        intro s x hx
        simp only [windGroups, Res.ok.injEq] at hx
        subst hx
        exact ⟨[], rfl, List.Forall₂.nil⟩
      | cons g gs ih =>
        intro s x hx
        unfold windGroups at hx
        unfold groupNames
        split at hx
        · rename_i hs
          rw [if_pos hs]
          exact ih s x hx
        · rename_i hs
          rw [if_neg hs]
          obtain ⟨plan, hp, hx⟩ := bind_ok hx
          obtain ⟨y, hy, hx⟩ := bind_ok hx
          obtain ⟨z, hz, hx⟩ := bind_ok hx
          simp only [Res.ok.injEq] at hx
          subst hx
          obtain ⟨ns, h1, h2⟩ := ih y.2 z hz
          refine ⟨_, by rw [hp, Res.bind_eq_ok, h1, Res.bind_eq_ok], ?_⟩
          refine List.rel_append ?_ h2
          have ht := windEntries_tags c (mirrored multi g) plan _ plan.entries none 0 _ y hy
          rw [entryNames_tags]
          simp only at ht
          rw [List.forall₂_map_right_iff]
          refine ht.imp ?_
          intro sec t hst
          unfold Named
          cases t with
          | conduction w i =>
            obtain ⟨e1, e2⟩ := hst
            rw [e1, e2]
            rfl
          | insulation a b j =>
            obtain ⟨e1, e2⟩ := hst
            rw [e1, e2]
            exact ⟨a, b, rfl⟩
    exact key _ gs _ x hx
  · simp at h

/-- C91: no two sections have the same name, when windings have different names that do not begin with "Insulation
between "; with several groups, when these share no winding and no name of a winding contains " and". Not every coil
meets this: see `section_names_clash` and `section_names_shared`. -/
theorem section_names_unique_partial {names : Nat → Name} {c : Ctx} {gs : List Group} {prop : Nat → ℚ} {pattern : List Nat}
    {reps : Nat} {ns : List Name} (hn : GoodNames c.windings names) (hg : GroupsApart c.windings names gs)
    (h : sectionNames names c gs prop pattern reps = .ok ns) : ns.Nodup := by
  unfold sectionNames at h
  obtain ⟨ts, ht, rfl⟩ := groupNames_tags names c prop pattern reps _ gs ns h
  obtain ⟨hs, hsub, hf⟩ := groupTags_good c prop pattern reps _ gs ts ht
  have hplace := groupTags_place c prop pattern reps _ gs ts ht
  rw [List.map_flatten, List.nodup_flatten]
  constructor
  · intro l hl
    obtain ⟨t, htm, rfl⟩ := List.mem_map.mp hl
    obtain ⟨i, hi⟩ := List.mem_iff_getElem?.mp htm
    obtain ⟨hi', he⟩ := List.getElem?_eq_some_iff.mp hi
    have hlen := hf.length_eq
    have hR := (List.forall₂_iff_get.mp hf).2 i (by omega) hi'
    simp only [List.get_eq_getElem, he] at hR
    exact tags_names_nodup hn hR.1 (fun w i hm => (hR.2.1 w i hm).1) (hplace t htm)
  · rw [List.pairwise_map]
    by_cases hm : gs.length > 1
    · obtain ⟨hp, hand⟩ := hg hm
      have hp' := hp.sublist hsub
      rw [decide_eq_true hm] at hf
      clear hplace ht h
      have : ∀ (hs : List Group) (ts : List (List Tag)),
          hs.Pairwise (fun g h => ∀ w, ¬ (w ∈ g.members ∧ w ∈ h.members)) →
          List.Forall₂ (fun (g : Group) (t : List Tag) => t.Nodup ∧
            (∀ w i, Tag.conduction w i ∈ t → w < c.windings ∧ (true = true → w ∈ g.members)) ∧
            (∀ a b k, Tag.insulation a b k ∈ t → a < c.windings ∧ (true = true → a ∈ g.members))) hs ts →
          ts.Pairwise (fun t u => List.Disjoint (t.map (Tag.name names)) (u.map (Tag.name names))) := by
        intro hs
        induction hs with
        | nil =>
          intro ts _ hf
          cases hf
          exact List.Pairwise.nil
        | cons g hs ih =>
          intro ts hp hf
          cases hf with
          | cons ha hf =>
            rename_i t ts
            rw [List.pairwise_cons] at hp ⊢
            refine ⟨?_, ih ts hp.2 hf⟩
            intro u hu n hnt hnu
            obtain ⟨x, hx, rfl⟩ := List.mem_map.mp hnt
            obtain ⟨y, hy, hxy⟩ := List.mem_map.mp hnu
            obtain ⟨i, hi⟩ := List.mem_iff_getElem?.mp hu
            obtain ⟨hi', he⟩ := List.getElem?_eq_some_iff.mp hi
            have hlen := hf.length_eq
            have hR := (List.forall₂_iff_get.mp hf).2 i (by omega) hi'
            simp only [List.get_eq_getElem, he] at hR
            refine tags_names_apart hn hand (hp.1 _ (List.getElem_mem (l := hs) (n := i) (by omega)))
              (x := x) (y := y) ?_ ?_ ?_ ?_ hxy.symm
            · intro w j e; subst e; exact ⟨(ha.2.1 w j hx).1, (ha.2.1 w j hx).2 rfl⟩
            · intro a b k e; subst e; exact ⟨(ha.2.2 a b k hx).1, (ha.2.2 a b k hx).2 rfl⟩
            · intro w j e; subst e; exact ⟨(hR.2.1 w j hy).1, (hR.2.1 w j hy).2 trivial⟩
            · intro a b k e; subst e; exact ⟨(hR.2.2 a b k hy).1, (hR.2.2 a b k hy).2 trivial⟩
      exact this hs ts hp' hf
    · have hlen : ts.length ≤ 1 := by
        rw [← hf.length_eq]
        exact hsub.length_le.trans (by omega)
      match ts, hlen with
      | [], _ => exact List.Pairwise.nil
      | [t], _ => simp
      | _ :: _ :: _, hl => simp at hl

/-- A coil with insulation between any two sections of different windings. -/
def exampleCtx : Ctx :=
  ⟨3, fun _ => 4, fun _ => 1, fun _ => none, fun _ => none, .contiguous,
    fun a b => if a = b then none else some (1 / 100, 1 / 10000), fun _ => (1 / 10000, 1 / 10000), fun _ => (0, 0)⟩

/-- A group with some windings, at a place. -/
def exampleGroup (members : List Nat) (x : ℚ) : Group := ⟨members, (1 / 100, 2 / 100), (x, 0), .contiguous⟩

/-- Names of windings. -/
def exampleNames (w : Nat) : Name := if w = 0 then "Primary".toList else if w = 1 then "Secondary".toList else "Aux".toList

example : GoodNames exampleCtx.windings exampleNames := by
  constructor
  · decide +kernel
  · decide +kernel

example : (match sectionNames exampleNames exampleCtx [exampleGroup [0, 1] (1 / 100), exampleGroup [2] (-1 / 100)]
    (fun _ => 1 / 2) [0, 1, 2] 2 with
    | .ok ns => some (ns.map String.ofList)
    | _ => none) = some ["Primary section 0", "Insulation between Primary and Secondary section 1", "Secondary section 0",
      "Insulation between Secondary and Primary section 3", "Primary section 1",
      "Insulation between Primary and Secondary section 5", "Secondary section 1", "Aux section 0", "Aux section 1"] := by
  decide +kernel

/-- Two names are the same. -/
def repeats : Res (List Name) → Bool
  | .ok ns => decide (¬ ns.Nodup)
  | _ => false

/-- C91 fails when a winding has the name of insulation: its section has the name of the insulation between two others. -/
theorem section_names_clash :
    repeats (sectionNames (fun w => if w = 0 then "A".toList else if w = 1 then "B".toList else
        "Insulation between A and B".toList) exampleCtx [exampleGroup [0, 1, 2] (1 / 100)] (fun _ => 1 / 3) [0, 1, 2] 2) =
      true := by
  decide +kernel

/-- C91 fails when two groups given by the user share a winding: each names its sections from zero. -/
theorem section_names_shared :
    repeats (sectionNames exampleNames exampleCtx [exampleGroup [0, 1] (1 / 100), exampleGroup [0, 2] (3 / 100)]
        (fun _ => 1 / 2) [0, 1, 2] 1) = true ∧
      (match windRectangularSections exampleCtx (some [exampleGroup [0, 1] (1 / 100), exampleGroup [0, 2] (3 / 100)])
        (fun _ => 1 / 2) [0, 1, 2] 1 with
        | .ok secs => secs.length
        | _ => 0) = 6 := by
  decide +kernel

/-! ## C91: layers and turns -/

/-- C91: no two layers have the same name, when sections have different names given by the section winder and their layers
are those the layer winder winds, or layers of insulation. -/
theorem layer_names_unique {sections : List (Name × Filling)} (hn : (sections.map Prod.fst).Nodup)
    (hname : ∀ x ∈ sections, (∃ w i, x.1 = sectionName w i) ∨ ∃ a b k, x.1 = insulationName a b k)
    (hw : ∀ x ∈ sections, ∀ ls, x.2 = .wound ls → ∃ env s, windLayers env s = .ok ls) : (layerNames sections).Nodup := by
  have hlast : ∀ x ∈ sections, ∃ c ∈ x.1.getLast?, c.isDigit = true := by
    intro x hx
    rcases hname x hx with ⟨w, i, e⟩ | ⟨a, b, k, e⟩
    · rw [e]; exact section_name_last w i
    · rw [e]; exact insulation_name_last a b k
  have hform : ∀ x ∈ sections, ∀ n ∈ layerNamesOf x.1 x.2, ∃ p i, n = layerName x.1 p i := by
    intro x hx n hn
    obtain ⟨s, f⟩ := x
    cases f with
    | wound ls =>
      obtain ⟨l, _, rfl⟩ := List.mem_map.mp hn
      exact ⟨_, _, rfl⟩
    | insulation m =>
      obtain ⟨l, _, rfl⟩ := List.mem_map.mp hn
      exact ⟨_, _, rfl⟩
  unfold layerNames
  rw [List.nodup_flatten]
  constructor
  · intro l hl
    obtain ⟨x, hx, rfl⟩ := List.mem_map.mp hl
    obtain ⟨s, f⟩ := x
    cases f with
    | wound ls =>
      obtain ⟨env, sec, h⟩ := hw _ hx ls rfl
      unfold windLayers at h
      obtain ⟨plan, _, h⟩ := bind_ok h
      obtain ⟨_, hp⟩ := layerLoop_distinct env sec plan plan.count _ _ ls le_rfl h
      simp only [layerNamesOf]
      rw [List.Nodup, List.pairwise_map]
      refine hp.imp ?_
      intro a b hab e
      obtain ⟨_, e2, e3⟩ := layer_name_inj (hlast _ hx) (hlast _ hx) e
      exact hab ⟨e2, e3⟩
    | insulation m =>
      simp only [layerNamesOf]
      rw [List.nodup_map_iff_inj_on List.nodup_range]
      intro a _ b _ e
      exact (layer_name_inj (hlast _ hx) (hlast _ hx) e).2.2
  · rw [List.pairwise_map]
    rw [List.Nodup, List.pairwise_map] at hn
    refine List.Pairwise.imp_of_mem ?_ hn
    intro x y hx hy hxy n h1 h2
    obtain ⟨p, i, rfl⟩ := hform x hx n h1
    obtain ⟨q, j, e⟩ := hform y hy _ h2
    exact hxy (layer_name_inj (hlast x hx) (hlast y hy) e).1

/-- C91: no two turns have the same name, when different windings have different names. -/
theorem turn_names_unique {names : Nat → Name} {env : TurnEnv} {ls : List LayerIn} {ts : List Winding.Turn}
    (h : windTurns env ls = .ok ts)
    (hn : ∀ s ∈ ts, ∀ t ∈ ts, names s.winding = names t.winding → s.winding = t.winding) :
    (ts.map fun t => turnName (names t.winding) t.parallel t.number).Nodup := by
  obtain ⟨_, hp⟩ := windTurnsFrom_distinct env ls _ _ _ ts h
  rw [List.Nodup, List.pairwise_map]
  refine List.Pairwise.imp_of_mem ?_ hp
  intro a b ha hb hab e
  obtain ⟨e1, e2, e3⟩ := turn_name_inj e
  exact hab ⟨hn a ha b hb e1, e2, e3⟩

/-! ## C92: looking up by name -/

theorem firstIndex_some {α : Type} {p : α → Bool} {l : List α} {i : Nat} (h : firstIndex p l = some i) :
    ∃ a, l[i]? = some a ∧ p a = true ∧ ∀ j < i, ∀ b, l[j]? = some b → p b = false := by
  unfold firstIndex at h
  split at h
  · rename_i hl
    simp only [Option.some.injEq] at h
    subst h
    refine ⟨l[l.findIdx p], List.getElem?_eq_getElem hl, List.findIdx_getElem, ?_⟩
    intro j hj b hb
    obtain ⟨hj', rfl⟩ := List.getElem?_eq_some_iff.mp hb
    have := List.not_of_lt_findIdx hj
    simpa using this
  · simp at h

theorem firstIndex_none {α : Type} {p : α → Bool} {l : List α} (h : firstIndex p l = none) : ∀ a ∈ l, p a = false := by
  unfold firstIndex at h
  split at h
  · simp at h
  · rename_i hl
    intro a ha
    by_contra hp
    exact hl (List.findIdx_lt_length_of_exists ⟨a, ha, by simpa using hp⟩)

/-- C92: whatever a coil remembers, the index found for the name of a turn is that of a turn of that name among the present
turns; it throws exactly when there is none. -/
theorem turn_index_present (n : Name) (c : Coil) (ts : List Turn) (h : c.turns = some ts) :
    (∀ i, (getTurnIndex n c).2 = .ok i → ∃ t, ts[i]? = some t ∧ t.name = n) ∧
    ((getTurnIndex n c).2 = .noSuchName ↔ ∀ t ∈ ts, t.name ≠ n) ∧ (getTurnIndex n c).2 ≠ .notWound := by
  have search : ∀ c : Coil, (∀ i, (searchTurn n ts c).2 = .ok i → ∃ t, ts[i]? = some t ∧ t.name = n) ∧
      ((searchTurn n ts c).2 = .noSuchName ↔ ∀ t ∈ ts, t.name ≠ n) ∧ (searchTurn n ts c).2 ≠ .notWound := by
    intro c
    unfold searchTurn
    cases hf : firstIndex (fun t : Turn => decide (t.name = n)) ts with
    | none =>
      have := firstIndex_none hf
      refine ⟨by simp, ?_, by simp⟩
      simp only [true_iff]
      intro t ht
      simpa using this t ht
    | some i =>
      obtain ⟨t, h1, h2, _⟩ := firstIndex_some hf
      refine ⟨?_, ?_, by simp⟩
      · intro j hj
        simp only [Found.ok.injEq] at hj
        subst hj
        exact ⟨t, h1, by simpa using h2⟩
      · simp only [reduceCtorEq, false_iff]
        intro hall
        exact hall t (List.mem_of_getElem? h1) (by simpa using h2)
  unfold getTurnIndex
  rw [h]
  simp only
  split
  · rename_i i _
    split
    · rename_i t ht
      split
      · rename_i hname
        refine ⟨?_, ?_, by simp⟩
        · intro j hj
          simp only [Found.ok.injEq] at hj
          subst hj
          exact ⟨t, ht, hname⟩
        · simp only [reduceCtorEq, false_iff]
          intro hall
          exact hall t (List.mem_of_getElem? ht) hname
      · exact search _
    · exact search _
  · exact search c

/-- C92: with different names the index is the only one there is: what the coil remembers makes no difference. -/
theorem turn_index_only (n : Name) (c : Coil) (ts : List Turn) (h : c.turns = some ts) (hn : (ts.map fun t => t.name).Nodup)
    (i : Nat) : (getTurnIndex n c).2 = .ok i ↔ ∃ t, ts[i]? = some t ∧ t.name = n := by
  obtain ⟨h1, h2, h3⟩ := turn_index_present n c ts h
  refine ⟨h1 i, ?_⟩
  rintro ⟨t, ht, hname⟩
  cases hf : (getTurnIndex n c).2 with
  | ok j =>
    obtain ⟨u, hu, hu'⟩ := h1 j hf
    have e : (ts.map fun t => t.name)[i]? = (ts.map fun t => t.name)[j]? := by
      rw [List.getElem?_map, List.getElem?_map, ht, hu]
      simp [hname, hu']
    have hi : i < (ts.map fun t => t.name).length := by
      rw [List.length_map]
      exact (List.getElem?_eq_some_iff.mp ht).1
    rw [(List.getElem?_inj hi hn).mp e]
  | noSuchName => exact absurd hname (h2.mp hf t (List.mem_of_getElem? ht))
  | notWound => exact absurd hf h3

/-- What a coil remembers of turns is true of its turns. -/
def TurnsTrue (c : Coil) : Prop :=
  ∀ n t, c.turnByName n = some t → ∃ ts, c.turns = some ts ∧ ts.find? (fun t => decide (t.name = n)) = some t

/-- What a coil remembers of windings is true of its windings. -/
def WindingsTrue (c : Coil) : Prop :=
  ∀ n i, c.windingIndex n = some i → firstIndex (fun m => decide (m = n)) c.windings = some i

theorem getTurnIndex_keeps (n : Name) (c : Coil) : (getTurnIndex n c).1.turns = c.turns ∧
    (getTurnIndex n c).1.turnByName = c.turnByName ∧ (getTurnIndex n c).1.windings = c.windings ∧
    (getTurnIndex n c).1.windingIndex = c.windingIndex := by
  unfold getTurnIndex searchTurn
  repeat' split
  all_goals exact ⟨rfl, rfl, rfl, rfl⟩

theorem getTurn_keeps (n : Name) (c : Coil) : (Names.getTurn n c).1.turns = c.turns ∧
    (Names.getTurn n c).1.windings = c.windings ∧ (Names.getTurn n c).1.windingIndex = c.windingIndex := by
  unfold Names.getTurn
  repeat' split
  all_goals exact ⟨rfl, rfl, rfl⟩

theorem getWindingIndex_keeps (n : Name) (c : Coil) : (Names.getWindingIndex n c).1.turns = c.turns ∧
    (Names.getWindingIndex n c).1.windings = c.windings ∧ (Names.getWindingIndex n c).1.turnByName = c.turnByName := by
  unfold Names.getWindingIndex
  repeat' split
  all_goals exact ⟨rfl, rfl, rfl⟩

theorem getTurn_true (n : Name) {c : Coil} (h : TurnsTrue c) : TurnsTrue (Names.getTurn n c).1 := by
  unfold Names.getTurn
  split
  · exact h
  · split
    · exact h
    · split
      · exact h
      · rename_i _ _ ts hts _ t ht
        intro m u hu
        simp only [Function.update_apply] at hu
        split at hu
        · rename_i e
          subst e
          simp only [Option.some.injEq] at hu
          subst hu
          exact ⟨ts, hts, ht⟩
        · exact h m u hu

theorem getWindingIndex_true (n : Name) {c : Coil} (h : WindingsTrue c) : WindingsTrue (Names.getWindingIndex n c).1 := by
  unfold Names.getWindingIndex
  split
  · exact h
  · split
    · rename_i i hi
      intro m u hu
      simp only [Function.update_apply] at hu
      split at hu
      · rename_i e
        subst e
        simp only [Option.some.injEq] at hu
        subst hu
        exact hi
      · exact h m u hu
    · exact h

/-- The turns of a coil are not replaced. -/
def KeepsTurns : Op → Prop
  | .setTurns _ => False
  | _ => True

/-- The windings of a coil are not replaced. -/
def KeepsWindings : Op → Prop
  | .setWindings _ => False
  | _ => True

theorem runAll_turns : ∀ (ops : List Op) (c : Coil), (∀ o ∈ ops, KeepsTurns o) → TurnsTrue c →
    TurnsTrue (runAll ops c) ∧ (runAll ops c).turns = c.turns
  | [], c, _, h => ⟨h, rfl⟩
  | o :: ops, c, hk, h => by
    have ho := hk o (by simp)
    have step : TurnsTrue (o.run c) ∧ (o.run c).turns = c.turns := by
      cases o with
      | getTurn n => exact ⟨getTurn_true n h, (getTurn_keeps n c).1⟩
      | getTurnIndex n =>
        obtain ⟨h1, h2, _⟩ := getTurnIndex_keeps n c
        refine ⟨?_, h1⟩
        intro m t ht
        simp only [Op.run] at ht ⊢
        rw [h2] at ht
        rw [h1]
        exact h m t ht
      | getWindingIndex n =>
        obtain ⟨h1, _, h2⟩ := getWindingIndex_keeps n c
        refine ⟨?_, h1⟩
        intro m t ht
        simp only [Op.run] at ht ⊢
        rw [h2] at ht
        rw [h1]
        exact h m t ht
      | setWindings ws => exact ⟨h, rfl⟩
      | setTurns ts => exact absurd ho (by simp [KeepsTurns])
      | forget => exact ⟨h, rfl⟩
    rw [runAll]
    obtain ⟨h1, h2⟩ := runAll_turns ops (o.run c) (fun o ho => hk o (by simp [ho])) step.1
    exact ⟨h1, h2.trans step.2⟩

theorem runAll_windings : ∀ (ops : List Op) (c : Coil), (∀ o ∈ ops, KeepsWindings o) → WindingsTrue c →
    WindingsTrue (runAll ops c) ∧ (runAll ops c).windings = c.windings
  | [], c, _, h => ⟨h, rfl⟩
  | o :: ops, c, hk, h => by
    have ho := hk o (by simp)
    have step : WindingsTrue (o.run c) ∧ (o.run c).windings = c.windings := by
      cases o with
      | getTurn n =>
        obtain ⟨_, h1, h2⟩ := getTurn_keeps n c
        refine ⟨?_, h1⟩
        intro m t ht
        simp only [Op.run] at ht ⊢
        rw [h2] at ht
        rw [h1]
        exact h m t ht
      | getTurnIndex n =>
        obtain ⟨_, _, h1, h2⟩ := getTurnIndex_keeps n c
        refine ⟨?_, h1⟩
        intro m t ht
        simp only [Op.run] at ht ⊢
        rw [h2] at ht
        rw [h1]
        exact h m t ht
      | getWindingIndex n => exact ⟨getWindingIndex_true n h, (getWindingIndex_keeps n c).2.1⟩
      | setWindings ws => exact absurd ho (by simp [KeepsWindings])
      | setTurns ts => exact ⟨h, rfl⟩
      | forget => exact ⟨fun m t ht => by simp [Op.run] at ht, rfl⟩
    rw [runAll]
    obtain ⟨h1, h2⟩ := runAll_windings ops (o.run c) (fun o ho => hk o (by simp [ho])) step.1
    exact ⟨h1, h2.trans step.2⟩

/-- C92: on a coil whose turns are never replaced, a turn asked for by name is the first of that name, whatever was asked
before. When turns are replaced this fails: `turn_by_name_stale`. -/
theorem turn_by_name_partial (ws : List Name) (ts : List Turn) (ops : List Op) (hk : ∀ o ∈ ops, KeepsTurns o) (n : Name) :
    (Names.getTurn n (runAll ops (Coil.fresh ws (some ts)))).2 =
      match ts.find? (fun t => decide (t.name = n)) with
      | some t => .ok t
      | none => .noSuchName := by
  obtain ⟨h1, h2⟩ := runAll_turns ops (Coil.fresh ws (some ts)) hk (by intro m t h; simp [Coil.fresh] at h)
  simp only [Coil.fresh] at h2
  unfold Names.getTurn
  split
  · rename_i t ht
    obtain ⟨ts', e1, e2⟩ := h1 n t ht
    simp only [Coil.fresh] at e1
    rw [h2] at e1
    simp only [Option.some.injEq] at e1
    subst e1
    rw [e2]
  · simp only [Coil.fresh]
    rw [h2]
    simp only
    cases ts.find? (fun t => decide (t.name = n)) <;> rfl

/-- C92: on a coil whose windings are never replaced, or not since the last time it was wound with windings wound together,
the index of a winding is that of the first of that name, whatever was asked before. When windings are replaced this fails:
`winding_index_stale`. -/
theorem winding_index_partial (before : List Op) (ops : List Op) (c : Coil) (hk : ∀ o ∈ ops, KeepsWindings o) (n : Name) :
    (Names.getWindingIndex n (runAll ops (Op.forget.run (runAll before c)))).2 =
      match firstIndex (fun m => decide (m = n)) (runAll before c).windings with
      | some i => .ok i
      | none => .noSuchName := by
  obtain ⟨h1, h2⟩ := runAll_windings ops (Op.forget.run (runAll before c)) hk (by intro m t h; simp [Op.run] at h)
  have h3 : (Op.forget.run (runAll before c)).windings = (runAll before c).windings := rfl
  rw [h3] at h2
  unfold Names.getWindingIndex
  split
  · rename_i i hi
    have := h1 n i hi
    rw [h2] at this
    rw [this]
  · rw [h2]
    cases firstIndex (fun m => decide (m = n)) (runAll before c).windings <;> rfl

/-- C92 fails: a turn asked for by name, the coil wound again, and the same name gives the turn that was there before. -/
theorem turn_by_name_stale :
    let n : Name := "Primary parallel 0 turn 0".toList
    (Names.getTurn n (runAll [.getTurn n, .setTurns (some [⟨n, 2⟩])] (Coil.fresh ["Primary".toList] (some [⟨n, 1⟩])))).2 =
      .ok ⟨n, 1⟩ := by
  decide +kernel

/-- C92 fails: the index of a winding asked for, the windings replaced by others in another order, and the same name gives
the index it had, which is now that of another winding. -/
theorem winding_index_stale :
    let p : Name := "Primary".toList
    let s : Name := "Secondary".toList
    (Names.getWindingIndex p (runAll [.getWindingIndex p, .setWindings [s, p]] (Coil.fresh [p, s] none))).2 = .ok 0 := by
  decide +kernel

example : (getTurnIndex "b".toList (runAll [.getTurnIndex "b".toList, .setTurns (some [⟨"b".toList, 1⟩])]
    (Coil.fresh [] (some [⟨"a".toList, 1⟩, ⟨"b".toList, 2⟩])))).2 = .ok 0 := by decide +kernel

end Verif.Names
