import Verif.Winding.Props

/-! # The order of the sections: C76

Which winding each section belongs to, where insulation goes, and the sections of every group. -/

namespace Verif.Winding

open Verif.Round

set_option linter.unusedSimpArgs false

/-! ## Specification -/

/-- Insulation is where it is needed: two conduction sections touch only if their windings need no insulation; an
insulation section comes after the section of a winding, has the size of the insulation from that winding to that of
the next section (to `first` after the last one), and is followed by no other insulation. -/
def Insulated (ins : Nat → Nat → Option (ℚ × ℚ)) (first : Nat) (secs : List Section) : Prop :=
  ∀ (i : Nat) (x y : Section), secs[i]? = some x → secs[i + 1]? = some y →
    (∀ a b, x.winding = some a → y.winding = some b → ins a b = none) ∧
    (∀ a, x.winding = some a → y.winding = none → ∃ b, ins a b = some y.dims ∧
      ((∃ z, secs[i + 2]? = some z ∧ z.winding = some b) ∨ (secs.length = i + 2 ∧ b = first))) ∧
    (x.winding = none → y.winding ≠ none)

/-- The pattern of a group: the windings of the coil's pattern that are in the group, when there are several. -/
def patternOf (multi : Bool) (g : Group) (pattern : List Nat) : List Nat :=
  if multi then pattern.filter fun w => decide (w ∈ g.members) else pattern

/-- Where the sections of a group begin: windows on the negative side are wound mirrored when there are several. -/
def firstEdge (multi : Bool) (g : Group) : ℚ :=
  match g.orientation with
  | .overlapping => (if multi = true ∧ g.centre.1 < 0 then -g.centre.1 else g.centre.1) - g.dims.1 / 2
  | .contiguous => g.centre.2 + g.dims.2 / 2

/-- The sections of one group: windings in the order of its pattern, repeated; insulation where it is needed; stacked
from the first edge of the group. -/
def GroupSections (c : Ctx) (pattern : List Nat) (reps : Nat) (multi : Bool) (g : Group) (secs : List Section) : Prop :=
  secs.filterMap (fun s => s.winding) = (List.replicate reps (patternOf multi g pattern)).flatten ∧
  (∀ s, secs.head? = some s → s.winding ≠ none) ∧
  (∀ w, (patternOf multi g pattern).head? = some w → Insulated c.insulation w secs) ∧
  StackedFrom g.orientation (firstEdge multi g) secs ∧
  ∀ w, (sectionsOf w secs).map (fun s => s.index) = List.range ((patternOf multi g pattern).count w * reps)

/-- The sections of a group oriented as the coil take the size of the group, to half a nanometre each, plus the insulation
from the last winding to the first when they overlap: of several groups, those with all their windings in the pattern;
of a single group, when the parts of the windings in the pattern add up to one. -/
def GroupFilled (c : Ctx) (prop : Nat → ℚ) (pattern : List Nat) (reps : Nat) (multi : Bool) (g : Group)
    (secs : List Section) : Prop :=
  g.orientation = c.orientation → 0 < reps →
  (if multi then ∀ w ∈ g.members, w ∈ pattern else (pattern.dedup.map prop).sum = 1) →
  ∀ a b, (patternOf multi g pattern).head? = some a → (patternOf multi g pattern).getLast? = some b →
    |(secs.map (extent g.orientation)).sum - (thickness g.orientation g.dims +
        if g.orientation = .overlapping then ((c.insulation b a).map fun d => d.1).getD 0 else 0)| ≤
      ((patternOf multi g pattern).length * reps : Nat) * (1 / (2 * 10 ^ 9))

/-! ## Lemmas -/

theorem insulated_nil (ins : Nat → Nat → Option (ℚ × ℚ)) (first : Nat) : Insulated ins first [] := by
  intro i x y h; simp at h

theorem insulated_single (ins : Nat → Nat → Option (ℚ × ℚ)) (first : Nat) (s : Section) : Insulated ins first [s] := by
  intro i x y h h'
  simp at h'

theorem insulated_cons {ins : Nat → Nat → Option (ℚ × ℚ)} {first : Nat} {x y : Section} {rest : List Section}
    (h : Insulated ins first (y :: rest))
    (h1 : ∀ a b, x.winding = some a → y.winding = some b → ins a b = none)
    (h2 : ∀ a, x.winding = some a → y.winding = none → ∃ b, ins a b = some y.dims ∧
      ((∃ z, rest[0]? = some z ∧ z.winding = some b) ∨ (rest = [] ∧ b = first)))
    (h3 : x.winding = none → y.winding ≠ none) : Insulated ins first (x :: y :: rest) := by
  intro i u v hu hv
  cases i with
  | zero =>
    simp only [List.getElem?_cons_zero, Option.some.injEq, List.getElem?_cons_succ] at hu hv
    subst hu; subst hv
    refine ⟨h1, fun a ha hb => ?_, h3⟩
    obtain ⟨b, hb1, hb2⟩ := h2 a ha hb
    refine ⟨b, hb1, ?_⟩
    rcases hb2 with ⟨z, hz, hz'⟩ | ⟨hr, hf⟩
    · exact Or.inl ⟨z, by simpa using hz, hz'⟩
    · exact Or.inr ⟨by simp [hr], hf⟩
  | succ i =>
    rw [List.getElem?_cons_succ] at hu hv
    obtain ⟨q1, q2, q3⟩ := h i u v hu hv
    refine ⟨q1, fun a ha hb => ?_, q3⟩
    obtain ⟨b, hb1, hb2⟩ := q2 a ha hb
    refine ⟨b, hb1, ?_⟩
    rcases hb2 with ⟨z, hz, hz'⟩ | ⟨hr, hf⟩
    · exact Or.inl ⟨z, by rw [List.getElem?_cons_succ]; exact hz, hz'⟩
    · exact Or.inr ⟨by rw [List.length_cons, hr], hf⟩

theorem windSection_head {c : Ctx} {g : Group} {plan : Plan} {w : Nat} {space : ℚ} {s : St}
    {x : Section × St} (h : windSection c g plan w space s = .ok x) :
    x.1.winding = some w ∧ x.1.index = s.count w ∧ x.2.count = upd s.count w (s.count w + 1) := by
  unfold windSection at h
  obtain ⟨r, hr, h⟩ := bind_ok h
  obtain ⟨_, h⟩ := ite_ok (by simp) h
  obtain ⟨_, h⟩ := ite_ok (by simp) h
  obtain ⟨_, h⟩ := ite_ok (by simp) h
  rw [Res.ok.injEq] at h
  subst h
  exact ⟨rfl, rfl, rfl⟩

theorem windInsulation_count (c : Ctx) (g : Group) (a b k : Nat) (s : St) :
    (windInsulation c g a b k s).2.count = s.count := by
  unfold windInsulation
  split <;> rfl

theorem windInsulation_wind (c : Ctx) (g : Group) (a b k : Nat) (s : St) :
    ∀ x ∈ (windInsulation c g a b k s).1, x.winding = none := by
  unfold windInsulation
  split <;> simp

/-- The windings of the sections, and how they are numbered. -/
theorem windEntries_order (c : Ctx) (g : Group) (plan : Plan) (first : Option Nat) :
    ∀ (entries : List Entry) (prev : Option Nat) (k : Nat) (s : St) (x : List Section × St),
      windEntries c g plan first entries prev k s = .ok x →
      x.1.filterMap (fun s => s.winding) = condWindings entries ∧
      ∀ w, (sectionsOf w x.1).map (fun s => s.index) =
        (List.range ((condWindings entries).count w)).map (fun i => s.count w + i)
  | [], prev, k, s, x, h => by
    simp only [windEntries, Res.ok.injEq] at h
    subst h
    simp [condWindings, sectionsOf]
  | .cond w space :: rest, prev, k, s, x, h => by
    unfold windEntries at h
    obtain ⟨y, hy, h⟩ := bind_ok h
    obtain ⟨z, hz, h⟩ := bind_ok h
    simp only [Res.ok.injEq] at h
    subst h
    obtain ⟨h1, h2, h3⟩ := windSection_head hy
    obtain ⟨i1, i2⟩ := windEntries_order c g plan first rest _ _ _ z hz
    constructor
    · rw [List.filterMap_cons]
      simp only [h1, condWindings, i1]
    · intro v
      unfold sectionsOf at i2 ⊢
      rw [List.filter_cons, condWindings, List.count_cons]
      by_cases hv : w = v
      · subst hv
        rw [if_pos (by simp [h1]), List.map_cons, i2 w, h3, upd_same, h2]
        simp only [BEq.rfl, if_true]
        rw [List.range_succ_eq_map, List.map_cons, List.map_map, Nat.add_zero]
        congr 1
        apply List.map_congr_left
        intro i _
        simp only [Function.comp_apply]
        omega
      · rw [if_neg (by simp [h1, hv]), i2 v, h3, upd_other _ _ (fun e => hv e.symm)]
        simp [hv]
  | .ins :: rest, prev, k, s, x, h => by
    unfold windEntries at h
    obtain ⟨_, h⟩ := ite_ok (by simp) h
    simp only at h
    split at h
    · rename_i a b heq _
      obtain ⟨y, hy, h⟩ := bind_ok h
      simp only [Res.ok.injEq] at h
      subst h
      obtain ⟨i1, i2⟩ := windEntries_order c g plan first rest _ _ _ y hy
      have hn := windInsulation_wind c g a b k s
      rw [windInsulation_count] at i2
      constructor
      · rw [List.filterMap_append, i1, condWindings]
        rw [List.filterMap_eq_nil_iff.mpr (fun x hx => hn x hx), List.nil_append]
      · intro v
        have : sectionsOf v ((windInsulation c g a b k s).1 ++ y.1) = sectionsOf v y.1 := by
          unfold sectionsOf
          rw [List.filter_append, List.filter_eq_nil_iff.mpr (fun x hx => by simp [hn x hx]), List.nil_append]
        rw [this, i2 v, condWindings]
    · obtain ⟨i1, i2⟩ := windEntries_order c g plan first rest _ _ s x h
      exact ⟨by rw [i1, condWindings], fun v => by rw [i2 v, condWindings]⟩

theorem interleave_cons (ins : Nat → Nat → Option (ℚ × ℚ)) (b : Nat × ℚ) (rest : List (Nat × ℚ)) (t : List Entry) :
    ∃ r, interleave ins (b :: rest) ++ t = Entry.cond b.1 b.2 :: r := by
  cases rest with
  | nil => exact ⟨_, rfl⟩
  | cons d rest' =>
    unfold interleave
    split <;> exact ⟨_, rfl⟩

/-- The sections of planned entries are insulated. -/
theorem windEntries_insulated (c : Ctx) (g : Group) (plan : Plan) (first : Nat) (tail : Bool) (l : List (Nat × ℚ)) :
    ∀ (prev : Option Nat) (k : Nat) (s : St) (x : List Section × St),
      windEntries c g plan (some first)
        (interleave c.insulation l ++ if tail then [Entry.ins] else []) prev k s = .ok x → l ≠ [] →
      Insulated c.insulation first x.1 ∧ ∃ a s₁ rest, l.head? = some a ∧ x.1 = s₁ :: rest ∧ s₁.winding = some a.1 := by
  fun_induction interleave c.insulation l with
  | case1 => intro prev k s x _ hl; simp at hl
  | case2 a =>
    intro prev k s x h _
    rw [List.cons_append, List.nil_append] at h
    unfold windEntries at h
    obtain ⟨y, hy, h⟩ := bind_ok h
    obtain ⟨z, hz, h⟩ := bind_ok h
    simp only [Res.ok.injEq] at h
    subst h
    obtain ⟨h1, _, _⟩ := windSection_head hy
    refine ⟨?_, a, _, _, rfl, rfl, h1⟩
    cases tail with
    | false =>
      simp only [Bool.false_eq_true, if_false, windEntries, Res.ok.injEq] at hz
      subst hz
      exact insulated_single _ _ _
    | true =>
      rw [if_pos rfl] at hz
      unfold windEntries at hz
      obtain ⟨_, hz⟩ := ite_ok (by simp) hz
      simp only at hz
      obtain ⟨t, ht, hz⟩ := bind_ok hz
      simp only [windEntries, Res.ok.injEq] at ht hz
      subst ht
      subst hz
      unfold windInsulation
      cases hi : c.insulation a.1 first with
      | none => exact insulated_single _ _ _
      | some d =>
        refine insulated_cons (insulated_single _ _ _) (by simp) ?_ (by simp [h1])
        intro a' ha' _
        rw [h1, Option.some.injEq] at ha'
        subst ha'
        exact ⟨first, hi, Or.inr ⟨rfl, rfl⟩⟩
  | case3 a b rest hi ih =>
    intro prev k s x h _
    rw [List.cons_append, List.cons_append] at h
    unfold windEntries at h
    obtain ⟨y, hy, h⟩ := bind_ok h
    obtain ⟨z, hz, h⟩ := bind_ok h
    simp only [Res.ok.injEq] at h
    subst h
    obtain ⟨h1, _, _⟩ := windSection_head hy
    refine ⟨?_, a, _, _, rfl, rfl, h1⟩
    unfold windEntries at hz
    obtain ⟨_, hz⟩ := ite_ok (by simp) hz
    obtain ⟨r, hr⟩ := interleave_cons c.insulation b rest (if tail then [Entry.ins] else [])
    rw [hr] at hz ih
    simp only [Entry.winding] at hz
    obtain ⟨t, ht, hz⟩ := bind_ok hz
    simp only [Res.ok.injEq] at hz
    subst hz
    obtain ⟨j1, a', s₁, rest', j2, j3, j4⟩ := ih _ _ _ t ht (by simp)
    simp only [List.head?_cons, Option.some.injEq] at j2
    subst j2
    obtain ⟨d, hd⟩ := Option.isSome_iff_exists.mp hi
    unfold windInsulation
    rw [hd]
    simp only [List.cons_append, List.nil_append]
    rw [j3] at j1 ⊢
    refine insulated_cons (insulated_cons j1 (by simp) (by simp) (by simp [j4])) (by simp) ?_ (by simp [h1])
    intro a' ha' _
    rw [h1, Option.some.injEq] at ha'
    subst ha'
    exact ⟨b.1, hd, Or.inl ⟨s₁, rfl, j4⟩⟩
  | case4 a b rest hi ih =>
    intro prev k s x h _
    rw [List.cons_append] at h
    unfold windEntries at h
    obtain ⟨y, hy, h⟩ := bind_ok h
    obtain ⟨z, hz, h⟩ := bind_ok h
    simp only [Res.ok.injEq] at h
    subst h
    obtain ⟨h1, _, _⟩ := windSection_head hy
    refine ⟨?_, a, _, _, rfl, rfl, h1⟩
    obtain ⟨j1, a', s₁, rest', j2, j3, j4⟩ := ih _ _ _ z hz (by simp)
    simp only [List.head?_cons, Option.some.injEq] at j2
    subst j2
    rw [j3] at j1 ⊢
    refine insulated_cons j1 ?_ (by simp [j4]) (by simp [h1])
    intro a' b' ha' hb'
    rw [h1, Option.some.injEq] at ha'
    rw [j4, Option.some.injEq] at hb'
    subst ha'; subst hb'
    simpa using hi

/-- The entries `addInsulation` makes. -/
theorem addInsulation_form {ins : Nat → Nat → Option (ℚ × ℚ)} {o : Orientation} {rect : Bool}
    {ordered : List (Nat × ℚ)} {entries : List Entry} (h : addInsulation ins o rect ordered = .ok entries) :
    ∃ tail : Bool, entries = interleave ins (shrink ins o ordered) ++ if tail then [Entry.ins] else [] := by
  unfold addInsulation at h
  cases ordered with
  | nil => simp at h
  | cons a rest =>
    simp only at h
    split at h
    · rw [Res.ok.injEq] at h
      exact ⟨true, by rw [← h]; rfl⟩
    · rw [Res.ok.injEq] at h
      exact ⟨false, by rw [← h]; simp⟩

theorem groupPattern_eq (multi : Bool) (g : Group) (pattern : List Nat) :
    groupPattern g pattern multi = patternOf multi g pattern := rfl

/-- One group. -/
theorem group_sections {c : Ctx} {g : Group} {prop : Nat → ℚ} {pattern : List Nat} {reps : Nat} {multi : Bool}
    {plan : Plan} (hp : planGroup c (mirrored multi g) prop pattern reps multi true = .ok plan) {s : St}
    {x : List Section × St}
    (hx : windEntries c (mirrored multi g) plan (plan.entries.head?.bind Entry.winding) plan.entries none 0 s = .ok x)
    (hs : s.count = fun _ => 0) (he : s.edge = startEdge (mirrored multi g)) :
    GroupSections c pattern reps multi g x.1 := by
  obtain ⟨hcw, hne, _, _, _⟩ := planGroup_ok hp
  rw [groupPattern_mirrored, groupPattern_eq] at hcw
  obtain ⟨i1, i2⟩ := windEntries_order c _ plan _ _ _ _ _ x hx
  have hadd : ∃ ordered : List (Nat × ℚ), addInsulation c.insulation c.orientation true ordered = .ok plan.entries := by
    unfold planGroup at hp
    obtain ⟨_, hp⟩ := ite_ok (by simp) hp
    obtain ⟨_, hp⟩ := ite_ok (by simp) hp
    obtain ⟨ordered, ho, hp⟩ := bind_ok hp
    obtain ⟨entries, he, hp⟩ := bind_ok hp
    obtain ⟨styles, hs, hp⟩ := bind_ok hp
    rw [Res.ok.injEq] at hp
    subst hp
    exact ⟨ordered, he⟩
  obtain ⟨ordered, hadd⟩ := hadd
  obtain ⟨hw, hne'⟩ := addInsulation_windings hadd
  obtain ⟨tail, hform⟩ := addInsulation_form hadd
  have hsh : (shrink c.insulation c.orientation ordered).map Prod.fst = ordered.map Prod.fst := shrink_fst _ _ _
  obtain ⟨e, rest, hse⟩ : ∃ e rest, shrink c.insulation c.orientation ordered = e :: rest := by
    cases hc : shrink c.insulation c.orientation ordered with
    | nil => rw [hc] at hsh; simp at hsh; exact absurd hsh.symm (by simpa using hne')
    | cons e rest => exact ⟨e, rest, rfl⟩
  have hfirst : plan.entries.head?.bind Entry.winding = some e.1 := by
    rw [hform, hse]; exact interleave_head _ _ _ _
  rw [hfirst, hform] at hx
  obtain ⟨j1, a, s₁, r, j2, j3, j4⟩ := windEntries_insulated c _ plan e.1 tail _ none 0 s x hx (by rw [hse]; simp)
  refine ⟨by rw [i1, hcw], ?_, ?_, ?_, ?_⟩
  · intro s' hs'
    rw [j3] at hs'
    simp only [List.head?_cons, Option.some.injEq] at hs'
    rw [← hs', j4]
    simp
  · intro w hw'
    have hreps : 0 < reps := by
      rcases Nat.eq_zero_or_pos reps with h0 | h0
      · rw [h0] at hcw; simp at hcw; exact absurd hcw hne
      · exact h0
    have := (flatten_ends (patternOf multi g pattern) reps hreps).1
    rw [hw', ← hcw, hw, ← hsh, hse] at this
    simp only [List.map_cons, List.head?_cons, Option.some.injEq] at this
    rw [← this]
    exact j1
  · have := windEntries_stacked c _ plan _ _ _ _ _ x hx
    have ho : (mirrored multi g).orientation = g.orientation := by unfold mirrored; split <;> rfl
    rw [ho] at this
    convert this using 1
    unfold firstEdge runEdge
    rw [he]
    unfold startEdge
    rw [ho]
    unfold mirrored
    cases g.orientation <;> simp only [thickness] <;> split <;> rfl
  · intro w
    rw [i2 w, hs, hcw, count_flatten]
    simp

theorem group_filled {c : Ctx} {g : Group} {prop : Nat → ℚ} {pattern : List Nat} {reps : Nat} {multi : Bool}
    {plan : Plan} (hp : planGroup c (mirrored multi g) prop pattern reps multi true = .ok plan) {s : St}
    {x : List Section × St}
    (hx : windEntries c (mirrored multi g) plan (plan.entries.head?.bind Entry.winding) plan.entries none 0 s = .ok x) :
    GroupFilled c prop pattern reps multi g x.1 := by
  intro ho hr hall a b ha hb
  have hmo : (mirrored multi g).orientation = g.orientation := by unfold mirrored; split <;> rfl
  have hd : (mirrored multi g).dims = g.dims := by unfold mirrored; split <;> rfl
  have hpat : groupPattern (mirrored multi g) pattern multi = patternOf multi g pattern := groupPattern_mirrored _ _ _
  have h := group_extent (by rw [hmo, ho]) hr (by rw [hpat]; exact ha) (by rw [hpat]; exact hb) hp hx
  obtain ⟨hne, _⟩ := planGroup_entries hp
  rw [mirrored_members] at hne
  rw [hmo, hd, hpat] at h
  have hsum : ((patternOf multi g pattern).dedup.map (groupProp multi (mirrored multi g) prop)).sum = 1 := by
    cases multi with
    | false =>
      have : groupProp false (mirrored false g) prop = prop := by funext w; simp [groupProp]
      rw [this]
      simpa [patternOf] using hall
    | true =>
      simp only [if_true] at hall
      have hcongr : (patternOf true g pattern).dedup.map (groupProp true (mirrored true g) prop) =
          (patternOf true g pattern).dedup.map fun w => prop w * ((g.members.dedup.map prop).sum)⁻¹ := by
        apply List.map_congr_left
        intro w hw
        have hw' : w ∈ g.members := by
          have := List.mem_dedup.mp hw
          simp only [patternOf, if_true, List.mem_filter, decide_eq_true_eq] at this
          exact this.2
        unfold groupProp
        rw [mirrored_members, if_pos ⟨rfl, hw'⟩, div_eq_mul_inv]
      have hperm : (patternOf true g pattern).dedup.Perm g.members.dedup := by
        rw [List.perm_ext_iff_of_nodup (List.nodup_dedup _) (List.nodup_dedup _)]
        intro w
        simp only [List.mem_dedup, patternOf, if_true, List.mem_filter, decide_eq_true_eq]
        exact ⟨fun h => h.2, fun h => ⟨hall w h, h⟩⟩
      rw [hcongr, List.sum_map_mul_right, (hperm.map prop).sum_eq]
      exact mul_inv_cancel₀ (hne rfl)
  rw [hsum, mul_one] at h
  convert h using 5
  rename_i hov
  unfold between
  rw [hov]
  cases c.insulation b a <;> simp [thickness]

/-- What holds of every group holds of the sections block by block. -/
theorem windGroups_blocks (c : Ctx) (prop : Nat → ℚ) (pattern : List Nat) (reps : Nat) (multi : Bool)
    (P : Group → List Section → Prop)
    (hP : ∀ (g : Group) (plan : Plan) (s : St) (x : List Section × St),
      planGroup c (mirrored multi g) prop pattern reps multi true = .ok plan →
      windEntries c (mirrored multi g) plan (plan.entries.head?.bind Entry.winding) plan.entries none 0 s = .ok x →
      s.count = (fun _ => 0) → s.edge = startEdge (mirrored multi g) → P g x.1) :
    ∀ (gs : List Group) (s : St) (x : List Section × St), windGroups c prop pattern reps multi gs s = .ok x →
      ∃ blocks : List (List Section), x.1 = blocks.flatten ∧
        List.Forall₂ P (gs.filter fun g => decide ¬ (multi = true ∧ g.members = [])) blocks
  | [], s, x, h => by
    simp only [windGroups, Res.ok.injEq] at h
    subst h
    exact ⟨[], rfl, List.Forall₂.nil⟩
  | g :: gs, s, x, h => by
    unfold windGroups at h
    by_cases hg : multi = true ∧ g.members = []
    · rw [if_pos hg] at h
      obtain ⟨blocks, h1, h2⟩ := windGroups_blocks c prop pattern reps multi P hP gs s x h
      refine ⟨blocks, h1, ?_⟩
      rw [List.filter_cons, if_neg (by simp [hg])]
      exact h2
    · rw [if_neg hg] at h
      obtain ⟨plan, hp, h⟩ := bind_ok h
      obtain ⟨y, hy, h⟩ := bind_ok h
      obtain ⟨z, hz, h⟩ := bind_ok h
      simp only [Res.ok.injEq] at h
      subst h
      obtain ⟨blocks, h1, h2⟩ := windGroups_blocks c prop pattern reps multi P hP gs _ z hz
      refine ⟨y.1 :: blocks, by simp [h1], ?_⟩
      rw [List.filter_cons, if_pos (decide_eq_true hg)]
      exact List.Forall₂.cons (hP g plan _ y hp hy rfl rfl) h2

/-! ## Margins -/

/-- The size of a group across the direction sections are stacked. -/
def crossSize (o : Orientation) (d : ℚ × ℚ) : ℚ :=
  match o with
  | .overlapping => d.2
  | .contiguous => d.1

/-- The place of a section across that direction. -/
def crossPlace (o : Orientation) (p : ℚ × ℚ) : ℚ := crossSize o p

/-- A conduction section keeps the margins `m` free: across the stacking direction it is as large as the group without
them, the wire of its winding fits in it, and its middle is that of the group. -/
def KeepsMargins (c : Ctx) (multi : Bool) (g : Group) (m : ℚ × ℚ) (s : Section) : Prop :=
  crossSize g.orientation s.dims = crossSize g.orientation g.dims - m.1 - m.2 ∧
  (∀ w, s.winding = some w → crossSize g.orientation (c.wire w) ≤ crossSize g.orientation s.dims) ∧
  crossPlace g.orientation s.centre = match g.orientation with
    | .overlapping => g.centre.2
    | .contiguous => if multi = true ∧ g.centre.1 < 0 then -g.centre.1 else g.centre.1

theorem windSection_margins {c : Ctx} {g : Group} {plan : Plan} {w : Nat} {space : ℚ} {s : St}
    {x : Section × St} (h : windSection c g plan w space s = .ok x) :
    crossSize g.orientation x.1.dims = crossSize g.orientation g.dims - (c.margin s.ordinal).1 - (c.margin s.ordinal).2 ∧
    crossSize g.orientation (c.wire w) ≤ crossSize g.orientation x.1.dims ∧
    crossPlace g.orientation x.1.centre = crossEdge g.orientation s ∧ x.2.ordinal = s.ordinal + 1 := by
  unfold windSection at h
  obtain ⟨r, hr, h⟩ := bind_ok h
  obtain ⟨ht, h⟩ := ite_ok (by simp) h
  obtain ⟨_, h⟩ := ite_ok (by simp) h
  obtain ⟨_, h⟩ := ite_ok (by simp) h
  rw [Res.ok.injEq] at h
  subst h
  cases ho : g.orientation with
  | overlapping =>
    rw [ho] at ht
    simp only [decide_eq_true_eq, not_lt] at ht
    simp only [crossSize, crossPlace, crossEdge, ho]
    refine ⟨by ring, by linarith, trivial, trivial⟩
  | contiguous =>
    rw [ho] at ht
    simp only [decide_eq_true_eq, not_lt] at ht
    simp only [crossSize, crossPlace, crossEdge, ho]
    refine ⟨by ring, by linarith, trivial, trivial⟩

theorem windInsulation_ordinal (c : Ctx) (g : Group) (a b k : Nat) (s : St) :
    (windInsulation c g a b k s).2.ordinal = s.ordinal := by
  unfold windInsulation
  split <;> rfl

/-- Conduction sections. -/
def conducting (secs : List Section) : List Section := secs.filter fun s => s.winding.isSome

theorem windEntries_margins (c : Ctx) (g : Group) (plan : Plan) (first : Option Nat) (multi : Bool) :
    ∀ (entries : List Entry) (prev : Option Nat) (k : Nat) (s : St) (x : List Section × St),
      windEntries c (mirrored multi g) plan first entries prev k s = .ok x →
      crossEdge g.orientation s = crossEdge g.orientation
        { s with edge := startEdge (mirrored multi g) } →
      x.2.ordinal = s.ordinal + (conducting x.1).length ∧
      ∀ (i : Nat) (y : Section), (conducting x.1)[i]? = some y →
        KeepsMargins c multi g (c.margin (s.ordinal + i)) y
  | [], prev, k, s, x, h, he => by
    simp only [windEntries, Res.ok.injEq] at h
    subst h
    simp [conducting]
  | .cond w space :: rest, prev, k, s, x, h, he => by
    unfold windEntries at h
    obtain ⟨y, hy, h⟩ := bind_ok h
    obtain ⟨z, hz, h⟩ := bind_ok h
    simp only [Res.ok.injEq] at h
    subst h
    have ho : (mirrored multi g).orientation = g.orientation := by unfold mirrored; split <;> rfl
    have hd : (mirrored multi g).dims = g.dims := by unfold mirrored; split <;> rfl
    obtain ⟨h1, _, _⟩ := windSection_head hy
    obtain ⟨m1, m2, m3, m4⟩ := windSection_margins hy
    obtain ⟨_, _, _, p4, _⟩ := windSection_place hy
    rw [ho] at m1 m2 m3 p4
    rw [hd] at m1
    have he' : crossEdge g.orientation y.2 = crossEdge g.orientation { y.2 with edge := startEdge (mirrored multi g) } := by
      rw [p4, he]
      unfold crossEdge
      cases g.orientation <;> rfl
    obtain ⟨i1, i2⟩ := windEntries_margins c g plan first multi rest _ _ _ z hz he'
    have hcons : conducting (y.1 :: z.1) = y.1 :: conducting z.1 := by
      unfold conducting
      rw [List.filter_cons, if_pos (by simp [h1])]
    simp only [hcons, List.length_cons]
    refine ⟨by rw [i1, m4]; omega, ?_⟩
    intro i u hu
    cases i with
    | zero =>
      simp only [List.getElem?_cons_zero, Option.some.injEq] at hu
      subst hu
      refine ⟨m1, ?_, ?_⟩
      · intro w' hw'
        rw [h1, Option.some.injEq] at hw'
        subst hw'
        exact m2
      · rw [m3, he]
        unfold crossEdge startEdge
        rw [ho]
        unfold mirrored
        cases g.orientation <;> simp only [] <;> split <;> rfl
    | succ i =>
      rw [List.getElem?_cons_succ] at hu
      have := i2 i u hu
      rw [m4] at this
      rw [show s.ordinal + (i + 1) = s.ordinal + 1 + i by omega]
      exact this
  | .ins :: rest, prev, k, s, x, h, he => by
    have ho : (mirrored multi g).orientation = g.orientation := by unfold mirrored; split <;> rfl
    unfold windEntries at h
    obtain ⟨_, h⟩ := ite_ok (by simp) h
    simp only at h
    split at h
    · rename_i a b heq _
      obtain ⟨y, hy, h⟩ := bind_ok h
      simp only [Res.ok.injEq] at h
      subst h
      have hc := (windInsulation_place c (mirrored multi g) a b k s).2.2.1
      rw [ho] at hc
      have he' : crossEdge g.orientation (windInsulation c (mirrored multi g) a b k s).2 =
          crossEdge g.orientation { (windInsulation c (mirrored multi g) a b k s).2 with
            edge := startEdge (mirrored multi g) } := by
        rw [hc, he]
        unfold crossEdge
        cases g.orientation <;> rfl
      obtain ⟨i1, i2⟩ := windEntries_margins c g plan first multi rest _ _ _ y hy he'
      rw [windInsulation_ordinal] at i1 i2
      have hn := windInsulation_wind c (mirrored multi g) a b k s
      have hcons : conducting ((windInsulation c (mirrored multi g) a b k s).1 ++ y.1) = conducting y.1 := by
        unfold conducting
        rw [List.filter_append, List.filter_eq_nil_iff.mpr (fun x hx => by simp [hn x hx]), List.nil_append]
      simp only [hcons]
      exact ⟨i1, i2⟩
    · exact windEntries_margins c g plan first multi rest _ _ s x h he

theorem windGroups_margins (c : Ctx) (prop : Nat → ℚ) (pattern : List Nat) (reps : Nat) (multi : Bool) :
    ∀ (gs : List Group) (s : St) (x : List Section × St), windGroups c prop pattern reps multi gs s = .ok x →
      ∀ (i : Nat) (y : Section), (conducting x.1)[i]? = some y →
        ∃ g ∈ gs, KeepsMargins c multi g (c.margin (s.ordinal + i)) y
  | [], s, x, h, i, y, hy => by
    simp only [windGroups, Res.ok.injEq] at h
    subst h
    simp [conducting] at hy
  | g :: gs, s, x, h, i, y, hy => by
    unfold windGroups at h
    by_cases hg : multi = true ∧ g.members = []
    · rw [if_pos hg] at h
      obtain ⟨g', h1, h2⟩ := windGroups_margins c prop pattern reps multi gs s x h i y hy
      exact ⟨g', List.mem_cons_of_mem _ h1, h2⟩
    · rw [if_neg hg] at h
      obtain ⟨plan, hp, h⟩ := bind_ok h
      obtain ⟨u, hu, h⟩ := bind_ok h
      obtain ⟨z, hz, h⟩ := bind_ok h
      simp only [Res.ok.injEq] at h
      subst h
      obtain ⟨m1, m2⟩ := windEntries_margins c g plan _ multi _ _ _ _ u hu rfl
      have happ : conducting (u.1 ++ z.1) = conducting u.1 ++ conducting z.1 := by
        unfold conducting; rw [List.filter_append]
      rw [happ] at hy
      by_cases hi : i < (conducting u.1).length
      · rw [List.getElem?_append_left hi] at hy
        exact ⟨g, List.mem_cons_self, m2 i y hy⟩
      · rw [List.getElem?_append_right (by omega)] at hy
        obtain ⟨g', h1, h2⟩ := windGroups_margins c prop pattern reps multi gs _ z hz _ y hy
        refine ⟨g', List.mem_cons_of_mem _ h1, ?_⟩
        rw [m1] at h2
        simp only at h2
        rw [show s.ordinal + i = s.ordinal + (conducting u.1).length + (i - (conducting u.1).length) by omega]
        exact h2

/-! ## C76 -/

/-- C76: the sections are those of each group in turn, groups without windings left out when there are several; the
sections of a group follow its pattern, repeated, each winding's numbered from zero, with insulation exactly where it
is needed, stacked from the edge of the group, and take the size of the group when its windings share all of it. -/
theorem sections_by_group {c : Ctx} {gs : List Group} {prop : Nat → ℚ} {pattern : List Nat} {reps : Nat}
    {secs : List Section} (h : windRectangularSections c (some gs) prop pattern reps = .ok secs) :
    ∃ blocks : List (List Section), secs = blocks.flatten ∧
      List.Forall₂ (fun g secs => GroupSections c pattern reps (decide (gs.length > 1)) g secs ∧
          GroupFilled c prop pattern reps (decide (gs.length > 1)) g secs)
        (gs.filter fun g => decide ¬ (gs.length > 1 ∧ g.members = [])) blocks := by
  obtain ⟨gs', x, hgs, hx, _, rfl⟩ := rectangular_ok h
  simp only [Option.some.injEq] at hgs
  subst hgs
  obtain ⟨blocks, h1, h2⟩ := windGroups_blocks c prop pattern reps _
    (fun g secs => GroupSections c pattern reps (decide (gs.length > 1)) g secs ∧
      GroupFilled c prop pattern reps (decide (gs.length > 1)) g secs)
    (fun g plan s x hp hx hs he => ⟨group_sections hp hx hs he, group_filled hp hx⟩) gs _ x hx
  refine ⟨blocks, h1, ?_⟩
  simpa using h2

/-- C76: across the direction they are stacked, the `i`-th conduction section of the coil keeps the `i`-th margins free,
and the wire of its winding fits in it. -/
theorem sections_keep_margins {c : Ctx} {gs : List Group} {prop : Nat → ℚ} {pattern : List Nat} {reps : Nat}
    {secs : List Section} (h : windRectangularSections c (some gs) prop pattern reps = .ok secs) {i : Nat} {s : Section}
    (hs : (conducting secs)[i]? = some s) :
    ∃ g ∈ gs, KeepsMargins c (decide (gs.length > 1)) g (c.margin i) s := by
  obtain ⟨gs', x, hgs, hx, _, rfl⟩ := rectangular_ok h
  simp only [Option.some.injEq] at hgs
  subst hgs
  have := windGroups_margins c prop pattern reps _ gs _ x hx i s hs
  simpa using this

/-- Two groups, one of them without windings: the other is wound in order, with insulation between. -/
example : (windRectangularSections sample
      (some [{ sampleGroup with centre := (-8/1000, 0) }, { sampleGroup with members := [] }])
      (fun _ => 1/2) [0, 1] 2).returns fun secs =>
    secs.map (fun s => (s.winding, s.index)) =
      [(some 0, 0), (none, 1), (some 1, 0), (none, 3), (some 0, 1), (none, 5), (some 1, 1), (none, 7)] ∧
    (secs.map fun s => beginEdge .overlapping s).head? = some (5/1000) := by
  decide +kernel

/-- With margins of 1 mm and 2 mm for every section. -/
example : (windRectangularSections { sample with margin := fun _ => (1/1000, 2/1000) } (some [sampleGroup])
      (fun _ => 1/2) [0, 1] 1).returns fun secs => (conducting secs).map (fun s => s.dims.2) = [17/1000, 17/1000] := by
  decide +kernel

end Verif.Winding
