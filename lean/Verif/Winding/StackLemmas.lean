import Verif.Winding.SectionsLemmas
import Mathlib.Algebra.BigOperators.Group.Finset.Basic
import Mathlib.Algebra.BigOperators.Ring.List

/-! # Where the sections of a group lie -/

namespace Verif.Winding

open Verif.Round

set_option linter.unusedSimpArgs false

/-- Size of a section along the stacking axis. -/
def extent (o : Orientation) (s : Section) : ℚ := thickness o s.dims

/-- The edge a section begins at, going the way sections are stacked: to the right when they overlap,
downwards when they are contiguous. -/
def beginEdge (o : Orientation) (s : Section) : ℚ :=
  match o with
  | .overlapping => s.centre.1 - s.dims.1 / 2
  | .contiguous => s.centre.2 + s.dims.2 / 2

/-- The edge a section ends at. -/
def endEdge (o : Orientation) (s : Section) : ℚ :=
  match o with
  | .overlapping => s.centre.1 + s.dims.1 / 2
  | .contiguous => s.centre.2 - s.dims.2 / 2

/-- Each section begins where the one before it ends, the first at `e`. -/
def StackedFrom (o : Orientation) : ℚ → List Section → Prop
  | _, [] => True
  | e, s :: rest => beginEdge o s = e ∧ StackedFrom o (endEdge o s) rest

/-- The running edge along the stacking axis. -/
def runEdge (o : Orientation) (s : St) : ℚ := thickness o s.edge

/-- The running edge across it. -/
def crossEdge (o : Orientation) (s : St) : ℚ :=
  match o with
  | .overlapping => s.edge.2
  | .contiguous => s.edge.1

theorem windSection_place {c : Ctx} {g : Group} {plan : Plan} {w : Nat} {space : ℚ} {s : St}
    {x : Section × St} (h : windSection c g plan w space s = .ok x) :
    beginEdge g.orientation x.1 = runEdge g.orientation s ∧
    runEdge g.orientation x.2 = endEdge g.orientation x.1 ∧
    extent g.orientation x.1 = space ∧ crossEdge g.orientation x.2 = crossEdge g.orientation s ∧
    x.1.winding = some w := by
  unfold windSection at h
  obtain ⟨r, hr, h⟩ := bind_ok h
  obtain ⟨_, h⟩ := ite_ok (by simp) h
  obtain ⟨_, h⟩ := ite_ok (by simp) h
  obtain ⟨_, h⟩ := ite_ok (by simp) h
  rw [Res.ok.injEq] at h
  subst h
  cases ho : g.orientation with
  | overlapping =>
    simp only [beginEdge, endEdge, runEdge, extent, crossEdge, thickness, ho]
    refine ⟨by ring, by ring, trivial, trivial, trivial⟩
  | contiguous =>
    simp only [beginEdge, endEdge, runEdge, extent, crossEdge, thickness, ho]
    refine ⟨by ring, by ring, trivial, trivial, trivial⟩

/-- The thickness the insulation between two windings takes. -/
def between (c : Ctx) (o : Orientation) (a b : Nat) : ℚ :=
  match c.insulation a b with
  | none => 0
  | some d => thickness o d

theorem windInsulation_place (c : Ctx) (g : Group) (a b k : Nat) (s : St) :
    StackedFrom g.orientation (runEdge g.orientation s) (windInsulation c g a b k s).1 ∧
    (∀ rest, StackedFrom g.orientation (runEdge g.orientation (windInsulation c g a b k s).2) rest →
      StackedFrom g.orientation (runEdge g.orientation s) ((windInsulation c g a b k s).1 ++ rest)) ∧
    crossEdge g.orientation (windInsulation c g a b k s).2 = crossEdge g.orientation s ∧
    ((windInsulation c g a b k s).1.map (extent g.orientation)).sum = between c g.orientation a b := by
  unfold windInsulation between
  cases hc : c.insulation a b with
  | none => simp [StackedFrom]
  | some d =>
    cases ho : g.orientation with
    | overlapping =>
      simp only [StackedFrom, beginEdge, endEdge, runEdge, extent, crossEdge, thickness, ho,
        List.cons_append, List.nil_append, List.map_cons, List.map_nil, List.sum_cons, List.sum_nil]
      refine ⟨⟨by ring, trivial⟩, fun rest h => ⟨by ring, ?_⟩, trivial, by ring⟩
      convert h using 1; ring
    | contiguous =>
      simp only [StackedFrom, beginEdge, endEdge, runEdge, extent, crossEdge, thickness, ho,
        List.cons_append, List.nil_append, List.map_cons, List.map_nil, List.sum_cons, List.sum_nil]
      refine ⟨⟨by ring, trivial⟩, fun rest h => ⟨by ring, ?_⟩, trivial, by ring⟩
      convert h using 1; ring

/-- Sections are stacked without gaps or overlaps. -/
theorem windEntries_stacked (c : Ctx) (g : Group) (plan : Plan) (first : Option Nat) :
    ∀ (entries : List Entry) (prev : Option Nat) (k : Nat) (s : St) (x : List Section × St),
      windEntries c g plan first entries prev k s = .ok x →
      StackedFrom g.orientation (runEdge g.orientation s) x.1
  | [], prev, k, s, x, h => by
    simp only [windEntries, Res.ok.injEq] at h
    subst h
    trivial
  | .cond w space :: rest, prev, k, s, x, h => by
    unfold windEntries at h
    obtain ⟨y, hy, h⟩ := bind_ok h
    obtain ⟨z, hz, h⟩ := bind_ok h
    simp only [Res.ok.injEq] at h
    subst h
    obtain ⟨h1, h2, _, _, _⟩ := windSection_place hy
    refine ⟨h1, ?_⟩
    rw [← h2]
    exact windEntries_stacked c g plan first rest _ _ _ z hz
  | .ins :: rest, prev, k, s, x, h => by
    unfold windEntries at h
    obtain ⟨_, h⟩ := ite_ok (by simp) h
    simp only at h
    split at h
    · obtain ⟨y, hy, h⟩ := bind_ok h
      simp only [Res.ok.injEq] at h
      subst h
      exact (windInsulation_place c g _ _ k s).2.1 _ (windEntries_stacked c g plan first rest _ _ _ y hy)
    · exact windEntries_stacked c g plan first rest _ _ s x h

/-- The insulation between neighbours of a list. -/
def gaps (c : Ctx) (o : Orientation) : List (Nat × ℚ) → ℚ
  | [] => 0
  | [_] => 0
  | a :: b :: rest => between c o a.1 b.1 + gaps c o (b :: rest)

theorem gaps_fst (c : Ctx) (o : Orientation) : ∀ l m : List (Nat × ℚ), l.map Prod.fst = m.map Prod.fst →
    gaps c o l = gaps c o m
  | [], [], _ => rfl
  | [], _ :: _, h => by simp at h
  | _ :: _, [], h => by simp at h
  | [a], [b], _ => rfl
  | [a], b :: b' :: m, h => by simp at h
  | a :: a' :: l, [b], h => by simp at h
  | a :: a' :: l, b :: b' :: m, h => by
    simp only [List.map_cons, List.cons.injEq] at h
    obtain ⟨h1, h2, h3⟩ := h
    simp only [gaps, h1, h2]
    rw [gaps_fst c o (a' :: l) (b' :: m) (by simp [h2, h3])]

/-- The space given up equals the insulation put in. -/
theorem shrink_sum (c : Ctx) (o : Orientation) (l : List (Nat × ℚ)) :
    ((shrink c.insulation o l).map Prod.snd).sum + gaps c o l = (l.map Prod.snd).sum := by
  fun_induction shrink c.insulation o l with
  | case1 => simp [gaps]
  | case2 => simp [gaps]
  | case3 a b rest h ih =>
    simp only [List.map_cons, List.sum_cons, gaps, between, h] at ih ⊢
    linarith
  | case4 a b rest d h ih =>
    rw [gaps_fst c o ((b.1, b.2 - thickness o d / 2) :: rest) (b :: rest) (by simp)] at ih
    simp only [List.map_cons, List.sum_cons, gaps, between, h] at ih ⊢
    linarith

/-- The sections of planned entries, with or without insulation after the last. -/
theorem windEntries_extent (c : Ctx) (g : Group) (plan : Plan) (first : Nat) (tail : Bool) (l : List (Nat × ℚ)) :
    ∀ (prev : Option Nat) (k : Nat) (s : St) (x : List Section × St) (last : Nat),
      (l.getLast?.map Prod.fst) = some last →
      windEntries c g plan (some first)
        (interleave c.insulation l ++ if tail then [Entry.ins] else []) prev k s = .ok x →
      (x.1.map (extent g.orientation)).sum = (l.map Prod.snd).sum + gaps c g.orientation l +
        if tail then between c g.orientation last first else 0 := by
  fun_induction interleave c.insulation l with
  | case1 => intro prev k s x last hl; simp at hl
  | case2 a =>
    intro prev k s x last hl h
    simp only [List.getLast?_singleton, Option.map_some, Option.some.injEq] at hl
    subst hl
    rw [List.cons_append, List.nil_append] at h
    unfold windEntries at h
    obtain ⟨y, hy, h⟩ := bind_ok h
    obtain ⟨z, hz, h⟩ := bind_ok h
    simp only [Res.ok.injEq] at h
    subst h
    obtain ⟨_, _, h3, _, _⟩ := windSection_place hy
    simp only [List.map_cons, List.sum_cons, h3, List.map_nil, List.sum_nil, gaps]
    cases tail with
    | false =>
      simp only [Bool.false_eq_true, if_false, windEntries, Res.ok.injEq] at hz
      subst hz
      simp
    | true =>
      rw [if_pos rfl] at hz
      unfold windEntries at hz
      obtain ⟨_, hz⟩ := ite_ok (by simp) hz
      simp only at hz
      obtain ⟨t, ht, hz⟩ := bind_ok hz
      simp only [windEntries, Res.ok.injEq] at ht hz
      subst ht
      subst hz
      simp only [List.append_nil, (windInsulation_place c g _ _ _ _).2.2.2]
      simp
  | case3 a b rest hi ih =>
    intro prev k s x last hl h
    rw [List.cons_append, List.cons_append] at h
    unfold windEntries at h
    obtain ⟨y, hy, h⟩ := bind_ok h
    obtain ⟨z, hz, h⟩ := bind_ok h
    simp only [Res.ok.injEq] at h
    subst h
    obtain ⟨_, _, h3, _, _⟩ := windSection_place hy
    unfold windEntries at hz
    obtain ⟨_, hz⟩ := ite_ok (by simp) hz
    have hnext : ∃ r, interleave c.insulation (b :: rest) ++ (if tail then [Entry.ins] else []) =
        Entry.cond b.1 b.2 :: r := by
      cases rest with
      | nil => exact ⟨_, rfl⟩
      | cons d rest' =>
        unfold interleave
        split <;> exact ⟨_, rfl⟩
    obtain ⟨r, hr⟩ := hnext
    rw [hr] at hz ih
    simp only [Entry.winding] at hz
    obtain ⟨t, ht, hz⟩ := bind_ok hz
    simp only [Res.ok.injEq] at hz
    subst hz
    have := ih _ _ _ t last (by simpa [List.getLast?_cons] using hl) ht
    simp only [List.map_cons, List.sum_cons, List.map_append, List.sum_append, h3,
      (windInsulation_place c g _ _ _ _).2.2.2, gaps] at this ⊢
    linarith
  | case4 a b rest hi ih =>
    intro prev k s x last hl h
    rw [List.cons_append] at h
    unfold windEntries at h
    obtain ⟨y, hy, h⟩ := bind_ok h
    obtain ⟨z, hz, h⟩ := bind_ok h
    simp only [Res.ok.injEq] at h
    subst h
    obtain ⟨_, _, h3, _, _⟩ := windSection_place hy
    have := ih _ _ _ z last (by simpa [List.getLast?_cons] using hl) hz
    have hb : between c g.orientation a.1 b.1 = 0 := by
      unfold between
      cases hc : c.insulation a.1 b.1 with
      | none => rfl
      | some d => simp [hc] at hi
    simp only [List.map_cons, List.sum_cons, h3, gaps, hb] at this ⊢
    linarith

/-- Rounding each space moves the sum by at most half a nanometre each. -/
theorem sum_roundFloat (l : List Nat) (f : Nat → ℚ) :
    |(l.map fun w => roundFloat (f w) 9).sum - (l.map f).sum| ≤ l.length * (1 / (2 * 10 ^ 9)) := by
  induction l with
  | nil => simp
  | cons a l ih =>
    have h := roundFloat_near (f a) 9
    simp only [List.map_cons, List.sum_cons, List.length_cons, Nat.cast_add, Nat.cast_one]
    rw [abs_le] at ih h ⊢
    constructor <;> nlinarith [ih.1, ih.2, h.1, h.2]

/-- Equal parts of each winding's space add up to the windings' spaces. -/
theorem sum_parts (pattern : List Nat) (reps : Nat) (hr : 0 < reps) (f : Nat → ℚ) :
    ((List.replicate reps pattern).flatten.map fun w => f w / ((pattern.count w * reps : Nat) : ℚ)).sum =
      (pattern.dedup.map f).sum := by
  rw [Finset.sum_list_map_count]
  have hset : (List.replicate reps pattern).flatten.toFinset = pattern.toFinset := by
    ext w
    simp only [List.mem_toFinset, List.mem_flatten, List.mem_replicate]
    constructor
    · rintro ⟨l, ⟨_, rfl⟩, hw⟩; exact hw
    · intro hw; exact ⟨pattern, ⟨by omega, rfl⟩, hw⟩
  rw [hset]
  have : ∀ w ∈ pattern.toFinset, (List.replicate reps pattern).flatten.count w •
      (f w / ((pattern.count w * reps : Nat) : ℚ)) = f w := by
    intro w hw
    have hw' : 0 < pattern.count w := List.count_pos_iff.mpr (List.mem_toFinset.mp hw)
    have hne : ((pattern.count w * reps : Nat) : ℚ) ≠ 0 := by
      have := Nat.mul_pos hw' hr
      exact_mod_cast this.ne'
    rw [count_flatten, nsmul_eq_mul, mul_div_cancel₀ _ hne]
  rw [Finset.sum_congr rfl this, ← List.sum_toFinset _ (List.nodup_dedup pattern)]
  congr 1
  ext w
  simp

/-- The part of the window a winding gets: as given, or scaled to the group when there are several. -/
def groupProp (multi : Bool) (g : Group) (prop : Nat → ℚ) (w : Nat) : ℚ :=
  if multi = true ∧ w ∈ g.members then prop w / (g.members.dedup.map prop).sum else prop w

/-- The planned entries of a group. -/
theorem planGroup_entries {c : Ctx} {g : Group} {prop : Nat → ℚ} {pattern : List Nat} {reps : Nat} {multi : Bool}
    {plan : Plan} (h : planGroup c g prop pattern reps multi true = .ok plan) :
    (multi = true → (g.members.dedup.map prop).sum ≠ 0) ∧
    ∃ ordered : List (Nat × ℚ), ordered ≠ [] ∧
      ordered = (List.replicate reps (groupPattern g pattern multi)).flatten.map (fun w =>
        (w, roundFloat (thickness g.orientation g.dims * groupProp multi g prop w /
          (((groupPattern g pattern multi).count w * reps : Nat) : ℚ)) 9)) ∧
      addInsulation c.insulation c.orientation true ordered = .ok plan.entries := by
  unfold planGroup at h
  obtain ⟨_, h⟩ := ite_ok (by simp) h
  obtain ⟨ht, h⟩ := ite_ok (by simp) h
  obtain ⟨ordered, ho, h⟩ := bind_ok h
  obtain ⟨entries, he, h⟩ := bind_ok h
  obtain ⟨styles, hs, h⟩ := bind_ok h
  rw [Res.ok.injEq] at h
  subst h
  refine ⟨fun hm h0 => ht ⟨hm, h0⟩, ordered, (addInsulation_windings he).2, ?_, he⟩
  obtain ⟨h1, _, _⟩ := orderedSections_ok ho
  rw [h1]
  unfold groupProp groupPattern
  cases hg : g.orientation <;> simp [thickness, hg]

theorem interleave_head (ins : Nat → Nat → Option (ℚ × ℚ)) (a : Nat × ℚ) (l : List (Nat × ℚ)) (t : List Entry) :
    ((interleave ins (a :: l) ++ t).head?.bind Entry.winding) = some a.1 := by
  cases l with
  | nil => rfl
  | cons b l =>
    unfold interleave
    split <;> rfl

/-- The winding a pattern begins and ends with. -/
theorem flatten_ends (pattern : List Nat) (reps : Nat) (hr : 0 < reps) :
    (List.replicate reps pattern).flatten.head? = pattern.head? ∧
    (List.replicate reps pattern).flatten.getLast? = pattern.getLast? := by
  rcases List.eq_nil_or_concat pattern with rfl | ⟨l, a, rfl⟩
  · simp
  · obtain ⟨k, rfl⟩ : ∃ k, reps = k + 1 := ⟨reps - 1, by omega⟩
    constructor
    · rw [List.replicate_succ, List.flatten_cons]
      cases l <;> simp
    · rw [List.replicate_succ', List.flatten_append]
      simp

/-- The extents of the sections of planned entries. -/
theorem entries_extent {c : Ctx} {g : Group} {prop : Nat → ℚ} {pattern : List Nat} {reps : Nat} {plan : Plan}
    (ho : g.orientation = c.orientation) (hr : 0 < reps) {a b : Nat} (hfirst : pattern.head? = some a)
    (hlast : pattern.getLast? = some b) {ordered : List (Nat × ℚ)} (hne : ordered ≠ [])
    (hord : ordered = (List.replicate reps pattern).flatten.map (fun w =>
        (w, roundFloat (thickness g.orientation g.dims * prop w / ((pattern.count w * reps : Nat) : ℚ)) 9)))
    (hadd : addInsulation c.insulation c.orientation true ordered = .ok plan.entries)
    {s : St} {x : List Section × St}
    (hx : windEntries c g plan (plan.entries.head?.bind Entry.winding) plan.entries none 0 s = .ok x) :
    |(x.1.map (extent g.orientation)).sum -
      (thickness g.orientation g.dims * (pattern.dedup.map prop).sum +
        if g.orientation = .overlapping then between c g.orientation b a else 0)| ≤
      (pattern.length * reps : Nat) * (1 / (2 * 10 ^ 9)) := by
  have hends := flatten_ends pattern reps hr
  have hfst : ordered.map Prod.fst = (List.replicate reps pattern).flatten := by
    rw [hord, List.map_map]; simp [Function.comp_def]
  obtain ⟨e, rest, rfl⟩ : ∃ e rest, ordered = e :: rest := by
    cases ordered with
    | nil => exact absurd rfl hne
    | cons e rest => exact ⟨e, rest, rfl⟩
  have he : e.1 = a := by
    have := hends.1
    rw [← hfst, hfirst] at this
    simpa using this
  have hl : ((e :: rest).getLast (by simp)).1 = b := by
    have := hends.2
    rw [← hfst, hlast, List.getLast?_map, List.getLast?_eq_some_getLast (by simp)] at this
    simpa using this
  -- what the entries are
  set body := interleave c.insulation (shrink c.insulation c.orientation (e :: rest)) with hbody
  have hsh : (shrink c.insulation c.orientation (e :: rest)).map Prod.fst = (e :: rest).map Prod.fst :=
    shrink_fst _ _ _
  obtain ⟨e', rest', hs'⟩ : ∃ e' rest', shrink c.insulation c.orientation (e :: rest) = e' :: rest' := by
    cases hc : shrink c.insulation c.orientation (e :: rest) with
    | nil => rw [hc] at hsh; simp at hsh
    | cons e' rest' => exact ⟨e', rest', rfl⟩
  have he' : e'.1 = a := by
    rw [hs'] at hsh
    simp only [List.map_cons, List.cons.injEq] at hsh
    rw [hsh.1, he]
  have hlast' : (shrink c.insulation c.orientation (e :: rest)).getLast?.map Prod.fst = some b := by
    rw [← List.getLast?_map, hsh, List.getLast?_map, List.getLast?_eq_some_getLast (by simp)]
    simpa using hl
  have hent : ∃ tail : Bool, plan.entries = body ++ (if tail then [Entry.ins] else []) ∧
      (if tail then between c g.orientation b a else 0) =
        if g.orientation = .overlapping then between c g.orientation b a else 0 := by
    unfold addInsulation at hadd
    simp only [hl, he] at hadd
    by_cases hc : (c.orientation ≠ .contiguous ∨ true = false) ∧ (c.insulation b a).isSome = true
    · rw [if_pos hc, Res.ok.injEq] at hadd
      refine ⟨true, hadd.symm, ?_⟩
      have hov : g.orientation = .overlapping := by
        rw [ho]
        cases hco : c.orientation with
        | overlapping => rfl
        | contiguous => simp [hco] at hc
      simp [hov]
    · rw [if_neg hc, Res.ok.injEq] at hadd
      refine ⟨false, by rw [← hadd]; simp [hbody], ?_⟩
      by_cases hov : g.orientation = .overlapping
      · have hn : c.insulation b a = none := by
          rw [ho] at hov
          cases hi : c.insulation b a with
          | none => rfl
          | some d => exact absurd ⟨Or.inl (by rw [hov]; simp), by rw [hi]; rfl⟩ hc
        simp [hov, between, hn]
      · simp [hov]
  obtain ⟨tail, hent, htail⟩ := hent
  rw [hent, hbody, hs', interleave_head, he', ← hs'] at hx
  have hext := windEntries_extent c g plan a tail _ none 0 s x b hlast' hx
  have hsum := shrink_sum c c.orientation (e :: rest)
  rw [gaps_fst c g.orientation _ _ hsh, ho, hsum, ← ho, htail] at hext
  rw [hext]
  have hsnd : (e :: rest).map Prod.snd = (List.replicate reps pattern).flatten.map (fun w =>
      roundFloat (thickness g.orientation g.dims * prop w / ((pattern.count w * reps : Nat) : ℚ)) 9) := by
    rw [hord, List.map_map]; rfl
  have hround := sum_roundFloat (List.replicate reps pattern).flatten
    (fun w => thickness g.orientation g.dims * prop w / ((pattern.count w * reps : Nat) : ℚ))
  rw [sum_parts pattern reps hr, List.sum_map_mul_left] at hround
  rw [hsnd, add_sub_add_right_eq_sub]
  refine le_trans hround (le_of_eq ?_)
  have hlen : (List.replicate reps pattern).flatten.length = pattern.length * reps := by
    simp [Nat.mul_comm]
  rw [hlen]

/-- The extents of the sections of a group. -/
theorem group_extent {c : Ctx} {g : Group} {prop : Nat → ℚ} {pattern : List Nat} {reps : Nat} {multi : Bool} {plan : Plan}
    (ho : g.orientation = c.orientation) (hr : 0 < reps) {a b : Nat}
    (hfirst : (groupPattern g pattern multi).head? = some a) (hlast : (groupPattern g pattern multi).getLast? = some b)
    (hp : planGroup c g prop pattern reps multi true = .ok plan) {s : St} {x : List Section × St}
    (hx : windEntries c g plan (plan.entries.head?.bind Entry.winding) plan.entries none 0 s = .ok x) :
    |(x.1.map (extent g.orientation)).sum -
      (thickness g.orientation g.dims * ((groupPattern g pattern multi).dedup.map (groupProp multi g prop)).sum +
        if g.orientation = .overlapping then between c g.orientation b a else 0)| ≤
      ((groupPattern g pattern multi).length * reps : Nat) * (1 / (2 * 10 ^ 9)) := by
  obtain ⟨_, ordered, hne, hord, hadd⟩ := planGroup_entries hp
  exact entries_extent ho hr hfirst hlast hne hord hadd hx

end Verif.Winding
