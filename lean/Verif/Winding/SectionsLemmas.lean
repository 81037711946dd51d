import Verif.Winding.Sections
import Verif.Winding.SplitLemmas

/-! # The section loop: what every winding gets -/

namespace Verif.Winding

open Verif.Round

set_option linter.unusedSimpArgs false

theorem bind_ok {α β : Type} {x : Res α} {f : α → Res β} {b : β} (h : x.bind f = .ok b) :
    ∃ a, x = .ok a ∧ f a = .ok b := by
  cases x with
  | ok a => exact ⟨a, rfl, h⟩
  | refused => simp [Res.bind] at h
  | thrown m => simp [Res.bind] at h
  | ub => simp [Res.bind] at h
  | nan => simp [Res.bind] at h

theorem ite_ok {α : Type} {p : Prop} [Decidable p] {x y : Res α} {b : α} (hx : ∀ v, x ≠ .ok v)
    (h : (if p then x else y) = .ok b) : ¬ p ∧ y = .ok b := by
  by_cases hp : p
  · rw [if_pos hp] at h
    exact absurd h (hx b)
  · rw [if_neg hp] at h
    exact ⟨hp, h⟩

/-- What is left of every winding is the proportions of a count vector. -/
def Good (c : Ctx) (rem : Nat → List ℚ) (cn : Nat → List Nat) : Prop :=
  ∀ w, 0 < c.turns w → (cn w).length = c.parallels w ∧ rem w = props (c.turns w) (cn w)

theorem good_whole (c : Ctx) : Good c (whole c) (fun w => List.replicate (c.parallels w) (c.turns w)) := by
  intro w hT
  refine ⟨by simp, ?_⟩
  have : (c.turns w : ℚ) ≠ 0 := by exact_mod_cast hT.ne'
  simp [whole, props, div_self this]

/-- The conduction sections of a winding. -/
def own (w : Nat) (pieces : List Piece) : List Piece := pieces.filter fun p => p.winding == w

/-- The sections of a winding hold these counts. -/
def Holds (T : Nat) (pieces : List Piece) (rows : List (List Nat)) : Prop :=
  pieces.map Piece.props = rows.map (props T) ∧ pieces.map Piece.physical = rows.map List.sum

theorem upd_same {α : Type} (f : Nat → α) (w : Nat) (a : α) : upd f w a w = a := by simp [upd]
theorem upd_other {α : Type} (f : Nat → α) {w v : Nat} (a : α) (h : v ≠ w) : upd f w a v = f v := by
  simp [upd, h]

theorem own_cons_same {w : Nat} {p : Piece} (ps : List Piece) (h : p.winding = w) :
    own w (p :: ps) = p :: own w ps := by simp [own, h]
theorem own_cons_other {w : Nat} {p : Piece} (ps : List Piece) (h : p.winding ≠ w) :
    own w (p :: ps) = own w ps := by simp [own, h]

/-- Whatever the relative proportions, the sections and what is left add up to what there was. -/
theorem distribute_conserves (c : Ctx) (plan : Plan) (fits : Nat → Bool) :
    ∀ (l : List (Nat × ℚ)) (rem : Nat → List ℚ) (count : Nat → Nat) (k : Nat) (cn : Nat → List Nat)
      (pieces : List Piece) (rem' : Nat → List ℚ),
      Good c rem cn → (∀ x ∈ l, plan.slots x.1 ≤ 2 * 10 ^ 10) →
      distribute c plan fits l rem count k = .ok (pieces, rem') →
      ∃ cn' : Nat → List Nat, Good c rem' cn' ∧ ∀ w, 0 < c.turns w →
        ∃ rows : List (List Nat), Holds (c.turns w) (own w pieces) rows ∧
          (∀ r ∈ rows, r.length = c.parallels w) ∧
          ∀ j, column j rows + (cn' w).getD j 0 = (cn w).getD j 0
  | [], rem, count, k, cn, pieces, rem', hg, _, h => by
    simp only [distribute, Res.ok.injEq, Prod.mk.injEq] at h
    obtain ⟨rfl, rfl⟩ := h
    exact ⟨cn, hg, fun w _ => ⟨[], ⟨rfl, rfl⟩, by simp, by simp [column]⟩⟩
  | (v, rel) :: rest, rem, count, k, cn, pieces, rem', hg, hb, h => by
    unfold distribute at h
    obtain ⟨r, hr, h⟩ := bind_ok h
    split at h
    · simp at h
    obtain ⟨y, hy, h⟩ := bind_ok h
    simp only [Res.ok.injEq, Prod.mk.injEq] at h
    obtain ⟨rfl, rfl⟩ := h
    have hb' : ∀ x ∈ rest, plan.slots x.1 ≤ 2 * 10 ^ 10 := fun x hx => hb x (by simp [hx])
    by_cases hv : 0 < c.turns v
    · obtain ⟨hlen, hrem⟩ := hg v hv
      rw [hrem, ← hlen] at hr
      obtain ⟨ks, hle, rfl⟩ := split_ok hv _ _ _ _ _ _ (hb (v, rel) (by simp)) r hr
      have hg' : Good c (upd rem v (takeAway (rem v) (ks.sum, props (c.turns v) ks).2))
          (upd cn v (minus (cn v) ks)) := by
        intro w hw
        by_cases hwv : w = v
        · subst hwv
          rw [upd_same, upd_same, minus_length hle, hrem, takeAway_props _ hle]
          exact ⟨hlen, rfl⟩
        · rw [upd_other _ _ hwv, upd_other _ _ hwv]
          exact hg w hw
      obtain ⟨cn', hg'', hrows⟩ := distribute_conserves c plan fits rest _ _ _ _ y.1 y.2 hg' hb' hy
      refine ⟨cn', hg'', fun w hw => ?_⟩
      obtain ⟨rows, ⟨h1, h2⟩, h4, h3⟩ := hrows w hw
      by_cases hwv : v = w
      · subst hwv
        refine ⟨ks :: rows, ?_, ?_, ?_⟩
        · rw [own_cons_same (w := v) _ rfl]
          exact ⟨by simp [h1], by simp [h2]⟩
        · intro r hr'
          rcases List.mem_cons.mp hr' with rfl | hr'
          · rw [← hlen]; exact hle.length
          · exact h4 r hr'
        · intro j
          have h5 := h3 j
          rw [upd_same] at h5
          have h6 := (minus_getD j hle).1
          simp only [column, List.map_cons, List.sum_cons] at h5 ⊢
          omega
      · refine ⟨rows, ?_, h4, ?_⟩
        · rw [own_cons_other _ hwv]; exact ⟨h1, h2⟩
        · intro j
          have h5 := h3 j
          rwa [upd_other _ _ (Ne.symm hwv)] at h5
    · have hg' : Good c (upd rem v (takeAway (rem v) r.2)) cn := by
        intro w hw
        have hwv : w ≠ v := fun e => hv (e ▸ hw)
        rw [upd_other _ _ hwv]
        exact hg w hw
      obtain ⟨cn', hg'', hrows⟩ := distribute_conserves c plan fits rest _ _ _ _ y.1 y.2 hg' hb' hy
      refine ⟨cn', hg'', fun w hw => ?_⟩
      obtain ⟨rows, h1, h4, h3⟩ := hrows w hw
      have hwv : v ≠ w := fun e => hv (e ▸ hw)
      exact ⟨rows, by rw [own_cons_other _ hwv]; exact h1, h4, h3⟩

/-- Number of sections of `w` still to come. -/
def occ (w : Nat) (ws : List Nat) : Nat := ws.count w

/-- With the plain proportion nothing can go wrong in the bookkeeping. -/
theorem distribute_succeeds (c : Ctx) (plan : Plan) :
    ∀ (ws : List Nat) (rem : Nat → List ℚ) (count : Nat → Nat) (k : Nat) (cn : Nat → List Nat),
      Good c rem cn → (∀ w ∈ ws, 0 < c.turns w ∧ plan.slots w ≤ 2 * 10 ^ 10) →
      (∀ w, occ w ws = 0 ∨ occ w ws + count w = plan.slots w) →
      ∃ x : List Piece × (Nat → List ℚ),
        distribute c plan (fun _ => true) (ws.map fun w => (w, (1 : ℚ))) rem count k = .ok x
  | [], rem, count, k, cn, hg, _, _ => ⟨([], rem), rfl⟩
  | v :: ws, rem, count, k, cn, hg, hpos, hocc => by
    obtain ⟨hv, hslots⟩ := hpos v (by simp)
    obtain ⟨hlen, hrem⟩ := hg v hv
    have hov : occ v (v :: ws) = occ v ws + 1 := by simp [occ]
    have hcv : occ v ws + 1 + count v = plan.slots v := by
      rcases hocc v with h | h <;> omega
    have hother : ∀ w, w ≠ v → occ w (v :: ws) = occ w ws := by
      intro w hw
      simp [occ, List.count_cons, Ne.symm hw]
    have hstep := split_step hv (count v) (plan.slots v) (cn v) (plan.style v) (by omega) hslots
    have hsl : plan.slots v - count v = occ v ws + 1 := by omega
    rw [hsl, hlen, ← hrem] at hstep
    set ks := stepNat (plan.style v) (occ v ws + 1) (cn v) with hks
    have hle : Le ks (cn v) := stepNat_le _ (by omega) _
    have hg' : Good c (upd rem v (takeAway (rem v) (props (c.turns v) ks))) (upd cn v (minus (cn v) ks)) := by
      intro w hw
      by_cases hwv : w = v
      · subst hwv
        rw [upd_same, upd_same, minus_length hle, hrem, takeAway_props _ hle]
        exact ⟨hlen, rfl⟩
      · rw [upd_other _ _ hwv, upd_other _ _ hwv]
        exact hg w hw
    have hocc' : ∀ w, occ w ws = 0 ∨ occ w ws + (upd count v (count v + 1)) w = plan.slots w := by
      intro w
      by_cases hwv : w = v
      · subst hwv
        rw [upd_same]; right; omega
      · rw [upd_other _ _ hwv, ← hother w hwv]
        exact hocc w
    obtain ⟨x, h1⟩ := distribute_succeeds c plan ws _ _ (k + 1) _ hg'
      (fun w hw => hpos w (by simp [hw])) hocc'
    refine ⟨(⟨v, count v, ks.sum, props (c.turns v) ks, plan.style v⟩ :: x.1, x.2), ?_⟩
    rw [List.map_cons]
    unfold distribute
    rw [hstep]
    simp only [Res.bind]
    rw [h1]
    simp

/-- With the plain proportion, a winding goes through its slots one by one. -/
theorem distribute_winding (c : Ctx) (plan : Plan) (w : Nat) (hT : 0 < c.turns w) :
    ∀ (ws : List Nat) (rem : Nat → List ℚ) (count : Nat → Nat) (k : Nat) (cs : List Nat)
      (pieces : List Piece) (rem' : Nat → List ℚ),
      cs.length = c.parallels w → rem w = props (c.turns w) cs →
      (occ w ws = 0 ∨ occ w ws + count w = plan.slots w ∧ plan.slots w ≤ 2 * 10 ^ 10) →
      distribute c plan (fun _ => true) (ws.map fun w => (w, (1 : ℚ))) rem count k = .ok (pieces, rem') →
      rem' w = props (c.turns w) (leftNat (plan.style w) (occ w ws) cs) ∧
      Holds (c.turns w) (own w pieces) (runNat (plan.style w) (occ w ws) cs) ∧
      (own w pieces).map Piece.index = (List.range (occ w ws)).map (· + count w) ∧
      ∀ p ∈ own w pieces, p.style = plan.style w
  | [], rem, count, k, cs, pieces, rem', hlen, hrem, _, h => by
    simp only [List.map_nil, distribute, Res.ok.injEq, Prod.mk.injEq] at h
    obtain ⟨rfl, rfl⟩ := h
    exact ⟨by simpa [occ, leftNat] using hrem, by simp [occ, runNat, own, Holds], by simp [own, occ],
      by simp [own]⟩
  | v :: ws, rem, count, k, cs, pieces, rem', hlen, hrem, hocc, h => by
    rw [List.map_cons] at h
    unfold distribute at h
    obtain ⟨r, hr, h⟩ := bind_ok h
    rw [if_neg (by simp)] at h
    obtain ⟨y, hy, h⟩ := bind_ok h
    simp only [Res.ok.injEq, Prod.mk.injEq] at h
    obtain ⟨rfl, rfl⟩ := h
    by_cases hwv : v = w
    · subst hwv
      have hov : occ v (v :: ws) = occ v ws + 1 := by simp [occ]
      have hcv : occ v ws + 1 + count v = plan.slots v ∧ plan.slots v ≤ 2 * 10 ^ 10 := by
        rcases hocc with h | h
        · omega
        · exact ⟨by omega, h.2⟩
      obtain ⟨hcv, hslots⟩ := hcv
      have hstep := split_step hT (count v) (plan.slots v) cs (plan.style v) (by omega) hslots
      have hsl : plan.slots v - count v = occ v ws + 1 := by omega
      rw [hsl, hlen, ← hrem, hr] at hstep
      simp only [Res.ok.injEq] at hstep
      subst hstep
      set ks := stepNat (plan.style v) (occ v ws + 1) cs with hks
      have hle : Le ks cs := stepNat_le _ (by omega) _
      have ih := distribute_winding c plan v hT ws _ _ (k + 1) (minus cs ks) y.1 y.2
        (by rw [minus_length hle, hlen]) (by rw [upd_same, hrem, takeAway_props _ hle])
        (by rw [upd_same]; right; exact ⟨by omega, hslots⟩) hy
      obtain ⟨h1, ⟨h5, h6⟩, h7, h8⟩ := ih
      rw [upd_same] at h7
      rw [own_cons_same (w := v) _ rfl, hov]
      refine ⟨h1, ⟨?_, ?_⟩, ?_, ?_⟩
      · simp only [List.map_cons, runNat, h5]; rfl
      · simp only [List.map_cons, runNat, h6]; rfl
      · rw [List.range_succ_eq_map, List.map_cons, List.map_cons, h7]
        simp only [Nat.zero_add, List.map_map, List.cons.injEq, true_and]
        apply List.map_congr_left
        intro a _
        simp only [Function.comp]; omega
      · intro p hp
        rcases List.mem_cons.mp hp with rfl | hp
        · rfl
        · exact h8 p hp
    · have hother : occ w (v :: ws) = occ w ws := by
        simp [occ, List.count_cons, hwv]
      have ih := distribute_winding c plan w hT ws _ _ (k + 1) cs y.1 y.2 hlen
        (by rw [upd_other _ _ (Ne.symm hwv)]; exact hrem)
        (by rw [upd_other _ _ (Ne.symm hwv), ← hother]; exact hocc) hy
      rw [upd_other _ _ (Ne.symm hwv)] at ih
      rw [own_cons_other _ hwv, hother]
      exact ih

/-! ## Planned entries -/

theorem shrink_fst (ins : Nat → Nat → Option (ℚ × ℚ)) (o : Orientation) (l : List (Nat × ℚ)) :
    (shrink ins o l).map Prod.fst = l.map Prod.fst := by
  fun_induction shrink ins o l with
  | case1 => rfl
  | case2 => rfl
  | case3 a b rest h ih => simp only [List.map_cons] at ih ⊢; rw [ih]
  | case4 a b rest d h ih => simp only [List.map_cons] at ih ⊢; rw [ih]

theorem condWindings_interleave (ins : Nat → Nat → Option (ℚ × ℚ)) (l : List (Nat × ℚ)) :
    condWindings (interleave ins l) = l.map Prod.fst := by
  fun_induction interleave ins l with
  | case1 => rfl
  | case2 => rfl
  | case3 a b rest h ih => simp [condWindings, ih]
  | case4 a b rest h ih => simp [condWindings, ih]

theorem condWindings_append (a b : List Entry) :
    condWindings (a ++ b) = condWindings a ++ condWindings b := by
  fun_induction condWindings a with
  | case1 => rfl
  | case2 w s rest ih => simp [condWindings, ih]
  | case3 rest ih => simp [condWindings, ih]

theorem sectionCount_eq (entries : List Entry) (w : Nat) :
    sectionCount entries w = (condWindings entries).count w := by
  unfold sectionCount
  fun_induction condWindings entries with
  | case1 => rfl
  | case2 v s rest ih => simp [List.countP_cons, List.count_cons, ih]
  | case3 rest ih => simpa [List.countP_cons] using ih

theorem addInsulation_windings {ins : Nat → Nat → Option (ℚ × ℚ)} {o : Orientation} {rect : Bool}
    {ordered : List (Nat × ℚ)} {entries : List Entry}
    (h : addInsulation ins o rect ordered = .ok entries) :
    condWindings entries = ordered.map Prod.fst ∧ ordered ≠ [] := by
  unfold addInsulation at h
  cases ordered with
  | nil => simp at h
  | cons a rest =>
    refine ⟨?_, by simp⟩
    simp only at h
    split at h
    · simp only [Res.ok.injEq] at h
      rw [← h, condWindings_append, condWindings_interleave, shrink_fst]
      simp [condWindings]
    · simp only [Res.ok.injEq] at h
      rw [← h, condWindings_interleave, shrink_fst]

theorem orderedSections_ok {windings : Nat} {space : ℚ} {prop : Nat → ℚ} {pattern : List Nat} {reps : Nat}
    {l : List (Nat × ℚ)} (h : orderedSections windings space prop pattern reps = .ok l) :
    l = (List.replicate reps pattern).flatten.map (fun w =>
      (w, roundFloat (space * prop w / ((pattern.count w * reps : Nat) : ℚ)) 9)) ∧
    (∀ w ∈ pattern, w < windings) ∧
    ∀ w ∈ (List.replicate reps pattern).flatten, roundFloat (prop w) 6 ≤ 1 := by
  unfold orderedSections at h
  split at h
  · simp at h
  · rename_i h1
    simp only at h
    split at h
    · simp at h
    · rename_i h2
      simp only [Res.ok.injEq] at h
      refine ⟨h.symm, fun w hw => ?_, fun w hw => ?_⟩
      · by_contra hc
        exact h1 ⟨w, hw, by omega⟩
      · by_contra hc
        exact h2 ⟨w, hw, not_le.mp hc⟩

theorem stylesOf_ok (c : Ctx) (slots : Nat → Nat) : ∀ (k : Nat) (ss : List Style),
    stylesOf c slots k = .ok ss → ss.length = k ∧ ∀ w < k,
      sectionStyle (c.turns w) (c.parallels w) (slots w) (c.override w) = .ok (ss.getD w .turns)
  | 0, ss, h => by
    simp only [stylesOf, Res.ok.injEq] at h
    subst h
    exact ⟨rfl, fun w hw => absurd hw (by omega)⟩
  | k + 1, ss, h => by
    unfold stylesOf at h
    obtain ⟨a, ha, h⟩ := bind_ok h
    obtain ⟨s, hs, h⟩ := bind_ok h
    simp only [Res.ok.injEq] at h
    subst h
    obtain ⟨hl, hw⟩ := stylesOf_ok c slots k a ha
    refine ⟨by simp [hl], fun w hlt => ?_⟩
    by_cases hwk : w = k
    · subst hwk
      rw [hs]
      simp [List.getD, hl]
    · rw [hw w (by omega)]
      simp [List.getD, List.getElem?_append, hl, show w < k by omega]

/-- The pattern a group is wound with. -/
def groupPattern (g : Group) (pattern : List Nat) (multi : Bool) : List Nat :=
  if multi then pattern.filter (fun w => decide (w ∈ g.members)) else pattern

/-- What a successful plan consists of. -/
theorem planGroup_ok {c : Ctx} {g : Group} {prop : Nat → ℚ} {pattern : List Nat} {reps : Nat}
    {multi rect : Bool} {plan : Plan} (h : planGroup c g prop pattern reps multi rect = .ok plan) :
    condWindings plan.entries = (List.replicate reps (groupPattern g pattern multi)).flatten ∧
    condWindings plan.entries ≠ [] ∧
    (∀ w ∈ groupPattern g pattern multi, w < c.windings) ∧
    (∀ w, (condWindings plan.entries).count w ≠ 0 → plan.slots w = (condWindings plan.entries).count w) ∧
    ∀ w < c.windings,
      sectionStyle (c.turns w) (c.parallels w) (plan.slots w) (c.override w) = .ok (plan.style w) := by
  unfold planGroup at h
  obtain ⟨_, h⟩ := ite_ok (by simp) h
  obtain ⟨_, h⟩ := ite_ok (by simp) h
  obtain ⟨ordered, ho, h⟩ := bind_ok h
  obtain ⟨entries, he, h⟩ := bind_ok h
  obtain ⟨styles, hs, h⟩ := bind_ok h
  simp only [Res.ok.injEq] at h
  subst h
  obtain ⟨h1, h2, h3⟩ := orderedSections_ok ho
  obtain ⟨h4, h5⟩ := addInsulation_windings he
  obtain ⟨h6, h7⟩ := stylesOf_ok c _ _ _ hs
  have h8 : condWindings entries = (List.replicate reps (groupPattern g pattern multi)).flatten := by
    rw [h4, h1, List.map_map]
    simp only [Function.comp_def, List.map_id']
    rfl
  refine ⟨h8, ?_, ?_, ?_, h7⟩
  · simp only
    rw [h4]
    simpa using h5
  · exact h2
  · intro w hw
    simp only
    rw [sectionCount_eq, if_pos hw]

theorem count_flatten (w : Nat) (pattern : List Nat) (reps : Nat) :
    (List.replicate reps pattern).flatten.count w = pattern.count w * reps := by
  induction reps with
  | zero => simp
  | succ n ih =>
    rw [List.replicate_succ, List.flatten_cons, List.count_append, ih]
    ring

/-! ## The section loop and the bookkeeping -/

/-- The bookkeeping part of a section. -/
def Section.piece (s : Section) : Option Piece :=
  s.winding.map fun w =>
    { winding := w, index := s.index, physical := s.physical, props := s.props, style := s.style }

theorem windSection_ok {c : Ctx} {g : Group} {plan : Plan} {w : Nat} {space : ℚ} {s : St}
    {x : Section × St} (h : windSection c g plan w space s = .ok x) :
    ∃ r : Nat × List ℚ,
      split (s.count w) (plan.slots w) (c.turns w) (c.parallels w) (s.rem w) (plan.style w) = .ok r ∧
      x.1.piece = some ⟨w, s.count w, r.1, r.2, plan.style w⟩ ∧
      x.2.rem = upd s.rem w (takeAway (s.rem w) r.2) ∧ x.2.count = upd s.count w (s.count w + 1) := by
  unfold windSection at h
  obtain ⟨r, hr, h⟩ := bind_ok h
  refine ⟨r, hr, ?_⟩
  obtain ⟨_, h⟩ := ite_ok (by simp) h
  obtain ⟨_, h⟩ := ite_ok (by simp) h
  obtain ⟨_, h⟩ := ite_ok (by simp) h
  rw [Res.ok.injEq] at h
  subst h
  exact ⟨rfl, rfl, rfl⟩

theorem windInsulation_book (c : Ctx) (g : Group) (a b k : Nat) (s : St) :
    (windInsulation c g a b k s).1.filterMap Section.piece = [] ∧
    (windInsulation c g a b k s).2.rem = s.rem ∧ (windInsulation c g a b k s).2.count = s.count := by
  unfold windInsulation
  split <;> simp [Section.piece]

/-- The conduction sections are what the bookkeeping alone produces. -/
theorem windEntries_book (c : Ctx) (g : Group) (plan : Plan) (first : Option Nat) :
    ∀ (entries : List Entry) (prev : Option Nat) (k : Nat) (s : St) (k' : Nat) (secs : List Section) (s' : St),
      windEntries c g plan first entries prev k s = .ok (secs, s') →
      distribute c plan (fun _ => true) ((condWindings entries).map fun w => (w, (1 : ℚ))) s.rem s.count k' =
        .ok (secs.filterMap Section.piece, s'.rem)
  | [], prev, k, s, k', secs, s', h => by
    simp only [windEntries, Res.ok.injEq, Prod.mk.injEq] at h
    obtain ⟨rfl, rfl⟩ := h
    simp [condWindings, distribute]
  | .cond w space :: rest, prev, k, s, k', secs, s', h => by
    unfold windEntries at h
    obtain ⟨x, hx, h⟩ := bind_ok h
    obtain ⟨y, hy, h⟩ := bind_ok h
    simp only [Res.ok.injEq, Prod.mk.injEq] at h
    obtain ⟨rfl, rfl⟩ := h
    obtain ⟨r, hr, h1, h2, h3⟩ := windSection_ok hx
    have ih := windEntries_book c g plan first rest (some w) (k + 1) x.2 (k' + 1) y.1 y.2 hy
    rw [h2, h3] at ih
    rw [condWindings, List.map_cons, List.filterMap_cons, h1]
    unfold distribute
    rw [hr]
    simp only [Res.bind, if_neg (show ¬ true = false by simp)]
    rw [ih]
  | .ins :: rest, prev, k, s, k', secs, s', h => by
    unfold windEntries at h
    split at h
    · simp at h
    simp only at h
    split at h
    · obtain ⟨y, hy, h⟩ := bind_ok h
      simp only [Res.ok.injEq, Prod.mk.injEq] at h
      obtain ⟨rfl, rfl⟩ := h
      have ih := windEntries_book c g plan first rest none (k + 1) _ k' y.1 y.2 hy
      rw [(windInsulation_book c g _ _ k s).2.1, (windInsulation_book c g _ _ k s).2.2] at ih
      rw [condWindings, List.filterMap_append, (windInsulation_book c g _ _ k s).1, ih]
      simp
    · rw [condWindings]
      exact windEntries_book c g plan first rest none (k + 1) s k' secs s' h

/-! ## Groups -/

theorem stepNat_length (style : Style) {m : Nat} (hm : 0 < m) (cs : List Nat) :
    (stepNat style m cs).length = cs.length := (stepNat_le style hm cs).length

theorem runNat_rows (style : Style) : ∀ (m : Nat) (cs : List Nat), ∀ r ∈ runNat style m cs,
    r.length = cs.length
  | 0, cs, r, h => by simp [runNat] at h
  | m + 1, cs, r, h => by
    rw [runNat] at h
    rcases List.mem_cons.mp h with rfl | h
    · exact stepNat_length style (by omega) cs
    · rw [runNat_rows style m _ r h, minus_length (stepNat_le style (by omega) cs)]

theorem mirrored_members (multi : Bool) (g : Group) : (mirrored multi g).members = g.members := by
  unfold mirrored; split <;> rfl

theorem groupPattern_mirrored (multi : Bool) (g : Group) (pattern : List Nat) :
    groupPattern (mirrored multi g) pattern multi = groupPattern g pattern multi := by
  unfold groupPattern; rw [mirrored_members]

theorem groupPattern_count (multi : Bool) (g : Group) (pattern : List Nat) (w : Nat) :
    (groupPattern g pattern multi).count w ≤ pattern.length := by
  unfold groupPattern
  split
  · exact le_trans List.count_le_length (List.length_filter_le _ _)
  · exact List.count_le_length

theorem own_append (w : Nat) (a b : List Piece) : own w (a ++ b) = own w a ++ own w b := by
  simp [own]

theorem Holds.append {T : Nat} {a b : List Piece} {r t : List (List Nat)} (h1 : Holds T a r)
    (h2 : Holds T b t) : Holds T (a ++ b) (r ++ t) :=
  ⟨by simp [h1.1, h2.1], by simp [h1.2, h2.2]⟩

theorem column_append (j : Nat) (a b : List (List Nat)) : column j (a ++ b) = column j a + column j b := by
  simp [column]

/-- One group: what a winding gets. -/
theorem group_winding {c : Ctx} {g : Group} {prop : Nat → ℚ} {pattern : List Nat} {reps : Nat} {multi : Bool}
    {plan : Plan} {w : Nat} (hT : 0 < c.turns w) (hb : pattern.length * reps ≤ 2 * 10 ^ 10)
    (hp : planGroup c g prop pattern reps multi true = .ok plan) {s : St} {x : List Section × St}
    {first : Option Nat}
    (hx : windEntries c g plan first plan.entries none 0 s = .ok x) (hs : s.count = fun _ => 0)
    {cs : List Nat} (hlen : cs.length = c.parallels w) (hrem : s.rem w = props (c.turns w) cs) :
    x.2.rem w = props (c.turns w) (leftNat (plan.style w) ((groupPattern g pattern multi).count w * reps) cs) ∧
    Holds (c.turns w) (own w (x.1.filterMap Section.piece))
      (runNat (plan.style w) ((groupPattern g pattern multi).count w * reps) cs) ∧
    (own w (x.1.filterMap Section.piece)).map Piece.index =
      List.range ((groupPattern g pattern multi).count w * reps) ∧
    ∀ p ∈ own w (x.1.filterMap Section.piece), p.style = plan.style w := by
  obtain ⟨h1, h2, h3, h4, h5⟩ := planGroup_ok hp
  have hbook := windEntries_book c g plan first plan.entries none 0 s 0 x.1 x.2 hx
  have hocc : occ w (condWindings plan.entries) = (groupPattern g pattern multi).count w * reps := by
    rw [h1]; exact count_flatten _ _ _
  have hle : (groupPattern g pattern multi).count w * reps ≤ 2 * 10 ^ 10 :=
    le_trans (Nat.mul_le_mul_right _ (groupPattern_count multi g pattern w)) hb
  have hslot : occ w (condWindings plan.entries) = 0 ∨
      occ w (condWindings plan.entries) + s.count w = plan.slots w ∧ plan.slots w ≤ 2 * 10 ^ 10 := by
    by_cases h0 : occ w (condWindings plan.entries) = 0
    · exact Or.inl h0
    · right
      have := h4 w h0
      rw [this, hs]
      refine ⟨rfl, ?_⟩
      rw [← hocc] at hle
      exact hle
  have := distribute_winding c plan w hT _ _ _ 0 cs _ _ hlen hrem hslot hbook
  rw [hocc, hs] at this
  simpa using this

/-- All groups: what a winding gets, and that it is all of it if any group winds it. -/
theorem windGroups_winding (c : Ctx) (prop : Nat → ℚ) (pattern : List Nat) (reps : Nat) (multi : Bool) (w : Nat)
    (hT : 0 < c.turns w) (hb : pattern.length * reps ≤ 2 * 10 ^ 10) :
    ∀ (gs : List Group) (s : St) (x : List Section × St) (cs : List Nat),
      cs.length = c.parallels w → s.rem w = props (c.turns w) cs →
      windGroups c prop pattern reps multi gs s = .ok x →
      ∃ (rows : List (List Nat)) (cs' : List Nat), cs'.length = c.parallels w ∧
        x.2.rem w = props (c.turns w) cs' ∧
        Holds (c.turns w) (own w (x.1.filterMap Section.piece)) rows ∧
        (∀ r ∈ rows, r.length = c.parallels w) ∧
        (∀ j, column j rows + cs'.getD j 0 = cs.getD j 0) ∧
        (cs' = List.replicate (c.parallels w) 0 ∨ cs' = cs) ∧
        ((∃ g ∈ gs, w ∈ groupPattern g pattern multi ∧ (multi = true → g.members ≠ [])) →
          cs' = List.replicate (c.parallels w) 0)
  | [], s, x, cs, hlen, hrem, h => by
    simp only [windGroups, Res.ok.injEq] at h
    subst h
    exact ⟨[], cs, hlen, hrem, ⟨rfl, rfl⟩, by simp, by simp [column], Or.inr rfl, by simp⟩
  | g :: gs, s, x, cs, hlen, hrem, h => by
    unfold windGroups at h
    by_cases hskip : multi = true ∧ g.members = []
    · rw [if_pos hskip] at h
      obtain ⟨rows, cs', h1, h2, h3, h4, h5, h6, h7⟩ :=
        windGroups_winding c prop pattern reps multi w hT hb gs s x cs hlen hrem h
      refine ⟨rows, cs', h1, h2, h3, h4, h5, h6, ?_⟩
      rintro ⟨g', hg', hw, hm⟩
      rcases List.mem_cons.mp hg' with rfl | hg'
      · exact absurd hskip.2 (hm hskip.1)
      · exact h7 ⟨g', hg', hw, hm⟩
    · rw [if_neg hskip] at h
      obtain ⟨plan, hp, h⟩ := bind_ok h
      obtain ⟨y, hy, h⟩ := bind_ok h
      obtain ⟨z, hz, h⟩ := bind_ok h
      simp only [Res.ok.injEq] at h
      subst h
      obtain ⟨a1, a2, a3, a4⟩ := group_winding (w := w) (cs := cs) hT hb hp hy rfl hlen hrem
      rw [groupPattern_mirrored] at a1 a2 a3
      set n := (groupPattern g pattern multi).count w * reps with hn
      have hleft : (leftNat (plan.style w) n cs).length = c.parallels w := by
        rcases Nat.eq_zero_or_pos n with h0 | h0
        · rw [h0]; exact hlen
        · rw [leftNat_zero _ _ _ h0]; simpa using hlen
      obtain ⟨rows, cs', h1, h2, h3, h4, h5, h6, h7⟩ :=
        windGroups_winding c prop pattern reps multi w hT hb gs y.2 z _ hleft a1 hz
      refine ⟨runNat (plan.style w) n cs ++ rows, cs', h1, h2, ?_, ?_, ?_, ?_, ?_⟩
      · rw [List.filterMap_append, own_append]
        exact a2.append h3
      · intro r hr
        rcases List.mem_append.mp hr with hr | hr
        · rw [runNat_rows _ _ _ r hr, hlen]
        · exact h4 r hr
      · intro j
        rw [column_append, Nat.add_assoc, h5 j]
        exact runNat_column _ _ _ _
      · rcases h6 with h6 | h6
        · exact Or.inl h6
        · rcases Nat.eq_zero_or_pos n with h0 | h0
          · right; rw [h6, h0]; rfl
          · left; rw [h6, leftNat_zero _ _ _ h0, hlen]
      · rintro ⟨g', hg', hw, hm⟩
        rcases List.mem_cons.mp hg' with rfl | hg'
        · have hreps : reps ≠ 0 := by
            rintro rfl
            have := planGroup_ok hp
            exact this.2.1 (by rw [this.1]; simp)
          have hpos : 0 < n := Nat.mul_pos (List.count_pos_iff.mpr hw) (Nat.pos_of_ne_zero hreps)
          rw [leftNat_zero _ _ _ hpos, hlen] at h6
          simpa using h6
        · exact h7 ⟨g', hg', hw, hm⟩

end Verif.Winding
