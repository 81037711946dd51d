import Verif.WoundWith.Props

/-! # Windings wound together are alike

Windings that do not have the same parallels, isolation side and wire are refused when sections, layers or turns are wound.
-/

namespace Verif.WoundWith

set_option linter.unusedSimpArgs false

/-- Two windings can be wound as one. -/
def Alike (a b : Winding) : Prop := a.parallels = b.parallels ∧ a.side = b.side ∧ a.wire = b.wire

/-- One of the windings that are wound together is not like another one. -/
def Unlike (ws : List Winding) : Prop :=
  ∃ (i j : Nat) (a b : Winding), ws[i]? = some a ∧ ws[j]? = some b ∧ Lists a b ∧ ¬ Alike a b

/-! ## Lemmas -/

theorem merge_alike {acc : Option Winding} {n : String} {w x : Winding} (h : merge acc n w = .ok (some x))
    (hp : 0 < w.parallels) : Alike w x ∧ ∀ a, acc = some a → 0 < a.parallels → Alike a x := by
  cases acc with
  | none =>
    simp only [merge, Res.ok.injEq, Option.some.injEq] at h
    subst h
    exact ⟨⟨rfl, rfl, rfl⟩, by simp⟩
  | some a =>
    simp only [merge] at h
    split at h
    · simp at h
    · rename_i h1
      split at h
      · simp at h
      · rename_i h2
        split at h
        · simp at h
        · rename_i h3
          simp only [Res.ok.injEq, Option.some.injEq] at h
          subst h
          refine ⟨⟨rfl, ?_, ?_⟩, ?_⟩
          · exact (not_not.mp h2).symm
          · exact (not_not.mp h3).symm
          · intro b hb hb0
            rw [Option.some.injEq] at hb
            subst hb
            refine ⟨?_, rfl, rfl⟩
            by_contra hne
            exact h1 ⟨by omega, hne⟩

theorem merge_some {acc r : Option Winding} {n : String} {w : Winding} (h : merge acc n w = .ok r) :
    ∃ x, r = some x ∧ (x.parallels = w.parallels) := by
  cases acc with
  | none =>
    simp only [merge, Res.ok.injEq] at h
    exact ⟨_, h.symm, rfl⟩
  | some a =>
    simp only [merge] at h
    split at h
    · simp at h
    · split at h
      · simp at h
      · split at h
        · simp at h
        · simp only [Res.ok.injEq] at h
          exact ⟨_, h.symm, rfl⟩

theorem mergeAll_alike {ws : List Winding} (hp : ∀ w ∈ ws, 0 < w.parallels) : ∀ {l : List Nat} {acc : Option Winding}
    {x : Winding}, mergeAll ws l acc = .ok (some x) →
    (∀ i ∈ l, ∀ w, ws[i]? = some w → Alike w x) ∧ ∀ a, acc = some a → 0 < a.parallels → Alike a x
  | [], acc, x, h => by
    simp only [mergeAll, Res.ok.injEq] at h
    subst h
    refine ⟨by simp, ?_⟩
    intro a ha _
    rw [Option.some.injEq] at ha
    subst ha
    exact ⟨rfl, rfl, rfl⟩
  | i :: rest, acc, x, h => by
    unfold mergeAll at h
    cases hw : ws[i]? with
    | none => simp [hw] at h
    | some w =>
      have hwp := hp w (List.mem_of_getElem? hw)
      rw [hw] at h
      simp only at h
      rw [res_bind_ok] at h
      obtain ⟨m, _, h⟩ := h
      rw [res_bind_ok] at h
      obtain ⟨r, hr, h⟩ := h
      obtain ⟨y, rfl, hy⟩ := merge_some hr
      obtain ⟨h1, h2⟩ := merge_alike hr hwp
      obtain ⟨h3, h4⟩ := mergeAll_alike hp h
      have hyx := h4 y rfl (by omega)
      have tr : ∀ {a : Winding}, Alike a y → Alike a x := fun ha =>
        ⟨ha.1.trans hyx.1, ha.2.1.trans hyx.2.1, ha.2.2.trans hyx.2.2⟩
      refine ⟨?_, fun a ha ha0 => tr (h2 a ha ha0)⟩
      intro j hj u hu
      rcases List.mem_cons.mp hj with rfl | hj
      · rw [hw, Option.some.injEq] at hu
        subst hu
        exact tr h1
      · exact h3 j hj u hu

/-- Merging ends with a winding, is refused, or a list names a winding that does not exist. -/
theorem mergeAll_fails {ws : List Winding} (hlead : ∀ i w, ws[i]? = some w → ∃ m, leader ws w i = .ok m) :
    ∀ {l : List Nat} {acc : Option Winding}, (∀ i ∈ l, i < ws.length) →
    mergeAll ws l acc = .throws .invalid ∨ ∃ r, mergeAll ws l acc = .ok r ∧ (l ≠ [] ∨ acc.isSome = true → r.isSome = true)
  | [], acc, _ => Or.inr ⟨acc, rfl, by simp⟩
  | i :: rest, acc, hl => by
    obtain ⟨w, hw⟩ : ∃ w, ws[i]? = some w := ⟨_, List.getElem?_eq_getElem (hl i List.mem_cons_self)⟩
    obtain ⟨m, hm⟩ := hlead i _ hw
    unfold mergeAll
    rw [hw]
    simp only [hm, Res.bind]
    cases hr : merge acc ((ws[m]?.map fun x => x.name).getD "") w with
    | ok r =>
      obtain ⟨y, rfl, _⟩ := merge_some hr
      rcases mergeAll_fails hlead (l := rest) (acc := some y) fun j hj => hl j (List.mem_cons_of_mem _ hj) with h | ⟨r, h1, h2⟩
      · exact Or.inl h
      · exact Or.inr ⟨r, h1, fun _ => h2 (Or.inr rfl)⟩
    | throws e =>
      left
      cases acc with
      | none => simp [merge] at hr
      | some a =>
        simp only [merge] at hr
        split at hr
        · simp only [Res.throws.injEq] at hr; subst hr; rfl
        · split at hr
          · simp only [Res.throws.injEq] at hr; subst hr; rfl
          · split at hr
            · simp only [Res.throws.injEq] at hr; subst hr; rfl
            · simp at hr
    | ub =>
      cases acc with
      | none => simp [merge] at hr
      | some a =>
        simp only [merge] at hr
        split at hr
        · simp at hr
        · split at hr
          · simp at hr
          · split at hr <;> simp at hr

theorem mapM_fails {α β : Type} {f : α → Res β} {e : Err} : ∀ {l : List α}, (∀ a ∈ l, f a = .throws e ∨ ∃ b, f a = .ok b) →
    (¬ ∃ r, Res.mapM f l = .ok r) → Res.mapM f l = .throws e
  | [], _, h => absurd ⟨_, rfl⟩ h
  | a :: rest, ha, h => by
    rcases ha a List.mem_cons_self with h1 | ⟨b, hb⟩
    · simp [Res.mapM, h1, Res.bind]
    · have := mapM_fails (l := rest) (fun x hx => ha x (List.mem_cons_of_mem _ hx)) (by
        rintro ⟨r, hr⟩
        exact h ⟨b :: r, mapM_cons_ok.mpr ⟨b, r, hb, hr, rfl⟩⟩)
      simp [Res.mapM, hb, this, Res.bind]

/-- Merged windings are not made from windings that are not alike. -/
theorem unlike_merged {ws : List Winding} (h : Paired ws) (hpos : ∀ w ∈ ws, 0 < w.parallels) (hu : Unlike ws) {ls : List Nat}
    (hl : leaders ws = .ok ls) : virtualWindings ws (membersOf (virtualIndexes ls)) = .throws .invalid := by
  have hlen := leaders_length hl
  apply mapM_fails
  · intro g hg
    rcases mergeAll_fails (ws := ws) (l := g) (acc := none) (fun i w hw => by
        obtain ⟨m, _, hm, _⟩ := leaders_get hl hw
        exact ⟨m, hm⟩) (fun i hi => by have := members_lt hg hi; omega) with h1 | ⟨r, h1, h2⟩
    · left; simp [h1, Res.bind]
    · right
      have := h2 (Or.inl (members_ne_nil hg))
      cases r with
      | none => simp at this
      | some x => exact ⟨x, by simp [h1, Res.bind]⟩
  · rintro ⟨vws, hv⟩
    obtain ⟨i, j, a, b, ha, hb, hab, hne⟩ := hu
    have hil := (List.getElem?_eq_some_iff.mp ha).1
    have hjl := (List.getElem?_eq_some_iff.mp hb).1
    obtain ⟨v, hvi⟩ : ∃ v, (virtualIndexes ls)[i]? = some v :=
      ⟨_, List.getElem?_eq_getElem (by rw [virtualIndexes_length]; omega)⟩
    have hvj : (virtualIndexes ls)[j]? = some v := by
      rw [← (virtualIndexes_iff h hl hil hjl).mpr ⟨a, b, ha, hb, Or.inr hab⟩, hvi]
    obtain ⟨g, hg, hig⟩ := members_of_index hvi
    have hjg := (mem_members hg j).mpr hvj
    obtain ⟨x, h1, _⟩ := virtualWindings_get hv hg
    obtain ⟨h2, _⟩ := mergeAll_alike hpos h1
    have e1 := h2 i hig a ha
    have e2 := h2 j hjg b hb
    exact hne ⟨e1.1.trans e2.1.symm, e1.2.1.trans e2.2.1.symm, e1.2.2.trans e2.2.2.symm⟩

theorem unlike_need {ws : List Winding} (hu : Unlike ws) : needsVirtualization ws = true := by
  obtain ⟨i, j, a, b, ha, hb, hab, _⟩ := hu
  unfold needsVirtualization
  rw [List.any_eq_true]
  refine ⟨a, List.mem_of_getElem? ha, ?_⟩
  unfold Lists at hab
  cases hw : a.woundWith with
  | none => simp [hw] at hab
  | some l => cases l with
    | nil => simp [hw] at hab
    | cons => simp

/-! ## C84 -/

/-- **C84.** Windings whose lists agree but that differ in parallels, isolation side or wire are not wound together:
winding sections, layers or turns is refused, and the windings, groups and descriptions are left as they were when it began. -/
theorem unlike_refused (winder : Winder) {c : Coil} (h : Paired c.windings) (hpos : ∀ w ∈ c.windings, 0 < w.parallels)
    (hu : Unlike c.windings) :
    (∀ pattern proportions, (windSections winder pattern proportions c).2 = .throws .invalid ∧
      (windSections winder pattern proportions c).1.windings = c.windings ∧
      (windSections winder pattern proportions c).1.groups = c.groups) ∧
    (c.sections ≠ none → (windLayers winder c).2 = .throws .invalid ∧ (windLayers winder c).1.windings = c.windings ∧
      (windLayers winder c).1.groups = c.groups ∧ (windLayers winder c).1.sections = c.sections) ∧
    (c.sections ≠ none → c.layers ≠ none → (windTurns winder c).2 = .throws .invalid ∧
      (windTurns winder c).1.windings = c.windings ∧ (windTurns winder c).1.groups = c.groups ∧
      (windTurns winder c).1.sections = c.sections ∧ (windTurns winder c).1.layers = c.layers) := by
  obtain ⟨ls, hl⟩ := leaders_ok h
  have hm := unlike_merged h hpos hu hl
  have hneed := unlike_need hu
  refine ⟨?_, ?_, ?_⟩
  · intro pattern proportions
    unfold windSections createMap
    simp only [hneed, if_true, hl, Res.bind, orStop, hm]
    exact ⟨trivial, trivial, trivial⟩
  · intro hs
    obtain ⟨l, hs⟩ := Option.ne_none_iff_exists'.mp hs
    unfold windLayers createMap
    simp only [hs, hneed, if_true, hl, Res.bind, orStop, hm]
    exact ⟨trivial, trivial, trivial, trivial⟩
  · intro hs hy
    obtain ⟨l, hs⟩ := Option.ne_none_iff_exists'.mp hs
    obtain ⟨l', hy⟩ := Option.ne_none_iff_exists'.mp hy
    unfold windTurns createMap
    simp only [hs, hy, hneed, if_true, hl, Res.bind, orStop, hm]
    exact ⟨trivial, trivial, trivial, trivial, trivial⟩

/-- A pair with different parallels, one with different sides and one with different wires. -/
def pair (p s w : Nat) : List Winding := [⟨"A", 3, 1, 0, 0, [], some ["B"]⟩, ⟨"B", 6, p, s, w, [], some ["A"]⟩]

example (p s w : Nat) (hp : 0 < p) (hne : p ≠ 1 ∨ s ≠ 0 ∨ w ≠ 0) :
    Paired (pair p s w) ∧ (∀ x ∈ pair p s w, 0 < x.parallels) ∧ Unlike (pair p s w) := by
  refine ⟨⟨?_, ?_, ?_, ?_⟩, ?_, ⟨0, 1, _, _, rfl, rfl, ?_, ?_⟩⟩
  · simp [Named, pair]
  · simp [pair]
  · simp [pair, Lists]
  · simp [pair, Lists]
  · simp [pair, hp]
  · simp [Lists]
  · simp only [Alike]; omega

/-- **C84.** Windings that are alike are wound as one. -/
example : (windSections plain [0, 1] [1/2, 1/2] (unwound (pair 1 0 0))).2 = .ok true := by decide +kernel

/-- The parallels of the winding before are not compared when they are zero, and those of the last are taken. -/
example : ∃ x, merge (some ⟨"A", 3, 0, 0, 0, [], none⟩) "A" ⟨"B", 6, 2, 0, 0, [], none⟩ = .ok (some x) ∧ x.parallels = 2 :=
  ⟨_, rfl, rfl⟩

end Verif.WoundWith
