import Verif.Winding.SectionsLemmas

/-! # What cannot go wrong in the section loop -/

namespace Verif.Winding

open Verif.Round

set_option linter.unusedSimpArgs false

/-- The message of the check after the loops of `wind_by_rectangular_sections`. -/
def unassigned : String :=
  "There are unassigned parallel proportion in a rectangular section, something went wrong"

/-- The message of the check after the loops of `wind_by_round_sections`. -/
def unassignedRound : String :=
  "There are unassigned parallel proportion in a round section, something went wrong"

/-- Neither undefined behaviour, nor a NaN, nor the exceptions about unassigned turns. -/
def Safe {α : Type} (x : Res α) : Prop :=
  x ≠ .ub ∧ x ≠ .nan ∧ x ≠ .thrown unassigned ∧ x ≠ .thrown unassignedRound

theorem safe_ok {α : Type} (a : α) : Safe (Res.ok a) := by simp [Safe]
theorem safe_refused {α : Type} : Safe (Res.refused : Res α) := by simp [Safe]
theorem safe_thrown {α : Type} {m : String} (h : m ≠ unassigned ∧ m ≠ unassignedRound) : Safe (Res.thrown m : Res α) := by
  simpa [Safe] using h

theorem safe_bind {α β : Type} {x : Res α} {f : α → Res β} (hx : Safe x)
    (hf : ∀ a, x = .ok a → Safe (f a)) : Safe (x.bind f) := by
  cases x with
  | ok a => exact hf a rfl
  | refused => exact safe_refused
  | thrown m => exact safe_thrown (by simpa [Safe] using hx)
  | ub => simp [Safe] at hx
  | nan => simp [Safe] at hx

theorem safe_ite {α : Type} {p : Prop} [Decidable p] {x y : Res α} (hx : p → Safe x) (hy : ¬ p → Safe y) :
    Safe (if p then x else y) := by
  by_cases h : p
  · rw [if_pos h]; exact hx h
  · rw [if_neg h]; exact hy h

theorem sectionStyle_safe (T P n : Nat) (o : Option Style) : Safe (sectionStyle T P n o) := by
  unfold sectionStyle
  refine safe_ite (fun _ => safe_thrown (by decide)) fun _ => safe_ite (fun _ => safe_ok _) fun _ => ?_
  cases o with
  | some s => exact safe_ok _
  | none =>
    simp only
    repeat' (first | exact safe_ok _ | refine safe_ite (fun _ => safe_ok _) (fun _ => ?_))

theorem stylesOf_safe (c : Ctx) (slots : Nat → Nat) : ∀ k, Safe (stylesOf c slots k)
  | 0 => safe_ok _
  | k + 1 => safe_bind (stylesOf_safe c slots k) fun _ _ =>
      safe_bind (sectionStyle_safe _ _ _ _) fun _ _ => safe_ok _

theorem orderedSections_safe (n : Nat) (space : ℚ) (prop : Nat → ℚ) (pattern : List Nat) (reps : Nat) :
    Safe (orderedSections n space prop pattern reps) := by
  unfold orderedSections
  exact safe_ite (fun _ => safe_thrown (by decide)) fun _ =>
    safe_ite (fun _ => safe_thrown (by decide)) fun _ => safe_ok _

theorem addInsulation_safe (ins : Nat → Nat → Option (ℚ × ℚ)) (o : Orientation) (rect : Bool)
    (l : List (Nat × ℚ)) (hl : l ≠ []) : Safe (addInsulation ins o rect l) := by
  unfold addInsulation
  cases l with
  | nil => exact absurd rfl hl
  | cons a rest =>
    simp only
    exact safe_ite (fun _ => safe_ok _) (fun _ => safe_ok _)

theorem planGroup_safe (c : Ctx) (g : Group) (prop : Nat → ℚ) (pattern : List Nat) (reps : Nat)
    (multi rect : Bool) (hreps : 0 < reps) (hpat : multi = false → pattern ≠ [])
    (htot : multi = true → (g.members.dedup.map prop).sum ≠ 0) :
    Safe (planGroup c g prop pattern reps multi rect) := by
  unfold planGroup
  refine safe_ite (fun _ => safe_thrown (by decide)) fun h1 =>
    safe_ite (fun h2 => absurd h2.2 (htot h2.1)) fun _ => ?_
  refine safe_bind (orderedSections_safe _ _ _ _ _) fun ordered ho => ?_
  have hne : ordered ≠ [] := by
    obtain ⟨h3, _, _⟩ := orderedSections_ok ho
    have hgp : (if multi = true then pattern.filter (fun w => decide (w ∈ g.members)) else pattern) ≠ [] := by
      cases multi with
      | false => simpa using hpat rfl
      | true => exact fun he => h1 ⟨rfl, he⟩
    obtain ⟨k, rfl⟩ : ∃ k, reps = k + 1 := ⟨reps - 1, by omega⟩
    rw [h3, List.replicate_succ, List.flatten_cons]
    intro he
    rw [List.map_eq_nil_iff, List.append_eq_nil_iff] at he
    exact hgp he.1
  exact safe_bind (addInsulation_safe _ _ _ _ hne) fun _ _ =>
    safe_bind (stylesOf_safe _ _ _) fun _ _ => safe_ok _

theorem windEntries_safe (c : Ctx) (g : Group) (plan : Plan) (first : Option Nat) :
    ∀ (entries : List Entry) (prev : Option Nat) (k : Nat) (s : St) (k' : Nat)
      (x : List Piece × (Nat → List ℚ)),
      distribute c plan (fun _ => true) ((condWindings entries).map fun w => (w, (1 : ℚ))) s.rem s.count k' = .ok x →
      Safe (windEntries c g plan first entries prev k s)
  | [], prev, k, s, k', x, h => safe_ok _
  | .cond w space :: rest, prev, k, s, k', x, h => by
    rw [condWindings, List.map_cons] at h
    unfold distribute at h
    obtain ⟨r, hr, h⟩ := bind_ok h
    rw [if_neg (by simp)] at h
    obtain ⟨y, hy, h⟩ := bind_ok h
    unfold windEntries
    refine safe_bind ?_ fun a ha => ?_
    · unfold windSection
      rw [hr]
      exact safe_bind (safe_ok _) fun _ _ => safe_ite (fun _ => safe_refused) fun _ =>
        safe_ite (fun _ => safe_thrown (by decide)) fun _ =>
          safe_ite (fun _ => safe_thrown (by decide)) fun _ => safe_ok _
    · obtain ⟨r', hr', _, h2, h3⟩ := windSection_ok ha
      rw [hr] at hr'
      simp only [Res.ok.injEq] at hr'
      subst hr'
      rw [← h2, ← h3] at hy
      exact safe_bind (windEntries_safe c g plan first rest _ _ a.2 _ _ hy) fun _ _ => safe_ok _
  | .ins :: rest, prev, k, s, k', x, h => by
    rw [condWindings] at h
    unfold windEntries
    refine safe_ite (fun _ => safe_thrown (by decide)) fun _ => ?_
    simp only
    split
    · refine safe_bind ?_ fun _ _ => safe_ok _
      refine windEntries_safe c g plan first rest _ _ _ k' x ?_
      rw [(windInsulation_book c g _ _ k s).2.1, (windInsulation_book c g _ _ k s).2.2]
      exact h
    · exact windEntries_safe c g plan first rest _ _ s k' x h

/-- Planned windings go through the bookkeeping. -/
theorem group_succeeds {c : Ctx} {g : Group} {prop : Nat → ℚ} {pattern : List Nat} {reps : Nat}
    {multi : Bool} {plan : Plan} (hb : pattern.length * reps ≤ 2 * 10 ^ 10)
    (hT : ∀ w < c.windings, 0 < c.turns w)
    (hp : planGroup c g prop pattern reps multi true = .ok plan) {rem : Nat → List ℚ}
    {cn : Nat → List Nat} (hg : Good c rem cn) :
    ∃ x, distribute c plan (fun _ => true) ((condWindings plan.entries).map fun w => (w, (1 : ℚ))) rem
      (fun _ => 0) 0 = .ok x := by
  obtain ⟨h1, h2, h3, h4, h5⟩ := planGroup_ok hp
  have hcount : ∀ w, (condWindings plan.entries).count w ≤ 2 * 10 ^ 10 := by
    intro w
    rw [h1, count_flatten]
    exact le_trans (Nat.mul_le_mul_right _ (groupPattern_count multi g pattern w)) hb
  refine distribute_succeeds c plan _ _ _ 0 cn hg ?_ ?_
  · intro w hw
    have hmem : w ∈ groupPattern g pattern multi := by
      rw [h1] at hw
      obtain ⟨l, hl, hwl⟩ := List.mem_flatten.mp hw
      rw [(List.mem_replicate.mp hl).2] at hwl
      exact hwl
    refine ⟨hT w (h3 w hmem), ?_⟩
    rw [h4 w (List.count_pos_iff.mpr hw).ne']
    exact hcount w
  · intro w
    by_cases h0 : occ w (condWindings plan.entries) = 0
    · exact Or.inl h0
    · right
      rw [h4 w h0]; rfl

theorem windGroups_safe (c : Ctx) (prop : Nat → ℚ) (pattern : List Nat) (reps : Nat) (multi : Bool)
    (hb : pattern.length * reps ≤ 2 * 10 ^ 10) (hreps : 0 < reps) (hT : ∀ w < c.windings, 0 < c.turns w)
    (hpat : multi = false → pattern ≠ []) :
    ∀ (gs : List Group) (s : St) (cn : Nat → List Nat), Good c s.rem cn →
      (∀ g ∈ gs, multi = true → g.members ≠ [] → (g.members.dedup.map prop).sum ≠ 0) →
      Safe (windGroups c prop pattern reps multi gs s)
  | [], s, cn, hg, _ => safe_ok _
  | g :: gs, s, cn, hg, htot => by
    unfold windGroups
    refine safe_ite (fun _ => windGroups_safe c prop pattern reps multi hb hreps hT hpat gs s cn hg
      (fun g' hg' => htot g' (by simp [hg']))) fun hskip => ?_
    refine safe_bind (planGroup_safe _ _ _ _ _ _ _ hreps hpat ?_) fun plan hp => ?_
    · intro hm
      rw [mirrored_members]
      exact htot g (by simp) hm (fun he => hskip ⟨hm, he⟩)
    · obtain ⟨x, hx⟩ := group_succeeds hb hT hp hg
      refine safe_bind (windEntries_safe _ _ _ _ _ _ _ _ 0 x hx) fun y hy => ?_
      have hbook := windEntries_book _ _ _ _ _ _ _ _ 0 y.1 y.2 hy
      obtain ⟨h1, h2, h3, h4, h5⟩ := planGroup_ok hp
      obtain ⟨cn', hg', _⟩ := distribute_conserves c plan _ _ _ _ _ cn _ _ hg (by
        intro z hz
        obtain ⟨w, hw, rfl⟩ := List.mem_map.mp hz
        simp only
        rw [h4 w (List.count_pos_iff.mpr hw).ne', h1, count_flatten]
        exact le_trans (Nat.mul_le_mul_right _ (groupPattern_count multi _ pattern w)) hb) hbook
      exact safe_bind (windGroups_safe c prop pattern reps multi hb hreps hT hpat gs y.2 cn' hg'
        (fun g' hg'' => htot g' (by simp [hg'']))) fun _ _ => safe_ok _

end Verif.Winding
