import Verif.Permeability.Lemmas

/-! # Lemmas on the curves through measured points -/

namespace Verif.Permeability

set_option linter.unusedSimpArgs false

/-! ## Sorting and keeping points -/

theorem mem_insertPoint {p q : ℚ × ℚ} : ∀ {l : List (ℚ × ℚ)}, q ∈ insertPoint p l ↔ q = p ∨ q ∈ l
  | [] => by simp [insertPoint]
  | r :: rest => by
    unfold insertPoint
    split
    · simp
    · simp only [List.mem_cons, mem_insertPoint (l := rest)]
      tauto

theorem mem_sortPoints {q : ℚ × ℚ} : ∀ {l : List (ℚ × ℚ)}, q ∈ sortPoints l ↔ q ∈ l
  | [] => by simp [sortPoints]
  | p :: rest => by
    unfold sortPoints
    rw [mem_insertPoint, mem_sortPoints, List.mem_cons]

theorem insertPoint_length (p : ℚ × ℚ) : ∀ l : List (ℚ × ℚ), (insertPoint p l).length = l.length + 1
  | [] => rfl
  | r :: rest => by
    unfold insertPoint
    split
    · simp
    · simp [insertPoint_length p rest]

theorem sortPoints_length : ∀ l : List (ℚ × ℚ), (sortPoints l).length = l.length
  | [] => rfl
  | p :: rest => by
    unfold sortPoints
    rw [insertPoint_length, sortPoints_length rest, List.length_cons]

theorem insertPoint_sorted (p : ℚ × ℚ) : ∀ {l : List (ℚ × ℚ)}, l.Pairwise (fun a b => a.1 ≤ b.1) →
    (insertPoint p l).Pairwise (fun a b => a.1 ≤ b.1)
  | [], _ => by simp [insertPoint]
  | r :: rest, h => by
    unfold insertPoint
    rw [List.pairwise_cons] at h
    split
    · rename_i hle
      refine List.pairwise_cons.mpr ⟨fun q hq => ?_, List.pairwise_cons.mpr h⟩
      rcases List.mem_cons.mp hq with rfl | hq
      · exact hle
      · exact le_trans hle (h.1 q hq)
    · rename_i hle
      refine List.pairwise_cons.mpr ⟨fun q hq => ?_, insertPoint_sorted p h.2⟩
      rcases mem_insertPoint.mp hq with rfl | hq
      · exact le_of_lt (not_le.mp hle)
      · exact h.1 q hq

theorem sortPoints_sorted : ∀ l : List (ℚ × ℚ), (sortPoints l).Pairwise (fun a b => a.1 ≤ b.1)
  | [] => by simp [sortPoints]
  | p :: rest => by
    unfold sortPoints
    exact insertPoint_sorted p (sortPoints_sorted rest)

/-- Distinct abscissas. -/
def Distinct (l : List (ℚ × ℚ)) : Prop := l.Pairwise fun a b => a.1 ≠ b.1

theorem insertPoint_distinct {p : ℚ × ℚ} : ∀ {l : List (ℚ × ℚ)}, (∀ q ∈ l, p.1 ≠ q.1) → Distinct l →
    Distinct (insertPoint p l)
  | [], _, _ => by simp [insertPoint, Distinct]
  | r :: rest, hp, h => by
    unfold insertPoint
    unfold Distinct at h
    rw [List.pairwise_cons] at h
    split
    · exact List.pairwise_cons.mpr ⟨hp, List.pairwise_cons.mpr h⟩
    · refine List.pairwise_cons.mpr ⟨fun q hq => ?_, insertPoint_distinct (fun q hq => hp q (List.mem_cons_of_mem _ hq)) h.2⟩
      rcases mem_insertPoint.mp hq with rfl | hq
      · exact (hp r List.mem_cons_self).symm
      · exact h.1 q hq

theorem sortPoints_distinct : ∀ {l : List (ℚ × ℚ)}, Distinct l → Distinct (sortPoints l)
  | [], _ => by simp [sortPoints, Distinct]
  | p :: rest, h => by
    unfold sortPoints
    unfold Distinct at h
    rw [List.pairwise_cons] at h
    exact insertPoint_distinct (fun q hq => h.1 q (mem_sortPoints.mp hq)) (sortPoints_distinct h.2)

theorem sortPoints_strict {l : List (ℚ × ℚ)} (h : Distinct l) : (sortPoints l).Pairwise (fun a b => a.1 < b.1) :=
  ((sortPoints_sorted l).and (sortPoints_distinct h)).imp fun ⟨h1, h2⟩ => lt_of_le_of_ne h1 h2

theorem keepAbove_mem {q : ℚ × ℚ} : ∀ {l : List (ℚ × ℚ)} {last : Option ℚ}, q ∈ keepAbove last l → q ∈ l
  | [], _, h => by simp [keepAbove] at h
  | p :: rest, last, h => by
    unfold keepAbove at h
    split at h
    · rcases List.mem_cons.mp h with rfl | h
      · exact List.mem_cons_self
      · exact List.mem_cons_of_mem _ (keepAbove_mem h)
    · exact List.mem_cons_of_mem _ (keepAbove_mem h)

theorem keepAbove_above {q : ℚ × ℚ} : ∀ {l : List (ℚ × ℚ)} {last : Option ℚ}, q ∈ keepAbove last l →
    ∀ x, last = some x → x < q.1
  | [], _, h => by simp [keepAbove] at h
  | p :: rest, last, h => by
    unfold keepAbove at h
    split at h
    · rename_i hl
      intro x hx
      subst hx
      simp only [Option.all_some, decide_eq_true_eq] at hl
      rcases List.mem_cons.mp h with rfl | h
      · exact hl
      · exact lt_trans hl (keepAbove_above h p.1 rfl)
    · exact keepAbove_above h

theorem keepAbove_strict : ∀ (l : List (ℚ × ℚ)) (last : Option ℚ), (keepAbove last l).Pairwise (fun a b => a.1 < b.1)
  | [], _ => by simp [keepAbove]
  | p :: rest, last => by
    unfold keepAbove
    split
    · exact List.pairwise_cons.mpr ⟨fun q hq => keepAbove_above hq p.1 rfl, keepAbove_strict rest _⟩
    · exact keepAbove_strict rest _

theorem keepAbove_id : ∀ {l : List (ℚ × ℚ)} {last : Option ℚ}, l.Pairwise (fun a b => a.1 < b.1) →
    (∀ x, last = some x → ∀ q ∈ l, x < q.1) → keepAbove last l = l
  | [], _, _, _ => rfl
  | p :: rest, last, h, hl => by
    rw [List.pairwise_cons] at h
    unfold keepAbove
    have hp : (last.all fun x => decide (x < p.1)) = true := by
      cases last with
      | none => rfl
      | some x => simpa using hl x rfl p List.mem_cons_self
    rw [if_pos hp, keepAbove_id h.2]
    intro x hx q hq
    simp only [Option.some.injEq] at hx
    subst hx
    exact h.1 q hq

theorem kept_id {l : List (ℚ × ℚ)} (h : Distinct l) : keepAbove none (sortPoints l) = sortPoints l :=
  keepAbove_id (sortPoints_strict h) (by simp)

theorem keepAbove_cons (p : ℚ × ℚ) (rest : List (ℚ × ℚ)) :
    keepAbove none (p :: rest) = p :: keepAbove (some p.1) rest := by
  rw [keepAbove]; rfl

theorem kept_ne_nil {l : List (ℚ × ℚ)} (h : l ≠ []) : keepAbove none (sortPoints l) ≠ [] := by
  cases hs : sortPoints l with
  | nil =>
    have := sortPoints_length l
    rw [hs] at this
    cases l with
    | nil => exact absurd rfl h
    | cons a b => simp at this
  | cons p rest => rw [keepAbove_cons]; simp

/-- A sorted list is covered: each point has the abscissa of a kept one, or of the last one kept before. -/
theorem keepAbove_covers : ∀ {l : List (ℚ × ℚ)} {last : Option ℚ}, l.Pairwise (fun a b => a.1 ≤ b.1) →
    (∀ x, last = some x → ∀ q ∈ l, x ≤ q.1) → ∀ q ∈ l, (∃ r ∈ keepAbove last l, r.1 = q.1) ∨ last = some q.1
  | [], _, _, _ => by simp
  | p :: rest, last, h, hl => by
    intro q hq
    rw [List.pairwise_cons] at h
    unfold keepAbove
    split
    · rename_i hp
      rcases List.mem_cons.mp hq with rfl | hq
      · exact Or.inl ⟨q, List.mem_cons_self, rfl⟩
      · rcases keepAbove_covers (last := some p.1) h.2 (fun x hx r hr => by
          simp only [Option.some.injEq] at hx; subst hx; exact h.1 r hr) q hq with ⟨r, hr, hrq⟩ | hr
        · exact Or.inl ⟨r, List.mem_cons_of_mem _ hr, hrq⟩
        · simp only [Option.some.injEq] at hr
          exact Or.inl ⟨p, List.mem_cons_self, hr⟩
    · rename_i hp
      cases last with
      | none => exact absurd rfl hp
      | some x =>
        simp only [Option.all_some, decide_eq_true_eq, not_lt] at hp
        rcases List.mem_cons.mp hq with rfl | hq
        · right
          rw [le_antisymm (hl x rfl q List.mem_cons_self) hp]
        · exact keepAbove_covers h.2 (fun y hy r hr => hl y hy r (List.mem_cons_of_mem _ hr)) q hq

theorem keepApart_mem {q : ℚ × ℚ} : ∀ {l : List (ℚ × ℚ)} {last : Option ℚ}, q ∈ keepApart last l → q ∈ l
  | [], _, h => by simp [keepApart] at h
  | p :: rest, last, h => by
    unfold keepApart at h
    split at h
    · rcases List.mem_cons.mp h with rfl | h
      · exact List.mem_cons_self
      · exact List.mem_cons_of_mem _ (keepApart_mem h)
    · exact List.mem_cons_of_mem _ (keepApart_mem h)

theorem keepApart_strict : ∀ {l : List (ℚ × ℚ)} {last : Option ℚ}, l.Pairwise (fun a b => a.1 ≤ b.1) →
    (∀ x, last = some x → ∀ q ∈ l, x ≤ q.1) →
    (keepApart last l).Pairwise (fun a b => a.1 < b.1) ∧ ∀ x, last = some x → ∀ q ∈ keepApart last l, x < q.1
  | [], _, _, _ => by simp [keepApart]
  | p :: rest, last, h, hl => by
    rw [List.pairwise_cons] at h
    unfold keepApart
    split
    · rename_i hp
      obtain ⟨i1, i2⟩ := keepApart_strict (last := some p.1) h.2 (fun x hx r hr => by
        simp only [Option.some.injEq] at hx; subst hx; exact h.1 r hr)
      refine ⟨List.pairwise_cons.mpr ⟨fun q hq => i2 p.1 rfl q hq, i1⟩, fun x hx q hq => ?_⟩
      subst hx
      simp only [Option.all_some, decide_eq_true_eq] at hp
      have hxp : x < p.1 := by
        refine lt_of_le_of_ne (hl x rfl p List.mem_cons_self) fun he => ?_
        subst he
        rw [sub_self, abs_zero] at hp
        norm_num at hp
      rcases List.mem_cons.mp hq with rfl | hq
      · exact hxp
      · exact lt_trans hxp (i2 p.1 rfl q hq)
    · exact keepApart_strict h.2 fun x hx q hq => hl x hx q (List.mem_cons_of_mem _ hq)

/-- Points farther apart than 1e-9. -/
def Apart (l : List (ℚ × ℚ)) : Prop := l.Pairwise fun a b => |a.1 - b.1| > 1 / 10 ^ 9

theorem apart_distinct {l : List (ℚ × ℚ)} (h : Apart l) : Distinct l :=
  h.imp fun {a b} hab he => by
    rw [he, sub_self, abs_zero] at hab
    norm_num at hab

theorem insertPoint_apart {p : ℚ × ℚ} : ∀ {l : List (ℚ × ℚ)}, (∀ q ∈ l, |p.1 - q.1| > 1 / 10 ^ 9) → Apart l →
    Apart (insertPoint p l)
  | [], _, _ => by simp [insertPoint, Apart]
  | r :: rest, hp, h => by
    unfold insertPoint
    unfold Apart at h
    rw [List.pairwise_cons] at h
    split
    · exact List.pairwise_cons.mpr ⟨hp, List.pairwise_cons.mpr h⟩
    · refine List.pairwise_cons.mpr ⟨fun q hq => ?_, insertPoint_apart (fun q hq => hp q (List.mem_cons_of_mem _ hq)) h.2⟩
      rcases mem_insertPoint.mp hq with rfl | hq
      · rw [abs_sub_comm]; exact hp r List.mem_cons_self
      · exact h.1 q hq

theorem sortPoints_apart : ∀ {l : List (ℚ × ℚ)}, Apart l → Apart (sortPoints l)
  | [], _ => by simp [sortPoints, Apart]
  | p :: rest, h => by
    unfold sortPoints
    unfold Apart at h
    rw [List.pairwise_cons] at h
    exact insertPoint_apart (fun q hq => h.1 q (mem_sortPoints.mp hq)) (sortPoints_apart h.2)

theorem keepApart_id : ∀ {l : List (ℚ × ℚ)} {last : Option ℚ}, Apart l →
    (∀ x, last = some x → ∀ q ∈ l, |q.1 - x| > 1 / 10 ^ 9) → keepApart last l = l
  | [], _, _, _ => rfl
  | p :: rest, last, h, hl => by
    unfold Apart at h
    rw [List.pairwise_cons] at h
    unfold keepApart
    have hp : (last.all fun x => decide (|p.1 - x| > 1 / 10 ^ 9)) = true := by
      cases last with
      | none => rfl
      | some x =>
        simp only [Option.all_some, decide_eq_true_eq]
        exact hl x rfl p List.mem_cons_self
    rw [if_pos hp, keepApart_id h.2]
    intro x hx q hq
    simp only [Option.some.injEq] at hx
    subst hx
    rw [abs_sub_comm]
    exact h.1 q hq

/-! ## Reading points -/

theorem abscissas_some (f : Point → Option ℚ) : ∀ (points : List Point), (∀ p ∈ points, f p ≠ none) →
    ∃ l : List (ℚ × ℚ), abscissas f points = some l ∧ l.length = points.length ∧
      (∀ p ∈ points, ∀ x, f p = some x → (x, p.value) ∈ l) ∧
      (∀ q ∈ l, ∃ p ∈ points, f p = some q.1 ∧ q.2 = p.value) ∧
      (points.Pairwise (fun a b => f a ≠ f b) → Distinct l)
  | [], _ => ⟨[], rfl, rfl, by simp, by simp, fun _ => List.Pairwise.nil⟩
  | p :: rest, h => by
    obtain ⟨l, h1, h2, h3, h4, h5⟩ := abscissas_some f rest fun q hq => h q (List.mem_cons_of_mem _ hq)
    cases hp : f p with
    | none => exact absurd hp (h p List.mem_cons_self)
    | some x =>
      refine ⟨(x, p.value) :: l, by simp [abscissas, hp, h1], by simp [h2], ?_, ?_, ?_⟩
      · intro q hq y hy
        rcases List.mem_cons.mp hq with rfl | hq
        · rw [hp, Option.some.injEq] at hy
          subst hy
          exact List.mem_cons_self
        · exact List.mem_cons_of_mem _ (h3 q hq y hy)
      · intro q hq
        rcases List.mem_cons.mp hq with rfl | hq
        · exact ⟨p, List.mem_cons_self, hp, rfl⟩
        · obtain ⟨r, hr, hr'⟩ := h4 q hq
          exact ⟨r, List.mem_cons_of_mem _ hr, hr'⟩
      · intro hd
        rw [List.pairwise_cons] at hd
        refine List.pairwise_cons.mpr ⟨fun q hq he => ?_, h5 hd.2⟩
        obtain ⟨r, hr, hr1, _⟩ := h4 q hq
        exact hd.1 r hr (by rw [hp, hr1]; simpa using he)

theorem least_le (f : Point → Option ℚ) (d : ℚ) {points : List Point} {p : Point} (hp : p ∈ points) {x : ℚ}
    (hx : f p = some x) : least f d points ≤ x := by
  have hm : x ∈ points.filterMap f := List.mem_filterMap.mpr ⟨p, hp, hx⟩
  unfold least
  cases hl : points.filterMap f with
  | nil => rw [hl] at hm; simp at hm
  | cons y rest =>
    rw [hl] at hm
    simp only
    have key : ∀ (l : List ℚ) (a : ℚ), l.foldl min a ≤ a ∧ ∀ z ∈ l, l.foldl min a ≤ z := by
      intro l
      induction l with
      | nil => intro a; simp
      | cons b l ih =>
        intro a
        obtain ⟨h1, h2⟩ := ih (min a b)
        refine ⟨le_trans h1 (min_le_left _ _), fun z hz => ?_⟩
        rcases List.mem_cons.mp hz with rfl | hz
        · exact le_trans h1 (min_le_right _ _)
        · exact h2 z hz
    rcases List.mem_cons.mp hm with rfl | hm
    · exact (key rest x).1
    · exact (key rest y).2 x hm

theorem least_mem (f : Point → Option ℚ) (d : ℚ) {points : List Point} {p : Point} (hp : p ∈ points) {x : ℚ}
    (hx : f p = some x) : ∃ q ∈ points, f q = some (least f d points) := by
  have hm : x ∈ points.filterMap f := List.mem_filterMap.mpr ⟨p, hp, hx⟩
  have key : ∀ (l : List ℚ) (a : ℚ), l.foldl min a = a ∨ l.foldl min a ∈ l := by
    intro l
    induction l with
    | nil => intro a; simp
    | cons b l ih =>
      intro a
      rcases ih (min a b) with h | h
      · rw [List.foldl_cons, h]
        rcases min_choice a b with h' | h'
        · exact Or.inl h'
        · exact Or.inr (by rw [h']; exact List.mem_cons_self)
      · exact Or.inr (List.mem_cons_of_mem _ h)
  have : least f d points ∈ points.filterMap f := by
    unfold least
    cases hl : points.filterMap f with
    | nil => rw [hl] at hm; simp at hm
    | cons y rest =>
      simp only
      rcases key rest y with h | h
      · rw [h]; exact List.mem_cons_self
      · exact List.mem_cons_of_mem _ h
  obtain ⟨q, hq, hq'⟩ := List.mem_filterMap.mp this
  exact ⟨q, hq, hq'⟩

/-- At the least value of those that have one, or without it. -/
def AtLeast (f : Point → Option ℚ) (points : List Point) (p : Point) : Prop :=
  ∀ x, f p = some x → ∀ q ∈ points, ∀ y, f q = some y → x ≤ y

theorem all_least (f : Point → Option ℚ) (d : ℚ) {points : List Point} {p : Point} (hp : p ∈ points) :
    ((f p).all fun x => decide (x ≤ least f d points)) = true ↔ AtLeast f points p := by
  unfold AtLeast
  cases hx : f p with
  | none => simp
  | some x =>
    simp only [Option.all_some, decide_eq_true_eq, Option.some.injEq, forall_eq']
    constructor
    · intro h q hq y hy
      exact le_trans h (least_le f d hq hy)
    · intro h
      obtain ⟨q, hq, hq'⟩ := least_mem f d hp hx
      exact h q hq _ hq'

theorem mem_temperaturePoints {env : Env} {points : List Point} {p : Point} :
    p ∈ temperaturePoints env points ↔
      p ∈ points ∧ AtLeast (fun p => p.frequency) points p ∧ AtLeast (fun p => p.bias) points p := by
  unfold temperaturePoints
  rw [List.mem_filter, Bool.and_eq_true]
  constructor
  · rintro ⟨h, h1, h2⟩
    exact ⟨h, (all_least (fun p => p.frequency) env.quasiStatic h).mp h1, (all_least (fun p => p.bias) 0 h).mp h2⟩
  · rintro ⟨h, h1, h2⟩
    exact ⟨h, (all_least (fun p => p.frequency) env.quasiStatic h).mpr h1, (all_least (fun p => p.bias) 0 h).mpr h2⟩

/-! ## Curves -/

/-- A spline goes through its points. -/
def Interpolates (env : Env) : Prop :=
  ∀ l : List (ℚ × ℚ), l.Pairwise (fun a b => a.1 < b.1) → 3 ≤ l.length → ∀ p ∈ l, env.spline l p.1 = p.2

theorem clampTo_mem {l : List (ℚ × ℚ)} (h : l.Pairwise (fun a b => a.1 < b.1)) {p : ℚ × ℚ} (hp : p ∈ l) :
    clampTo l p.1 = p.1 := by
  unfold clampTo
  cases l with
  | nil => simp at hp
  | cons a rest =>
    obtain ⟨b, hb⟩ : ∃ b, (a :: rest).getLast? = some b := ⟨_, List.getLast?_eq_some_getLast (by simp)⟩
    rw [List.head?_cons, hb]
    simp only
    have h1 : ¬ p.1 < a.1 := by
      rw [List.pairwise_cons] at h
      rcases List.mem_cons.mp hp with rfl | hp
      · simp
      · exact not_lt.mpr (le_of_lt (h.1 p hp))
    have h2 : ¬ b.1 < p.1 := by
      obtain ⟨ys, hys⟩ := List.getLast?_eq_some_iff.mp hb
      rw [hys] at h hp
      rw [List.pairwise_append] at h
      rcases List.mem_append.mp hp with hp | hp
      · exact not_lt.mpr (le_of_lt (h.2.2 p hp b (by simp)))
      · simp only [List.mem_singleton] at hp
        subst hp
        simp
    rw [if_neg h1, if_neg h2]

/-- The last of the abscissas bounds the others. -/
theorem clampTo_above {l : List (ℚ × ℚ)} (h : l.Pairwise (fun a b => a.1 < b.1)) {f g : ℚ} (hf : ∀ p ∈ l, p.1 ≤ f)
    (hg : ∀ p ∈ l, p.1 ≤ g) (hl : l ≠ []) : clampTo l f = clampTo l g := by
  unfold clampTo
  cases l with
  | nil => exact absurd rfl hl
  | cons a rest =>
    obtain ⟨b, hb⟩ : ∃ b, (a :: rest).getLast? = some b := ⟨_, List.getLast?_eq_some_getLast (by simp)⟩
    have hbm : b ∈ a :: rest := List.mem_of_getLast? hb
    rw [List.head?_cons, hb]
    simp only
    rw [if_neg (not_lt.mpr (hf a List.mem_cons_self)), if_neg (not_lt.mpr (hg a List.mem_cons_self))]
    have e : ∀ x, (∀ p ∈ a :: rest, p.1 ≤ x) → (if b.1 < x then b.1 else x) = b.1 := by
      intro x hx
      split
      · rfl
      · rename_i hn
        exact le_antisymm (not_lt.mp hn) (hx b hbm)
    rw [e f hf, e g hg]

theorem clampTo_below {l : List (ℚ × ℚ)} (h : l.Pairwise (fun a b => a.1 < b.1)) {f g : ℚ} (hf : ∀ p ∈ l, f ≤ p.1)
    (hg : ∀ p ∈ l, g ≤ p.1) (hl : l ≠ []) : clampTo l f = clampTo l g := by
  unfold clampTo
  cases l with
  | nil => exact absurd rfl hl
  | cons a rest =>
    obtain ⟨b, hb⟩ : ∃ b, (a :: rest).getLast? = some b := ⟨_, List.getLast?_eq_some_getLast (by simp)⟩
    have hbm : b ∈ a :: rest := List.mem_of_getLast? hb
    rw [List.head?_cons, hb]
    simp only
    have e : ∀ x, (∀ p ∈ a :: rest, x ≤ p.1) → (if x < a.1 then a.1 else if b.1 < x then b.1 else x) = a.1 := by
      intro x hx
      split
      · rfl
      · rename_i hn
        rw [if_neg (not_lt.mpr (hx b hbm))]
        exact le_antisymm (hx a List.mem_cons_self) (not_lt.mp hn)
    rw [e f hf, e g hg]

theorem temperatureCurve_ok {l : List (ℚ × ℚ)} (hl : l ≠ []) : ∃ k, temperatureCurve l = .ok k := by
  unfold temperatureCurve
  have := kept_ne_nil hl
  split
  · contradiction
  · exact ⟨_, rfl⟩
  · exact ⟨_, rfl⟩
  · exact ⟨_, rfl⟩

theorem temperatureCurve_at {env : Env} (hi : Interpolates env) {l : List (ℚ × ℚ)} (hd : Distinct l) {p : ℚ × ℚ}
    (hp : p ∈ l) : ∃ k, temperatureCurve l = .ok k ∧ k.eval env p.1 = p.2 := by
  unfold temperatureCurve
  have hs := sortPoints_strict hd
  have hm : p ∈ sortPoints l := mem_sortPoints.mpr hp
  rw [kept_id hd]
  generalize sortPoints l = s at hs hm
  match s, hs, hm with
  | [], _, hm => simp at hm
  | [a], _, hm =>
    simp only [List.mem_singleton] at hm
    subst hm
    exact ⟨_, rfl, rfl⟩
  | [a, b], hs, hm =>
    refine ⟨_, rfl, ?_⟩
    have hab : a.1 < b.1 := by simpa using hs
    simp only [Curve.eval]
    rcases List.mem_cons.mp hm with rfl | hm
    · simp
    · simp only [List.mem_singleton] at hm
      subst hm
      have : p.1 - a.1 ≠ 0 := by linarith
      field_simp
      ring
  | a :: b :: c :: rest, hs, hm => exact ⟨_, rfl, hi _ hs (by simp) p hm⟩

theorem otherCurve_at {env : Env} (hi : Interpolates env) {l : List (ℚ × ℚ)} (hd : Distinct l) (h3 : 3 ≤ l.length)
    {p : ℚ × ℚ} (hp : p ∈ l) : ∃ s, otherCurve l = .ok (.spline s) ∧ env.spline s p.1 = p.2 := by
  unfold otherCurve
  have hs := sortPoints_strict hd
  have hm : p ∈ sortPoints l := mem_sortPoints.mpr hp
  have hlen := sortPoints_length l
  rw [kept_id hd]
  generalize sortPoints l = s at hs hm hlen
  match s, hs, hm, hlen with
  | [], _, _, hlen => simp at hlen; omega
  | [a], _, _, hlen => simp at hlen; omega
  | [a, b], _, _, hlen => simp at hlen; omega
  | a :: b :: c :: rest, hs, hm, _ => exact ⟨_, rfl, hi _ hs (by simp) p hm⟩

end Verif.Permeability
