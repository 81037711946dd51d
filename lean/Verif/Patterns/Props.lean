import Verif.Patterns.Lemmas
import Mathlib.Data.List.Dedup
import Mathlib.Data.List.Permutation

/-! # Patterns and repetitions (C192, C193, C194) -/

namespace Verif.Patterns

open Verif.Filters (Outcome)

/-- A pattern that winds each of the windings once. -/
def WindsEachOnce (windings : ℕ) (p : List ℕ) : Prop := ∀ w : ℕ, p.count w = if w < windings then 1 else 0

theorem windsEachOnce_of_perm {windings : ℕ} {p : List ℕ} (h : p.Perm (List.range windings)) : WindsEachOnce windings p := by
  intro w
  rw [h.count_eq]
  split_ifs with hw
  · exact List.count_eq_one_of_mem List.nodup_range (List.mem_range.mpr hw)
  · exact List.count_eq_zero_of_not_mem (by simpa using hw)

/-! ## C192: the patterns -/

theorem getPatterns_value {sideOf : ℕ → Option ℕ} {windings : ℕ} {sides : Option (List ℕ)} {toroidal real : Bool} {ps : List (List ℕ)}
    (hw : 0 < windings) (h : getPatterns sideOf windings sides toroidal real = .value ps) :
    (∀ p ∈ ps, p.Perm (List.range windings)) ∧ 1 ≤ ps.length ∧ ps.length ≤ maximumCoilPattern := by
  simp only [getPatterns, bind_value, Outcome.value.injEq] at h
  obtain ⟨req, hreq, qs, hqs, rfl⟩ := h
  have hlen := fillSides_length hreq
  obtain ⟨un, um⟩ := used_spec req [] List.nodup_nil
  have hb : 1 ≤ patternBound (used [] req).length := le_max_left _ _
  obtain ⟨o1, o2⟩ := orders_spec hlen (patternBound (used [] req).length) (used [] req) [] un (fun s hs => (um s).mpr (.inr hs)) (by simp)
    (by simp [maximumCoilPattern])
  rw [List.length_nil, Nat.zero_add] at o2
  have hm : (6 : ℕ) = maximumCoilPattern := rfl
  obtain ⟨e1, e2, e3, _⟩ := extras_spec (requirement := req) o1 (by omega)
  have hq : (∀ p ∈ qs, p.Perm (List.range windings)) ∧ 1 ≤ qs.length ∧ qs.length ≤ maximumCoilPattern := by
    cases toroidal with
    | false =>
      simp only [Bool.false_eq_true, if_false, Outcome.value.injEq] at hqs
      subst hqs
      exact ⟨e1, by omega, e2⟩
    | true =>
      simp only [if_true, cut] at hqs
      split_ifs at hqs with hk
      simp only [Outcome.value.injEq] at hqs
      subst hqs
      refine ⟨fun p hp => e1 p (List.mem_of_mem_take hp), ?_, ?_⟩
      · rw [List.length_take]; omega
      · rw [List.length_take]; omega
  cases real with
  | false => simpa using hq
  | true =>
    obtain ⟨r1, r2, _, r4⟩ := reversals_spec qs qs hq.1 hq.1 hq.2.2
    simp only [if_true]
    exact ⟨r1, by omega, r2⟩

/-- C192. Every pattern winds each of the windings once, no more and no other. -/
theorem patterns_wind_each_once (sideOf : ℕ → Option ℕ) (windings : ℕ) (sides : Option (List ℕ)) (toroidal real : Bool) {ps : List (List ℕ)}
    (hw : 0 < windings) (h : getPatterns sideOf windings sides toroidal real = .value ps) : ∀ p ∈ ps, WindsEachOnce windings p :=
  fun p hp => windsEachOnce_of_perm ((getPatterns_value hw h).1 p hp)

/-- C192. There is at least one pattern and never more than six. -/
theorem patterns_bounded (sideOf : ℕ → Option ℕ) (windings : ℕ) (sides : Option (List ℕ)) (toroidal real : Bool) {ps : List (List ℕ)}
    (hw : 0 < windings) (h : getPatterns sideOf windings sides toroidal real = .value ps) : 1 ≤ ps.length ∧ ps.length ≤ 6 :=
  (getPatterns_value hw h).2

/-- The sides that the windings are on. -/
def sidesUsed (requirement : List ℕ) : ℕ := requirement.dedup.length

theorem used_length (requirement : List ℕ) : (used [] requirement).length = sidesUsed requirement := by
  obtain ⟨un, um⟩ := used_spec requirement [] List.nodup_nil
  apply List.Perm.length_eq
  rw [List.perm_ext_iff_of_nodup un (List.nodup_dedup _)]
  intro s
  rw [um, List.mem_dedup]
  simp

theorem factorial_bound {n : ℕ} (h : 1 ≤ n) (h7 : n ≤ 7) : max 1 (n - 1) ≤ min 6 (patternBound n) := by
  have : n = 1 ∨ n = 2 ∨ n = 3 ∨ n = 4 ∨ n = 5 ∨ n = 6 ∨ n = 7 := by omega
  rcases this with rfl | rfl | rfl | rfl | rfl | rfl | rfl <;> decide

/-- C192, the claim is false of the code: on a toroid whose windings are on eight sides or more the call is undefined, and only then. -/
theorem patterns_undefined_iff (sideOf : ℕ → Option ℕ) (windings : ℕ) (sides : Option (List ℕ)) (toroidal real : Bool) (hw : 0 < windings) :
    getPatterns sideOf windings sides toroidal real = .undefined ↔
      toroidal = true ∧ ∃ requirement : List ℕ, fillSides sideOf windings sides = .value requirement ∧ 8 ≤ sidesUsed requirement := by
  simp only [getPatterns, bind_undefined, fillSides_defined, false_or, reduceCtorEq, exists_const, and_false, or_false]
  constructor
  · rintro ⟨req, hreq, h⟩
    cases toroidal with
    | false => simp at h
    | true =>
      refine ⟨rfl, req, hreq, ?_⟩
      simp only [if_true, cut] at h
      split_ifs at h with hk
      by_contra h8
      apply hk
      have hlen := fillSides_length hreq
      obtain ⟨un, um⟩ := used_spec req [] List.nodup_nil
      obtain ⟨o1, o2⟩ := orders_spec hlen (patternBound (used [] req).length) (used [] req) [] un (fun s hs => (um s).mpr (.inr hs)) (by simp)
        (by simp [maximumCoilPattern])
      rw [List.length_nil, Nat.zero_add] at o2
      obtain ⟨_, _, e3, _⟩ := extras_spec (requirement := req) o1 (by omega)
      have hpos : 1 ≤ (used [] req).length := by
        have : 0 < req.length := by omega
        exact List.length_pos_of_mem ((um _).mpr (.inr (List.getElem_mem this)))
      have := factorial_bound hpos (by rw [used_length]; omega)
      have hm : (6 : ℕ) = maximumCoilPattern := rfl
      omega
  · rintro ⟨rfl, req, hreq, h8⟩
    refine ⟨req, hreq, ?_⟩
    have hlen := fillSides_length hreq
    obtain ⟨un, um⟩ := used_spec req [] List.nodup_nil
    obtain ⟨o1, o2⟩ := orders_spec hlen (patternBound (used [] req).length) (used [] req) [] un (fun s hs => (um s).mpr (.inr hs)) (by simp)
      (by simp [maximumCoilPattern])
    rw [List.length_nil, Nat.zero_add] at o2
    obtain ⟨_, e2, _, _⟩ := extras_spec (requirement := req) o1 (by omega)
    have hm : (6 : ℕ) = maximumCoilPattern := rfl
    rw [← used_length] at h8
    simp only [if_true, cut]
    rw [if_neg (by omega)]

/-- Eight windings, each on its side, on a toroid. -/
example : getPatterns some 8 none true false = .undefined := by decide +kernel

theorem patternOf_three_orders (requirement : List ℕ) (windings : ℕ) {a b c : ℕ} (hab : a < b) (hbc : b < c) :
    orders requirement windings (patternBound 3) [a, b, c] [] =
      [patternOf requirement windings [a, b, c], patternOf requirement windings [a, c, b], patternOf requirement windings [b, a, c]] := by
  have hac : a < c := hab.trans hbc
  have n1 : next [a, b, c] = [a, c, b] := by
    simp [next, nextPermutation, splitLast, hbc]
  have n2 : next [a, c, b] = [b, a, c] := by
    simp [next, nextPermutation, splitLast, hab, hbc.not_gt]
  have hb : patternBound 3 = 3 := by decide
  rw [hb]
  simp [orders, maximumCoilPattern, n1, n2]

/-- C192. Three sides that appear in increasing order: outside toroids, each order of the three, or its reverse, is one of the patterns. -/
theorem three_sides_covered (sideOf : ℕ → Option ℕ) (windings : ℕ) (sides : Option (List ℕ)) (real : Bool) (requirement : List ℕ)
    (hf : fillSides sideOf windings sides = .value requirement) {a b c : ℕ} (hu : used [] requirement = [a, b, c]) (hab : a < b) (hbc : b < c)
    {ps : List (List ℕ)} (h : getPatterns sideOf windings sides false real = .value ps) (order : List ℕ) (ho : order.Perm [a, b, c]) :
    patternOf requirement windings order ∈ ps ∨ patternOf requirement windings order.reverse ∈ ps := by
  simp only [getPatterns, hf, Bool.false_eq_true, if_false, Outcome.bind, hu, Outcome.value.injEq] at h
  have hlen := fillSides_length hf
  obtain ⟨un, um⟩ := used_spec requirement [] List.nodup_nil
  rw [hu] at un um
  obtain ⟨o1, o2⟩ := orders_spec hlen (patternBound 3) [a, b, c] [] un (fun s hs => (um s).mpr (.inr hs)) (by simp) (by simp [maximumCoilPattern])
  obtain ⟨e1, e2, _, e4⟩ := extras_spec (requirement := requirement) o1 (by omega)
  have hsub : ∀ p ∈ orders requirement windings (patternBound 3) [a, b, c] [], p ∈ ps := by
    intro p hp
    rw [← h]
    cases real with
    | false => exact e4 p hp
    | true => exact (reversals_spec _ _ e1 e1 e2).2.2.1 p (e4 p hp)
  rw [patternOf_three_orders requirement windings hab hbc] at hsub
  have m1 := hsub (patternOf requirement windings [a, b, c]) (by simp)
  have m2 := hsub (patternOf requirement windings [a, c, b]) (by simp)
  have m3 := hsub (patternOf requirement windings [b, a, c]) (by simp)
  have hp : order ∈ [a, b, c].permutations := List.mem_permutations.mpr ho
  have hp' : order = [a, b, c] ∨ order = [b, a, c] ∨ order = [c, b, a] ∨ order = [b, c, a] ∨ order = [c, a, b] ∨ order = [a, c, b] := by
    simpa [List.permutations, List.permutationsAux, List.permutationsAux.rec, List.permutationsAux2] using hp
  rcases hp' with rfl | rfl | rfl | rfl | rfl | rfl
  · exact .inl m1
  · exact .inl m3
  · exact .inr m1
  · exact .inr m2
  · exact .inr m3
  · exact .inl m2

/-- Its hypotheses are met: three windings, each on its side. -/
example : getPatterns some 3 none false false = .value [[0, 1, 2], [0, 2, 1], [1, 0, 2]] ∧ used [] [0, 1, 2] = [0, 1, 2] := by decide +kernel

/-- C192, the claim is false of the code when the sides do not appear in increasing order: four windings of which the first is on a side between the two
others. In no pattern is it between the others. -/
theorem sides_uncovered_counterexample : ∃ ps : List (List ℕ), getPatterns some 4 (some [1, 0, 2, 2]) false false = .value ps ∧
    ∀ p ∈ ps, p.head? = some 0 ∨ p.getLast? = some 0 :=
  ⟨[[0, 1, 2, 3], [0, 2, 3, 1], [2, 3, 1, 0], [0, 3, 2, 1]], by decide +kernel⟩

/-- C192, the claim is false of the code when the requirement names sides without windings: the same pattern is offered three times. -/
theorem patterns_repeated_counterexample : getPatterns some 1 (some [0, 1, 2]) false false = .value [[0], [0], [0]] := by decide +kernel

theorem addNew_nodup {ps : List (List ℕ)} {p : List ℕ} (h : ps.Nodup) : (addNew ps p).Nodup := by
  unfold addNew
  split_ifs with hp
  · exact h
  · rw [List.nodup_append]
    exact ⟨h, List.nodup_singleton _, fun x hx y hy => by rw [List.mem_singleton] at hy; subst hy; rintro rfl; exact hp hx⟩

/-- C192. With the geometry of real windings the reverse of every pattern is offered as well, as long as there is room for it, and after the patterns that
are offered without it. -/
theorem real_offers_reverses (sideOf : ℕ → Option ℕ) (windings : ℕ) (sides : Option (List ℕ)) (toroidal : Bool) {ps qs : List (List ℕ)}
    (h : getPatterns sideOf windings sides toroidal false = .value ps) (h' : getPatterns sideOf windings sides toroidal true = .value qs) :
    ps <+: qs ∧ (qs.length < 6 → ∀ p ∈ ps, p.reverse ∈ qs) := by
  have hq : qs = reversals ps ps := by
    simp only [getPatterns, bind_value, Outcome.value.injEq, if_true, Bool.false_eq_true, if_false] at h h'
    obtain ⟨r, hr, a, ha, rfl⟩ := h
    obtain ⟨r', hr', a', ha', rfl⟩ := h'
    rw [hr] at hr'
    simp only [Outcome.value.injEq] at hr'
    subst hr'
    rw [ha] at ha'
    simp only [Outcome.value.injEq] at ha'
    subst ha'
    rfl
  subst hq
  have key : ∀ (base acc : List (List ℕ)), acc <+: reversals base acc ∧ ((reversals base acc).length < 6 → ∀ p ∈ base, p.reverse ∈ reversals base acc) := by
    intro base
    induction base with
    | nil => intro acc; exact ⟨List.prefix_refl _, by simp⟩
    | cons b base ih =>
      intro acc
      simp only [reversals]
      split_ifs with hl
      · obtain ⟨i1, i2⟩ := ih (addNew acc b.reverse)
        have hpre : acc <+: addNew acc b.reverse := by
          unfold addNew; split_ifs
          · exact List.prefix_refl _
          · exact List.prefix_append _ _
        refine ⟨hpre.trans i1, fun hlt p hp => ?_⟩
        rcases List.mem_cons.mp hp with rfl | hp
        · exact i1.subset (addNew_self acc _)
        · exact i2 hlt p hp
      · refine ⟨List.prefix_refl _, fun hlt => ?_⟩
        exact absurd hlt (by simpa [maximumCoilPattern] using hl)
  exact key ps ps

example : getPatterns some 2 none false false = .value [[0, 1]] ∧ getPatterns some 2 none false true = .value [[0, 1], [1, 0]] := by decide +kernel

/-- C192. Windings without a side are given the one of their index, and the pattern offered first has the sides in the order they appear. -/
theorem first_pattern (sideOf : ℕ → Option ℕ) (windings : ℕ) (sides : Option (List ℕ)) (toroidal real : Bool) (requirement : List ℕ)
    (hf : fillSides sideOf windings sides = .value requirement) {ps : List (List ℕ)}
    (h : getPatterns sideOf windings sides toroidal real = .value ps) (hw : 0 < windings) :
    ps.head? = some (patternOf requirement windings (used [] requirement)) := by
  simp only [getPatterns, hf, Outcome.bind] at h
  have hb : 1 ≤ patternBound (used [] requirement).length := le_max_left _ _
  obtain ⟨k, hk⟩ : ∃ k : ℕ, patternBound (used [] requirement).length = k + 1 := ⟨_, (Nat.sub_add_cancel hb).symm⟩
  rw [hk] at h
  have hpre : [patternOf requirement windings (used [] requirement)] <+: orders requirement windings (k + 1) (used [] requirement) [] := by
    simp only [orders, List.nil_append]
    split_ifs
    · exact List.prefix_refl _
    · exact orders_prefix _ _ _ _ _
  have hadd : ∀ (xs : List (List ℕ)) (p : List ℕ), xs <+: addNew xs p := by
    intro xs p; unfold addNew; split_ifs
    · exact List.prefix_refl _
    · exact List.prefix_append _ _
  have hext : ∀ xs : List (List ℕ), xs <+: extras requirement windings xs := by
    intro xs
    have h1 : xs <+: withReversed (secondariesOf requirement windings) xs := by
      cases xs with
      | nil => exact List.prefix_refl _
      | cons b r =>
        simp only [withReversed]
        split_ifs
        · exact hadd _ _
        · exact List.prefix_refl _
    unfold extras
    split_ifs
    · refine h1.trans ?_
      unfold withSandwich
      split
      · split_ifs
        · exact hadd _ _
        · exact List.prefix_refl _
      · exact List.prefix_refl _
    · exact List.prefix_refl _
  have hrev : ∀ (base acc : List (List ℕ)), acc <+: reversals base acc := by
    intro base
    induction base with
    | nil => intro acc; exact List.prefix_refl _
    | cons b base ih =>
      intro acc; simp only [reversals]; split_ifs
      · exact (hadd _ _).trans (ih _)
      · exact List.prefix_refl _
  obtain ⟨t, ht⟩ := hpre.trans (hext _)
  rw [← ht] at h
  have hhead : ∀ (xs ys : List (List ℕ)) (p : List ℕ), xs.head? = some p → xs <+: ys → ys.head? = some p := by
    intro xs ys p hx hpre
    obtain ⟨t, rfl⟩ := hpre
    cases xs with
    | nil => simp at hx
    | cons a l => simpa using hx
  cases toroidal with
  | false =>
    simp only [Bool.false_eq_true, if_false, Outcome.value.injEq] at h
    subst h
    cases real with
    | false => rfl
    | true => exact hhead _ _ _ rfl (hrev _ _)
  | true =>
    simp only [if_true, cut] at h
    by_cases hc : max 1 ((used [] requirement).length - 1) ≤ ([patternOf requirement windings (used [] requirement)] ++ t).length
    swap
    · rw [if_neg hc] at h; simp at h
    · rw [if_pos hc] at h
      simp only [Outcome.value.injEq] at h
      subst h
      have : ∃ j : ℕ, max 1 ((used [] requirement).length - 1) = j + 1 := ⟨_, (Nat.sub_add_cancel (le_max_left 1 _)).symm⟩
      obtain ⟨j, hj⟩ := this
      rw [hj]
      cases real with
      | false => rfl
      | true => exact hhead _ _ _ (by rfl) (hrev _ _)

theorem sidesFrom_value (sideOf : ℕ → Option ℕ) : ∀ (left start : ℕ) (sides : List ℕ), sidesFrom sideOf start left = .value sides →
    sides.length = left ∧ ∀ j, j < left → sides[j]? = sideOf (start + j)
  | 0, start, sides, h => by
    simp only [sidesFrom, Outcome.value.injEq] at h
    simp [← h]
  | left + 1, start, sides, h => by
    simp only [sidesFrom] at h
    cases hs : sideOf start with
    | none => simp [hs, Outcome.take, Outcome.bind] at h
    | some s =>
      cases hr : sidesFrom sideOf (start + 1) left with
      | throws => simp [hs, hr, Outcome.take, Outcome.bind] at h
      | undefined => simp [hs, hr, Outcome.take, Outcome.bind] at h
      | value r =>
        simp only [hs, hr, Outcome.take, Outcome.bind, Outcome.value.injEq] at h
        subst h
        obtain ⟨h1, h2⟩ := sidesFrom_value sideOf left (start + 1) r hr
        refine ⟨by simp [h1], fun j hj => ?_⟩
        cases j with
        | zero => simp [hs]
        | succ j =>
          rw [List.getElem?_cons_succ, h2 j (by omega)]
          congr 1
          omega

/-- **C192.** The sides that are given are kept, and each winding without one takes that of its own index. -/
theorem sides_completed (sideOf : ℕ → Option ℕ) (windings : ℕ) (given : Option (List ℕ)) (sides : List ℕ)
    (h : fillSides sideOf windings given = .value sides) :
    (∀ j, j < (given.getD []).length → sides[j]? = (given.getD [])[j]?) ∧
      ∀ j, (given.getD []).length ≤ j → j < windings → sides[j]? = sideOf j := by
  cases given with
  | none =>
    obtain ⟨_, h2⟩ := sidesFrom_value sideOf windings 0 sides h
    refine ⟨by simp, fun j _ hj => by simpa using h2 j hj⟩
  | some l =>
    simp only [fillSides] at h
    by_cases hl : l.length < windings
    · rw [if_pos hl] at h
      cases hr : sidesFrom sideOf l.length (windings - l.length) with
      | throws => simp [hr, Outcome.bind] at h
      | undefined => simp [hr, Outcome.bind] at h
      | value r =>
        simp only [hr, Outcome.bind, Outcome.value.injEq] at h
        subst h
        obtain ⟨_, h2⟩ := sidesFrom_value sideOf _ _ r hr
        refine ⟨fun j hj => by simpa using List.getElem?_append_left (by simpa using hj), fun j h3 h4 => ?_⟩
        have h3 : l.length ≤ j := by simpa using h3
        rw [List.getElem?_append_right h3, h2 _ (by omega)]
        congr 1
        omega
    · rw [if_neg hl] at h
      simp only [Outcome.value.injEq] at h
      subst h
      exact ⟨fun j _ => rfl, fun j h3 h4 => absurd (by simpa using h3) (by omega)⟩

/-- Two windings given, the third takes the side of its index. -/
example : fillSides some 3 (some [1, 0]) = .value [1, 0, 2] ∧ getPatterns some 3 (some [1, 0]) true false = .value [[0, 1, 2], [0, 2, 1]] := by
  decide +kernel

/-! ## C193: merging what cannot be repeated -/

/-- The windings one section after another. -/
def unroll (pattern : List ℕ) (repetitions : ℕ) : List ℕ := (List.replicate repetitions pattern).flatten

/-- What is to be wound: at the `k`-th repetition (from zero) the windings of the pattern that have a turn left for it. -/
def toWind (physical pattern : List ℕ) (repetitions : ℕ) : List ℕ :=
  (List.range repetitions).flatMap fun k : ℕ => pattern.filter fun w : ℕ => decide (∃ n ∈ physical[w]?, k < n)

theorem oncePerRepetition_eq (physical : List ℕ) (repetition : ℕ) : ∀ (ws : List ℕ), (∀ w ∈ ws, w < physical.length) →
    oncePerRepetition physical repetition ws = .value (ws.filter fun w : ℕ => decide (∃ n ∈ physical[w]?, repetition ≤ n))
  | [], _ => rfl
  | w :: ws, h => by
    have hw : w < physical.length := h w (by simp)
    have i := oncePerRepetition_eq physical repetition ws fun x hx => h x (List.mem_cons_of_mem _ hx)
    simp only [oncePerRepetition, i, List.getElem?_eq_getElem hw, Outcome.index, Outcome.bind, Outcome.value.injEq]
    by_cases hn : repetition ≤ physical[w]
    · rw [if_pos hn, List.filter_cons_of_pos]
      simp [List.getElem?_eq_getElem hw, hn]
    · rw [if_neg hn, List.filter_cons_of_neg]
      simp [List.getElem?_eq_getElem hw, hn]

theorem merged_eq (physical pattern : List ℕ) (hp : ∀ w ∈ pattern, w < physical.length) : ∀ (left repetition : ℕ),
    merged physical pattern repetition left = .value ((List.range' repetition left).flatMap fun k : ℕ =>
      pattern.filter fun w : ℕ => decide (∃ n ∈ physical[w]?, k ≤ n))
  | 0, _ => rfl
  | left + 1, repetition => by
    simp only [merged, oncePerRepetition_eq physical repetition pattern hp, merged_eq physical pattern hp left (repetition + 1), Outcome.bind,
      List.range'_succ, List.flatMap_cons]

theorem merged_toWind (physical pattern : List ℕ) (hp : ∀ w ∈ pattern, w < physical.length) (repetitions : ℕ) :
    merged physical pattern 1 repetitions = .value (toWind physical pattern repetitions) := by
  rw [merged_eq physical pattern hp]
  congr 1
  unfold toWind
  rw [List.range_eq_range', List.range'_eq_map_range, List.range'_eq_map_range, List.flatMap_map, List.flatMap_map]
  congr 1
  funext k
  congr 1
  funext w
  congr 1
  apply propext
  constructor <;> rintro ⟨n, hn, hk⟩ <;> exact ⟨n, hn, by omega⟩

/-- C193. What comes back, wound as many times as it says, is what is to be wound: each winding in the order of the pattern at every repetition for
which it has a turn. -/
theorem integrity_winds (physical pattern : List ℕ) (repetitions : ℕ) (hp : ∀ w ∈ pattern, w < physical.length) :
    ∃ q r, integrity physical pattern repetitions = .value (q, r) ∧ unroll q r = toWind physical pattern repetitions := by
  unfold integrity
  by_cases h : (physical.any fun n : ℕ => decide (n < repetitions)) = true
  · rw [if_pos h, merged_toWind physical pattern hp]
    exact ⟨_, _, rfl, by simp [unroll]⟩
  · rw [if_neg h]
    refine ⟨_, _, rfl, ?_⟩
    have hall : ∀ n ∈ physical, repetitions ≤ n := by
      intro n hn
      by_contra hlt
      exact h (List.any_eq_true.mpr ⟨n, hn, by simpa using hlt⟩)
    have : ∀ k ∈ List.range repetitions, (pattern.filter fun w : ℕ => decide (∃ n ∈ physical[w]?, k < n)) = pattern := by
      intro k hk
      rw [List.filter_eq_self]
      intro w hw
      have hlt := hp w hw
      have hk' : k < repetitions := List.mem_range.mp hk
      have := hall _ (List.getElem_mem hlt)
      simp only [decide_eq_true_eq]
      exact ⟨physical[w], by simp [List.getElem?_eq_getElem hlt], by omega⟩
    unfold toWind unroll
    rw [List.flatMap, List.map_congr_left this, List.map_const', List.length_range]

/-- C193. No winding has more sections than turns to put in them: a winding of `n` physical turns that is once in the pattern is in as many sections as
repetitions were asked for, and no more than `n`. -/
theorem integrity_sections (physical pattern : List ℕ) (repetitions : ℕ) (hp : ∀ w ∈ pattern, w < physical.length) {q : List ℕ} {r : ℕ}
    (h : integrity physical pattern repetitions = .value (q, r)) (w n : ℕ) (hn : physical[w]? = some n) :
    (unroll q r).count w = min n repetitions * pattern.count w := by
  obtain ⟨q', r', h', e⟩ := integrity_winds physical pattern repetitions hp
  rw [h] at h'
  simp only [Outcome.value.injEq, Prod.mk.injEq] at h'
  obtain ⟨rfl, rfl⟩ := h'
  rw [e]
  clear e h
  unfold toWind
  induction repetitions with
  | zero => simp
  | succ m ih =>
    rw [List.range_succ, List.flatMap_append, List.count_append, ih, List.flatMap_singleton]
    by_cases hm : m < n
    · rw [List.count_filter (by simpa [hn] using hm)]
      have e1 : min n m = m := by omega
      have e2 : min n (m + 1) = m + 1 := by omega
      rw [e1, e2]; ring
    · have : (pattern.filter fun w : ℕ => decide (∃ n ∈ physical[w]?, m < n)).count w = 0 := by
        rw [List.count_eq_zero]
        intro hmem
        have := (List.mem_filter.mp hmem).2
        simp only [hn, Option.mem_def, Option.some.injEq, decide_eq_true_eq] at this
        obtain ⟨_, rfl, h⟩ := this
        exact hm h
      rw [this]
      have e1 : min n m = n := by omega
      have e2 : min n (m + 1) = n := by omega
      rw [e1, e2]; rfl

/-- C193. Asking again changes nothing. -/
theorem integrity_again (physical pattern : List ℕ) (repetitions : ℕ) (hp : ∀ w ∈ pattern, w < physical.length) {q : List ℕ} {r : ℕ}
    (h : integrity physical pattern repetitions = .value (q, r)) : integrity physical q r = .value (q, r) := by
  unfold integrity at h
  by_cases hm : (physical.any fun n : ℕ => decide (n < repetitions)) = true
  · rw [if_pos hm, merged_toWind physical pattern hp] at h
    simp only [Outcome.bind, Outcome.value.injEq, Prod.mk.injEq] at h
    obtain ⟨rfl, rfl⟩ := h
    have hmem : ∀ w ∈ toWind physical pattern repetitions, w < physical.length ∧ ∃ n ∈ physical[w]?, 0 < n := by
      intro w hw
      simp only [toWind, List.mem_flatMap, List.mem_filter, decide_eq_true_eq] at hw
      obtain ⟨k, _, hw, n, hn, hk⟩ := hw
      exact ⟨hp w hw, n, hn, by omega⟩
    unfold integrity
    by_cases h1 : (physical.any fun n : ℕ => decide (n < 1)) = true
    · rw [if_pos h1, merged_toWind physical _ fun w hw => (hmem w hw).1]
      simp only [Outcome.bind, Outcome.value.injEq, Prod.mk.injEq, and_true]
      unfold toWind
      rw [List.range_one, List.flatMap_singleton, List.filter_eq_self]
      intro w hw
      simpa using (hmem w hw).2
    · rw [if_neg h1]
  · rw [if_neg hm] at h
    simp only [Outcome.value.injEq, Prod.mk.injEq] at h
    obtain ⟨rfl, rfl⟩ := h
    unfold integrity
    rw [if_neg hm]

/-- One turn and five turns, twice: the first only once. -/
example : integrity [1, 5] [0, 1] 2 = .value ([0, 1, 1], 1) ∧ integrity [3, 5] [0, 1] 2 = .value ([0, 1], 2) := by decide +kernel

/-- C193, the claim is false of the code for a pattern with a winding the coil does not have: undefined when there is something to merge, kept as it is
when not. -/
theorem integrity_unchecked_counterexample : integrity [1, 5] [0, 2] 2 = .undefined ∧ integrity [3, 5] [0, 2] 2 = .value ([0, 2], 2) := by decide +kernel

/-! ## C194: everything is tried -/

/-- Every pattern with every number of repetitions, each as it can be wound. -/
def AllTried (physical : List ℕ) (patterns : List (List ℕ)) (repetitions : List ℕ) (l : List (List ℕ × ℕ)) : Prop :=
  ∀ r ∈ repetitions, ∀ p ∈ patterns, ∃ x ∈ l, unroll x.1 x.2 = toWind physical p r

theorem integrity_enough {physical pattern : List ℕ} {repetitions : ℕ} (h : ∀ n ∈ physical, repetitions ≤ n) :
    integrity physical pattern repetitions = .value (pattern, repetitions) := by
  unfold integrity
  rw [if_neg]
  intro hm
  obtain ⟨n, hn, hlt⟩ := List.any_eq_true.mp hm
  have := h n hn
  simp only [decide_eq_true_eq] at hlt
  omega

theorem triedPatterns_enough {physical : List ℕ} {repetitions : ℕ} (h : ∀ n ∈ physical, repetitions ≤ n) :
    ∀ ps : List (List ℕ), triedPatterns physical ps repetitions = .value (ps.map fun p => (p, repetitions))
  | [] => rfl
  | p :: ps => by
    simp only [triedPatterns, integrity_enough h, Outcome.bind, triedPatterns_enough h ps, List.map_cons]

/-- C194. When every winding has turns for each number of repetitions, every pattern is tried with every number of them. What is missing for the claim:
windings of fewer turns. -/
theorem all_tried_partial (physical : List ℕ) (patterns : List (List ℕ)) : ∀ (repetitions : List ℕ), (∀ r ∈ repetitions, ∀ n ∈ physical, r ≤ n) →
    (∀ p ∈ patterns, ∀ w ∈ p, w < physical.length) →
    ∃ l, tried physical patterns repetitions = .value l ∧ AllTried physical patterns repetitions l
  | [], _, _ => ⟨[], rfl, by intro r hr; simp at hr⟩
  | r :: rs, h, hp => by
    obtain ⟨l, hl, ha⟩ := all_tried_partial physical patterns rs (fun r' hr' => h r' (List.mem_cons_of_mem _ hr')) hp
    refine ⟨(patterns.map fun p => (p, r)) ++ l, ?_, ?_⟩
    · simp only [tried, triedPatterns_enough (h r (by simp)), Outcome.bind, hl]
    · intro r' hr' p hpm
      rcases List.mem_cons.mp hr' with rfl | hr'
      · refine ⟨(p, r'), by simp [hpm], ?_⟩
        obtain ⟨q, s, h1, h2⟩ := integrity_winds physical p r' (hp p hpm)
        rw [integrity_enough (h r' (by simp))] at h1
        simp only [Outcome.value.injEq, Prod.mk.injEq] at h1
        obtain ⟨rfl, rfl⟩ := h1
        exact h2
      · obtain ⟨x, hx, e⟩ := ha r' hr' p hpm
        exact ⟨x, List.mem_append_right _ hx, e⟩

/-- C194. What happens when a winding has fewer turns than repetitions, and all have some: the first pattern is merged, and the others are tried without
repetitions. -/
theorem only_first_merged (physical p : List ℕ) (ps : List (List ℕ)) (r n : ℕ) (hn : n ∈ physical) (hr : n < r) (h1 : ∀ m ∈ physical, 1 ≤ m)
    (hp : ∀ w ∈ p, w < physical.length) :
    triedPatterns physical (p :: ps) r = .value ((toWind physical p r, 1) :: ps.map fun p => (p, 1)) := by
  have hm : (physical.any fun n : ℕ => decide (n < r)) = true := List.any_eq_true.mpr ⟨n, hn, by simpa using hr⟩
  simp only [triedPatterns, integrity, hm, if_true, merged_toWind physical p hp, Outcome.bind]
  rw [triedPatterns_enough h1 ps]

/-- C194, the claim is false of the code: one turn and five turns, with two repetitions and with one. The order that starts with the five turns is never
tried with two repetitions, which would be the five turns at both sides of the single one. -/
theorem not_all_tried_counterexample :
    tried [1, 5] [[0, 1], [1, 0]] [2, 1] = .value [([0, 1, 1], 1), ([1, 0], 1), ([0, 1], 1), ([1, 0], 1)] ∧
    toWind [1, 5] [1, 0] 2 = [1, 0, 1] ∧
    ∀ x ∈ [([0, 1, 1], 1), ([1, 0], 1), ([0, 1], 1), ([1, 0], 1)], unroll x.1 x.2 ≠ [1, 0, 1] := by decide +kernel

/-- C194. The repetitions that are tried are all at least one, each once, and one is among them; there are none exactly when a printed coil has more
windings than layers. -/
theorem repetitions_listed (w : Wanted) (toroidal : Bool) :
    (∀ r ∈ getRepetitions w toroidal, 1 ≤ r) ∧ (getRepetitions w toroidal).Nodup ∧
    (1 ∈ getRepetitions w toroidal ↔ getRepetitions w toroidal ≠ []) ∧
    (getRepetitions w toroidal = [] ↔
      w.differentialModeChoke = false ∧ toroidal = false ∧ w.ratios ≠ 0 ∧ w.printed = true ∧ w.planarLayers < w.ratios + 1) := by
  unfold getRepetitions
  by_cases h1 : w.differentialModeChoke = true
  · simp [h1]
  rw [Bool.not_eq_true] at h1
  by_cases h2 : toroidal = true
  · by_cases h3 : w.commonMode = true
    · simp [h1, h2, h3]
    · by_cases h4 : w.ratios = 0 <;> simp [h1, h2, h3, h4]
  rw [Bool.not_eq_true] at h2
  by_cases h4 : w.ratios = 0
  · simp [h1, h2, h4]
  by_cases h5 : w.printed = true
  · simp only [h1, h2, h4, h5, Bool.false_eq_true, if_false, if_true]
    refine ⟨by simp, ?_, ?_, ?_⟩
    · exact List.Nodup.map (fun a b h => by simpa using h) List.nodup_range
    · simp only [List.mem_map, List.mem_range, ne_eq, List.map_eq_nil_iff, List.range_eq_nil]
      constructor
      · rintro ⟨a, ha, _⟩ h; rw [h] at ha; exact absurd ha (Nat.not_lt_zero a)
      · intro h; exact ⟨0, Nat.pos_of_ne_zero h, rfl⟩
    · simp only [List.map_eq_nil_iff, List.range_eq_nil, Nat.div_eq_zero_iff, Nat.add_eq_zero_iff, one_ne_zero, and_false, false_or, ne_eq, not_false_eq_true, true_and, h4]
  · by_cases h6 : w.leakage = true <;> simp [h1, h2, h4, h5, h6]

example : getRepetitions ⟨false, false, 6, true, false, 6⟩ false = [] ∧ getRepetitions ⟨false, false, 1, true, false, 6⟩ false = [1, 2, 3] := by
  decide +kernel

end Verif.Patterns
