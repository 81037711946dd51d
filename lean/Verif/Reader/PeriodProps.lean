import Verif.Reader.Model
import Verif.Reader.RowProps
import Mathlib.Algebra.Order.Field.Basic
import Mathlib.Algebra.Order.Group.Abs

/-!
# The time of a circuit simulation and one period of it

Properties C276-C280.
-/

set_option linter.unusedSimpArgs false
set_option linter.unusedVariables false
set_option linter.unusedSectionVars false

namespace Verif.Reader

section
variable {K : Type} [Field K] [LinearOrder K] [IsStrictOrderedRing K]

/-! ## C276: the column of time -/

/-- A list of times: it never goes down, and ends later than it starts. -/
def IsTime (data : List K) : Prop :=
  data.Pairwise (· ≤ ·) ∧ ∃ a b, data.head? = some a ∧ data.getLast? = some b ∧ a < b

theorem neverDown_iff : ∀ data : List K, neverDown data = true ↔ data.Pairwise (· ≤ ·)
  | [] => by simp [neverDown]
  | [a] => by simp [neverDown]
  | a :: b :: r => by
    have ih := neverDown_iff (b :: r)
    rw [neverDown, Bool.and_eq_true, ih, List.pairwise_cons (a := a)]
    simp only [gt_iff_lt, Bool.not_eq_true', decide_eq_false_iff_not, not_lt]
    constructor
    · rintro ⟨h1, h2⟩
      refine ⟨fun x hx => ?_, h2⟩
      rcases List.mem_cons.mp hx with rfl | hx
      · exact h1
      · exact h1.trans ((List.pairwise_cons.mp h2).1 x hx)
    · rintro ⟨h1, h2⟩
      exact ⟨h1 b (by simp), h2⟩

theorem canBeTime_iff (data : List K) : canBeTime data = some true ↔ IsTime data := by
  match data with
  | [] => simp [canBeTime, IsTime]
  | [a] => simp [canBeTime, IsTime]
  | a :: b :: r =>
    simp only [canBeTime, Option.some.injEq, Bool.and_eq_true, decide_eq_true_eq, neverDown_iff, IsTime, List.head?_cons,
      List.getLast?_cons_cons]
    refine and_congr_right fun _ => ?_
    rw [List.getLast?_eq_getLast_of_ne_nil (by simp)]
    constructor
    · intro h; exact ⟨a, _, rfl, rfl, h⟩
    · rintro ⟨x, y, hx, hy, h⟩
      simp only [Option.some.injEq] at hx hy
      subst hx; subst hy; exact h

theorem canBeTime_none (data : List K) : canBeTime data = none ↔ data = [] := by
  match data with
  | [] => simp [canBeTime]
  | [a] => simp [canBeTime]
  | a :: b :: r => simp [canBeTime]

/-- **C276.** The time of a file is the first of its columns whose values never go down and end above where they start; the columns before it
have values. -/
theorem time_found (cols : List (Column K)) (t : Column K) :
    findTime cols = .ok t ↔ ∃ a c b, cols = a ++ c :: b ∧ t = { c with kind := some .time } ∧ IsTime c.data ∧
      ∀ x ∈ a, x.data ≠ [] ∧ ¬ IsTime x.data := by
  induction cols with
  | nil => simp [findTime]
  | cons c rest ih =>
    rw [findTime]
    rcases hc : canBeTime c.data with _ | _ | _
    · simp only [reduceCtorEq, false_iff]
      rintro ⟨a, d, b, h, _, hd, ha⟩
      have he := (canBeTime_none _).mp hc
      rcases a with _ | ⟨x, a⟩
      · simp only [List.nil_append, List.cons.injEq] at h
        rw [← h.1, ← canBeTime_iff, hc] at hd; simp at hd
      · simp only [List.cons_append, List.cons.injEq] at h
        exact (ha x (by simp)).1 (by rw [← h.1]; exact he)
    · have hn : ¬ IsTime c.data := by rw [← canBeTime_iff, hc]; simp
      have he : c.data ≠ [] := by rw [Ne, ← canBeTime_none, hc]; simp
      simp only
      rw [ih]
      constructor
      · rintro ⟨a, d, b, rfl, h2, h3, h4⟩
        refine ⟨c :: a, d, b, rfl, h2, h3, fun x hx => ?_⟩
        rcases List.mem_cons.mp hx with rfl | hx
        · exact ⟨he, hn⟩
        · exact h4 x hx
      · rintro ⟨a, d, b, h, h2, h3, h4⟩
        rcases a with _ | ⟨x, a⟩
        · simp only [List.nil_append, List.cons.injEq] at h
          rw [← h.1] at h3; exact absurd h3 hn
        · simp only [List.cons_append, List.cons.injEq] at h
          exact ⟨a, d, b, h.2, h2, h3, fun y hy => h4 y (by simp [hy])⟩
    · have hn : IsTime c.data := by rw [← canBeTime_iff, hc]
      simp only [Except.ok.injEq]
      constructor
      · intro h; exact ⟨[], c, rest, rfl, h.symm, hn, by simp⟩
      · rintro ⟨a, d, b, h, h2, h3, h4⟩
        rcases a with _ | ⟨x, a⟩
        · simp only [List.nil_append, List.cons.injEq] at h
          rw [h2, h.1]
        · simp only [List.cons_append, List.cons.injEq] at h
          exact absurd (by rw [← h.1]; exact hn) (h4 x (by simp)).2

/-- **C276.** A file is refused for want of a time exactly when none of its columns is one, and all have values; a column without values before
the time is an error of its own. -/
theorem time_not_found (cols : List (Column K)) :
    (findTime cols = .error .noTime ↔ ∀ x ∈ cols, x.data ≠ [] ∧ ¬ IsTime x.data) ∧
    (findTime cols = .error .emptyColumn ↔ ∃ a c b, cols = a ++ c :: b ∧ c.data = [] ∧ ∀ x ∈ a, x.data ≠ [] ∧ ¬ IsTime x.data) := by
  induction cols with
  | nil => simp [findTime]
  | cons c rest ih =>
    rw [findTime]
    rcases hc : canBeTime c.data with _ | _ | _
    · have he := (canBeTime_none _).mp hc
      refine ⟨?_, ?_⟩
      · simp only [Except.error.injEq, reduceCtorEq, false_iff]
        intro h; exact (h c (by simp)).1 he
      · simp only [true_iff]
        exact ⟨[], c, rest, rfl, he, by simp⟩
    · have hn : ¬ IsTime c.data := by rw [← canBeTime_iff, hc]; simp
      have he : c.data ≠ [] := by rw [Ne, ← canBeTime_none, hc]; simp
      simp only
      rw [ih.1, ih.2]
      refine ⟨by simp [he, hn], ?_⟩
      constructor
      · rintro ⟨a, d, b, rfl, h2, h4⟩
        refine ⟨c :: a, d, b, rfl, h2, fun x hx => ?_⟩
        rcases List.mem_cons.mp hx with rfl | hx
        · exact ⟨he, hn⟩
        · exact h4 x hx
      · rintro ⟨a, d, b, h, h2, h4⟩
        rcases a with _ | ⟨x, a⟩
        · simp only [List.nil_append, List.cons.injEq] at h
          rw [← h.1] at h2; exact absurd h2 he
        · simp only [List.cons_append, List.cons.injEq] at h
          exact ⟨a, d, b, h.2, h2, fun y hy => h4 y (by simp [hy])⟩
    · have hn : IsTime c.data := by rw [← canBeTime_iff, hc]
      have he : c.data ≠ [] := by rw [Ne, ← canBeTime_none, hc]; simp
      refine ⟨by simp [hn], ?_⟩
      simp only [reduceCtorEq, false_iff]
      rintro ⟨a, d, b, h, h2, h4⟩
      rcases a with _ | ⟨x, a⟩
      · simp only [List.nil_append, List.cons.injEq] at h
        rw [← h.1] at h2; exact absurd h2 he
      · simp only [List.cons_append, List.cons.injEq] at h
        exact absurd (by rw [← h.1]; exact hn) (h4 x (by simp)).2

/-! ## C278: repeated times -/

theorem collapse_cons (p q : K × K) (r : List (K × K)) :
    collapse (p :: q :: r) = if p.1 ≠ q.1 then p :: collapse (q :: r) else collapse (q :: r) := by rw [collapse]

/-- The first time stays. -/
theorem collapse_head : ∀ (p : K × K) (r : List (K × K)), ∃ x l, collapse (p :: r) = x :: l ∧ x.1 = p.1
  | p, [] => ⟨p, [], rfl, rfl⟩
  | p, q :: r => by
    rw [collapse_cons]
    by_cases h : p.1 ≠ q.1
    · rw [if_pos h]; exact ⟨p, _, rfl, rfl⟩
    · rw [if_neg h]
      obtain ⟨x, l, h1, h2⟩ := collapse_head q r
      exact ⟨x, l, h1, by rw [h2]; exact (not_not.mp h).symm⟩

theorem collapse_sublist : ∀ l : List (K × K), (collapse l).Sublist l
  | [] => by simp [collapse]
  | [p] => by simp [collapse]
  | p :: q :: r => by
    rw [collapse_cons]
    split_ifs
    · exact (collapse_sublist (q :: r)).cons_cons p
    · exact (collapse_sublist (q :: r)).cons p

/-- **C278.** A time that never goes down comes out increasing. -/
theorem collapse_increasing : ∀ l : List (K × K), (l.map (·.1)).Pairwise (· ≤ ·) → ((collapse l).map (·.1)).Pairwise (· < ·)
  | [], _ => by simp [collapse]
  | [p], _ => by simp [collapse]
  | p :: q :: r, h => by
    have hq : ((q :: r).map (·.1)).Pairwise (· ≤ ·) := by
      rw [List.map_cons, List.pairwise_cons] at h; exact h.2
    have ih := collapse_increasing (q :: r) hq
    rw [collapse_cons]
    split_ifs with hne
    · rw [List.map_cons, List.pairwise_cons]
      refine ⟨fun t ht => ?_, ih⟩
      obtain ⟨x, hx, rfl⟩ := List.mem_map.mp ht
      have hx' := (collapse_sublist (q :: r)).subset hx
      rw [List.map_cons, List.pairwise_cons] at h
      have h1 : p.1 ≤ q.1 := h.1 q.1 (by simp)
      have h2 : q.1 ≤ x.1 := by
        rcases List.mem_cons.mp hx' with rfl | hx'
        · exact le_refl _
        · rw [List.map_cons, List.pairwise_cons] at hq
          exact hq.1 x.1 (List.mem_map.mpr ⟨x, hx', rfl⟩)
      exact (lt_of_le_of_ne h1 hne).trans_le h2
    · exact ih

/-- **C278.** No time is lost. -/
theorem collapse_times : ∀ (l : List (K × K)) (t : K), t ∈ (collapse l).map (·.1) ↔ t ∈ l.map (·.1)
  | [], t => by simp [collapse]
  | [p], t => by simp [collapse]
  | p :: q :: r, t => by
    have ih := collapse_times (q :: r) t
    rw [collapse_cons]
    split_ifs with hne
    · rw [List.map_cons, List.mem_cons, ih, List.map_cons (a := p), List.mem_cons]
    · rw [ih, List.map_cons (a := p), List.mem_cons]
      constructor
      · exact .inr
      · rintro (rfl | h)
        · rw [not_not.mp hne]; simp
        · exact h

/-- **C278.** The sample kept at a time is the last of those there: what follows it in the file has another time, as far as times never go down. -/
theorem collapse_last : ∀ (l : List (K × K)), (l.map (·.1)).Pairwise (· ≤ ·) → ∀ x, x ∈ collapse l ↔
    ∃ a b, l = a ++ x :: b ∧ ∀ y ∈ b, y.1 ≠ x.1
  | [], _, x => by simp [collapse]
  | [p], _, x => by
    simp only [collapse, List.mem_singleton]
    constructor
    · rintro rfl; exact ⟨[], [], rfl, by simp⟩
    · rintro ⟨a, b, h, _⟩
      rcases a with _ | ⟨_, a⟩
      · simp only [List.nil_append, List.cons.injEq] at h; exact h.1.symm
      · simp at h
  | p :: q :: r, h, x => by
    have h' := h
    rw [List.map_cons, List.pairwise_cons] at h'
    have ih := collapse_last (q :: r) h'.2 x
    have hq := List.pairwise_cons.mp (by simpa using h'.2 : (q.1 :: r.map (·.1)).Pairwise (· ≤ ·))
    have step : (∃ a b, p :: q :: r = a ++ x :: b ∧ ∀ y ∈ b, y.1 ≠ x.1) ↔
        (x = p ∧ ∀ y ∈ q :: r, y.1 ≠ p.1) ∨ ∃ a b, q :: r = a ++ x :: b ∧ ∀ y ∈ b, y.1 ≠ x.1 := by
      constructor
      · rintro ⟨a, b, hab, hb⟩
        rcases a with _ | ⟨a1, a⟩
        · simp only [List.nil_append, List.cons.injEq] at hab
          obtain ⟨rfl, rfl⟩ := hab
          exact .inl ⟨rfl, hb⟩
        · simp only [List.cons_append, List.cons.injEq] at hab
          exact .inr ⟨a, b, hab.2, hb⟩
      · rintro (⟨rfl, hb⟩ | ⟨a, b, hab, hb⟩)
        · exact ⟨[], q :: r, rfl, hb⟩
        · exact ⟨p :: a, b, by rw [hab]; rfl, hb⟩
    rw [step, ← ih, collapse_cons]
    by_cases hne : p.1 ≠ q.1
    · rw [if_pos hne, List.mem_cons]
      refine or_congr_left ⟨fun hx => ⟨hx, fun y hy => ?_⟩, fun hx => hx.1⟩
      have h1 : p.1 ≤ q.1 := h'.1 q.1 (by simp)
      have h2 : q.1 ≤ y.1 := by
        rcases List.mem_cons.mp hy with rfl | hy
        · exact le_refl _
        · exact hq.1 y.1 (List.mem_map.mpr ⟨y, hy, rfl⟩)
      exact ne_of_gt ((lt_of_le_of_ne h1 hne).trans_le h2)
    · rw [if_neg hne]
      constructor
      · exact .inr
      · rintro (⟨_, hb⟩ | hx)
        · exact absurd (not_not.mp hne).symm (hb q (by simp))
        · exact hx

/-! ## Searches -/

theorem searchDown_some {p : Nat → Bool} : ∀ {n i : Nat}, searchDown p n = some i ↔ i < n ∧ p i = true ∧ ∀ j, i < j → j < n → p j = false
  | 0, i => by simp [searchDown]
  | n + 1, i => by
    rw [searchDown]
    by_cases h : p n = true
    · rw [if_pos h]
      constructor
      · intro e; simp only [Option.some.injEq] at e; subst e
        exact ⟨by omega, h, fun j h1 h2 => by omega⟩
      · rintro ⟨h1, h2, h3⟩
        by_cases hi : i = n
        · rw [hi]
        · have := h3 n (by omega) (by omega)
          rw [h] at this; simp at this
    · rw [if_neg h, searchDown_some]
      constructor
      · rintro ⟨h1, h2, h3⟩
        refine ⟨by omega, h2, fun j hj hj' => ?_⟩
        by_cases hjn : j = n
        · rw [hjn]; simpa using h
        · exact h3 j hj (by omega)
      · rintro ⟨h1, h2, h3⟩
        have : i ≠ n := fun e => h (e ▸ h2)
        exact ⟨by omega, h2, fun j hj hj' => h3 j hj (by omega)⟩

theorem searchDown_none {p : Nat → Bool} : ∀ {n : Nat}, searchDown p n = none ↔ ∀ j < n, p j = false
  | 0 => by simp [searchDown]
  | n + 1 => by
    rw [searchDown]
    by_cases h : p n = true
    · rw [if_pos h]
      simp only [reduceCtorEq, false_iff]
      intro hh; have := hh n (by omega); rw [h] at this; simp at this
    · rw [if_neg h, searchDown_none]
      constructor
      · intro hh j hj
        by_cases hjn : j = n
        · rw [hjn]; simpa using h
        · exact hh j (by omega)
      · intro hh j hj; exact hh j (by omega)

theorem searchUp_some {p : Nat → Bool} : ∀ {n k i : Nat}, searchUp p k n = some i ↔ k ≤ i ∧ i < k + n ∧ p i = true ∧ ∀ j, k ≤ j → j < i → p j = false
  | 0, k, i => by
    simp only [searchUp, reduceCtorEq, false_iff]
    rintro ⟨h1, h2, _⟩; omega
  | n + 1, k, i => by
    rw [searchUp]
    by_cases h : p k = true
    · rw [if_pos h]
      constructor
      · intro e; simp only [Option.some.injEq] at e; subst e
        exact ⟨le_refl _, by omega, h, fun j h1 h2 => by omega⟩
      · rintro ⟨h1, h2, h3, h4⟩
        by_cases hi : i = k
        · rw [hi]
        · have := h4 k (le_refl _) (by omega)
          rw [h] at this; simp at this
    · rw [if_neg h, searchUp_some]
      constructor
      · rintro ⟨h1, h2, h3, h4⟩
        refine ⟨by omega, by omega, h3, fun j hj hj' => ?_⟩
        by_cases hjk : j = k
        · rw [hjk]; simpa using h
        · exact h4 j (by omega) hj'
      · rintro ⟨h1, h2, h3, h4⟩
        have : i ≠ k := fun e => h (e ▸ h3)
        exact ⟨by omega, by omega, h3, fun j hj hj' => h4 j (by omega) hj'⟩

theorem searchUp_exists {p : Nat → Bool} {k n i : Nat} (h1 : k ≤ i) (h2 : i < k + n) (h : p i = true) : ∃ j, searchUp p k n = some j ∧ j ≤ i := by
  induction n generalizing k with
  | zero => omega
  | succ n ih =>
    rw [searchUp]
    by_cases hk : p k = true
    · exact ⟨k, if_pos hk, h1⟩
    · rw [if_neg hk]
      have : i ≠ k := fun e => hk (e ▸ h)
      exact ih (by omega) (by omega)

/-! ## C279: one period -/

theorem pairwise_get {l : List K} (h : l.Pairwise (· ≤ ·)) {i j : Nat} (hij : i ≤ j) {x y : K} (hx : l[i]? = some x) (hy : l[j]? = some y) :
    x ≤ y := by
  rcases Nat.eq_or_lt_of_le hij with rfl | hlt
  · rw [hx] at hy; simp only [Option.some.injEq] at hy; exact le_of_eq hy
  · obtain ⟨h1, rfl⟩ := List.getElem?_eq_some_iff.mp hx
    obtain ⟨h2, rfl⟩ := List.getElem?_eq_some_iff.mp hy
    exact List.pairwise_iff_getElem.mp h i j h1 h2 hlt

theorem getLast_get {l : List K} {x : K} (h : l.getLast? = some x) : 0 < l.length ∧ l[l.length - 1]? = some x := by
  rw [List.getLast?_eq_getElem?] at h
  refine ⟨?_, h⟩
  obtain ⟨h1, _⟩ := List.getElem?_eq_some_iff.mp h
  omega

/-- What a window is: indexes `a` and `b`, found for times that never go down. -/
structure IsWindow (period : K) (time data : List K) (last : K) (a b : Nat) : Prop where
  within : a < b ∧ b ≤ time.length
  /-- unless the recording is shorter than a period, it spans at least one -/
  spans : (∃ t, time.head? = some t ∧ t ≤ last - period) → ∃ x y, time[a]? = some x ∧ time[b - 1]? = some y ∧ period ≤ y - x
  /-- without its first and last samples it spans less than one -/
  tight : ∀ i j x y, a < i → i ≤ j → j + 1 < b → time[i]? = some x → time[j]? = some y → y - x < period
  /-- it starts where the data cross zero, if they do before the last period -/
  aligned : crosses data a = true ∨ ∀ i, i + 1 ≤ a → crosses data i = false

theorem window_found {frequency : K} (hf : 0 < frequency) {time data : List K} (ht : time.Pairwise (· ≤ ·)) {last : K}
    (hl : time.getLast? = some last) : ∃ a b, findWindow frequency time data last = .ok (a, b) ∧ IsWindow (1 / frequency) time data last a b := by
  obtain ⟨hn, hlast⟩ := getLast_get hl
  have hp : 0 < 1 / frequency := one_div_pos.mpr hf
  unfold findWindow
  rw [if_neg (ne_of_gt hf)]
  simp only
  generalize 1 / frequency = period at hp
  have htest : ∀ (q : K → Bool) (i : Nat), test time q i = true ↔ ∃ x, time[i]? = some x ∧ q x = true := by
    intro q i
    unfold test
    cases time[i]? <;> simp
  have hget : ∀ i, i < time.length → ∃ x, time[i]? = some x := fun i hi => ⟨_, List.getElem?_eq_getElem hi⟩
  -- the first sample
  have hfirst : ∃ first, (searchDown (test time fun t => decide (t ≤ last - period)) time.length).getD 0 = first ∧ first < time.length ∧
      (∀ j x, first < j → time[j]? = some x → last - period < x) ∧
      ((∃ t, time.head? = some t ∧ t ≤ last - period) → ∃ x, time[first]? = some x ∧ x ≤ last - period) ∧
      ((¬ ∃ x, time[first]? = some x ∧ x ≤ last - period) → first = 0) := by
    cases hs : searchDown (test time fun t => decide (t ≤ last - period)) time.length with
    | none =>
      have hnone := searchDown_none.mp hs
      refine ⟨0, rfl, hn, ?_, ?_, fun _ => rfl⟩
      · intro j x hj hx
        obtain ⟨hjl, _⟩ := List.getElem?_eq_some_iff.mp hx
        by_contra hle
        have := hnone j hjl
        rw [(htest _ j).mpr ⟨x, hx, by simpa using not_lt.mp hle⟩] at this
        simp at this
      · rintro ⟨t, h1, h2⟩
        have := hnone 0 hn
        rw [(htest _ 0).mpr ⟨t, by rw [← h1, List.head?_eq_getElem?], by simpa using h2⟩] at this
        simp at this
    | some i =>
      obtain ⟨h1, h2, h3⟩ := searchDown_some.mp hs
      obtain ⟨x, hx, hle⟩ := (htest _ i).mp h2
      have hle : x ≤ last - period := by simpa using hle
      refine ⟨i, rfl, h1, ?_, fun _ => ⟨x, hx, hle⟩, fun hno => absurd ⟨x, hx, hle⟩ hno⟩
      intro j y hj hy
      obtain ⟨hjl, _⟩ := List.getElem?_eq_some_iff.mp hy
      by_contra hlt
      have := h3 j hj hjl
      rw [(htest _ j).mpr ⟨y, hy, by simpa using not_lt.mp hlt⟩] at this
      simp at this
  obtain ⟨first, hfe, hfl, hafter, hbefore, hzero⟩ := hfirst
  rw [hfe]
  cases hcr : searchDown (crosses data) first with
  | none =>
    have hno := searchDown_none.mp hcr
    simp only [endWindow]
    have hend : test time (fun t => decide (t ≥ last - period + period)) (time.length - 1) = true :=
      (htest _ _).mpr ⟨last, hlast, by simp⟩
    obtain ⟨k, hk, _⟩ := searchUp_exists (p := test time fun t => decide (t ≥ last - period + period)) (k := first)
      (n := time.length - first) (i := time.length - 1) (by omega) (by omega) hend
    rw [hk]
    obtain ⟨h1, h2, h3, h4⟩ := searchUp_some.mp hk
    obtain ⟨y, hy, hge⟩ := (htest _ _).mp h3
    have hge : last ≤ y := by simpa using hge
    refine ⟨first, k + 1, rfl, ⟨⟨by omega, by omega⟩, ?_, ?_, ?_⟩⟩
    · intro h
      obtain ⟨x, hx, hle⟩ := hbefore h
      refine ⟨x, y, hx, by simpa using hy, ?_⟩
      linarith
    · intro i j x z hi hij hj hx hz
      have hlt := hafter i x hi hx
      have : z < last := by
        by_contra hge'
        have := h4 j (by omega) (by omega)
        rw [(htest _ j).mpr ⟨z, hz, by simpa using not_lt.mp hge'⟩] at this
        simp at this
      linarith
    · exact .inr fun i hi => hno i (by omega)
  | some c =>
    obtain ⟨hc1, hc2, hc3⟩ := searchDown_some.mp hcr
    obtain ⟨x, hx⟩ := hget c (by omega)
    simp only [hx, Option.getD_some, endWindow]
    -- a crossing before the first sample: the recording is long enough
    have hxle : x ≤ last - period := by
      by_cases h : ∃ z, time[first]? = some z ∧ z ≤ last - period
      · obtain ⟨z, hz, hle⟩ := h
        exact (pairwise_get ht (by omega) hx hz).trans hle
      · have := hzero h; omega
    have hend : test time (fun t => decide (t ≥ x + period)) (time.length - 1) = true :=
      (htest _ _).mpr ⟨last, hlast, by simp; linarith⟩
    obtain ⟨k, hk, _⟩ := searchUp_exists (p := test time fun t => decide (t ≥ x + period)) (k := c)
      (n := time.length - c) (i := time.length - 1) (by omega) (by omega) hend
    rw [hk]
    obtain ⟨h1, h2, h3, h4⟩ := searchUp_some.mp hk
    obtain ⟨y, hy, hge⟩ := (htest _ _).mp h3
    have hge : x + period ≤ y := by simpa using hge
    refine ⟨c, k + 1, rfl, ⟨⟨by omega, by omega⟩, fun _ => ⟨x, y, hx, by simpa using hy, by linarith⟩, ?_, .inl hc2⟩⟩
    intro i j u z hi hij hj hu hz
    have hxu := pairwise_get ht (by omega) hx hu
    have : z < x + period := by
      by_contra hge'
      have := h4 j (by omega) (by omega)
      rw [(htest _ j).mpr ⟨z, hz, by simpa using not_lt.mp hge'⟩] at this
      simp at this
    linarith

/-- **C279.** In exact arithmetic no recording is too short: for times that never go down, whatever the data and the frequency asked for, a window
is found, so the error that tells of insufficient data is never reached. -/
theorem never_insufficient {frequency : K} (hf : 0 < frequency) {time data : List K} (ht : time.Pairwise (· ≤ ·)) {last : K}
    (hl : time.getLast? = some last) : findWindow frequency time data last ≠ .throw .insufficient := by
  obtain ⟨a, b, h, _⟩ := window_found (data := data) hf ht hl
  rw [h]; simp

theorem cut_ok {w : Wave K} (hlen : w.data.length = w.time.length) {a b : Nat} (h : a < b ∧ b ≤ w.time.length) {t : K} (ht : w.time[a]? = some t) :
    cut w (a, b) = .ok { time := ((w.time.drop a).take (b - a)).map (· - t), data := (w.data.drop a).take (b - a) } := by
  unfold cut
  rw [if_neg (by simp only [hlen]; omega)]
  simp only
  have hd : (w.time.drop a).take (b - a) = t :: ((w.time.drop (a + 1)).take (b - a - 1)) := by
    obtain ⟨hl, he⟩ := List.getElem?_eq_some_iff.mp ht
    rw [List.drop_eq_getElem_cons hl, he]
    obtain ⟨k, hk⟩ : ∃ k, b - a = k + 1 := ⟨b - a - 1, by omega⟩
    rw [hk, List.take_succ_cons, Nat.add_sub_cancel]
  rw [hd]

/-- The samples of a signal on its time, repeated times merged. -/
def samples (signal time : Column K) : List (K × K) := collapse (time.data.zip signal.data)

theorem collapse_ne_nil {l : List (K × K)} (h : l ≠ []) : collapse l ≠ [] := by
  obtain ⟨p, r, rfl⟩ := List.exists_cons_of_ne_nil h
  obtain ⟨x, l, h1, _⟩ := collapse_head p r
  rw [h1]; simp

theorem collapse_getLast : ∀ (l : List (K × K)), (collapse l).getLast? = l.getLast?
  | [] => rfl
  | [p] => rfl
  | p :: q :: r => by
    have ih := collapse_getLast (q :: r)
    rw [collapse_cons, List.getLast?_cons_cons]
    split_ifs
    · obtain ⟨x, l, h1, _⟩ := collapse_head q r
      rw [h1, List.getLast?_cons_cons, ← h1, ih]
    · exact ih

theorem extractRaw_ok {windows : Windows} {signal time : Column K} {frequency : K} (hf : 0 < frequency)
    (ht : time.data.Pairwise (· ≤ ·)) (hne : time.data ≠ []) (hlen : signal.data.length = time.data.length)
    (hw : windows.lookup time.name = none) {last : K} (hl : time.data.getLast? = some last) :
    ∃ a b t, IsWindow (1 / frequency) ((samples signal time).map (·.1)) ((samples signal time).map (·.2)) last a b ∧
      ((samples signal time).map (·.1))[a]? = some t ∧
      extractRaw windows signal time frequency = ((time.name, a, b) :: windows, .ok
        { time := (((samples signal time).drop a).take (b - a)).map fun p => p.1 - t
          data := (((samples signal time).drop a).take (b - a)).map fun p => p.2 }) := by
  have hz : (time.data.zip signal.data).map (·.1) = time.data := List.map_fst_zip (by omega)
  have hlast : ((samples signal time).map (·.1)).getLast? = some last := by
    rw [samples, List.getLast?_map, collapse_getLast, ← List.getLast?_map, hz, hl]
  have hmono : ((samples signal time).map (·.1)).Pairwise (· ≤ ·) :=
    (collapse_increasing _ (by rw [hz]; exact ht)).imp le_of_lt
  obtain ⟨a, b, hwin, hisw⟩ := window_found (data := (samples signal time).map (·.2)) hf hmono hlast
  obtain ⟨t, hta⟩ : ∃ t, ((samples signal time).map (·.1))[a]? = some t :=
    ⟨_, List.getElem?_eq_getElem (by have := hisw.within; omega)⟩
  refine ⟨a, b, t, hisw, hta, ?_⟩
  unfold extractRaw
  rw [if_neg (by omega)]
  simp only
  unfold onePeriod
  rw [if_neg (by simp)]
  simp only
  have e : (collapse (time.data.zip signal.data)) = samples signal time := rfl
  rw [e, hlast]
  simp only
  rw [hw]
  simp only
  rw [hwin]
  simp only
  rw [cut_ok (by simp) hisw.within hta]
  simp only [List.map_drop, List.map_take, List.map_map, Function.comp_def]

/-- **C279.** On a time that never goes down and a recording of at least one period, what is extracted is a run of consecutive samples, with its
time from zero, that spans at least one period, and less than one without its first and last samples.

Partial: from shorter recordings the samples do not span a period, see `short_recording`. -/
theorem one_period_partial {windows : Windows} {signal time : Column K} {frequency : K} (hf : 0 < frequency)
    (ht : time.data.Pairwise (· ≤ ·)) (hlen : signal.data.length = time.data.length)
    (hw : windows.lookup time.name = none) {start last : K} (hs : time.data.head? = some start) (hl : time.data.getLast? = some last)
    (hlong : start ≤ last - 1 / frequency) :
    ∃ ws w, extractRaw windows signal time frequency = (ws, .ok w) ∧
      ∃ before part after, samples signal time = before ++ part ++ after ∧
        (∃ x y, part.head? = some x ∧ part.getLast? = some y ∧ 1 / frequency ≤ y.1 - x.1 ∧
          w.time = part.map (fun p => p.1 - x.1) ∧ w.data = part.map (·.2)) ∧
        ∀ u v, u ∈ part.tail.dropLast → v ∈ part.tail.dropLast → v.1 - u.1 < 1 / frequency := by
  have hne : time.data ≠ [] := by intro h; rw [h] at hs; simp at hs
  obtain ⟨a, b, t, hwin, hta, he⟩ := extractRaw_ok hf ht hne hlen hw hl
  refine ⟨_, _, he, (samples signal time).take a, ((samples signal time).drop a).take (b - a), ((samples signal time).drop a).drop (b - a), ?_, ?_, ?_⟩
  · rw [List.append_assoc, List.take_append_drop, List.take_append_drop]
  · have hhead : ((samples signal time).map (·.1)).head? = some start := by
      have hz : (time.data.zip signal.data).map (·.1) = time.data := List.map_fst_zip (by omega)
      obtain ⟨p, r, hpr⟩ : ∃ p r, time.data.zip signal.data = p :: r := by
        rcases h : time.data.zip signal.data with _ | ⟨p, r⟩
        · rw [h] at hz; exact absurd hz.symm hne
        · exact ⟨p, r, rfl⟩
      obtain ⟨x, l, h1, h2⟩ := collapse_head p r
      rw [samples, hpr, h1]
      rw [hpr] at hz
      rw [← hz] at hs
      simp only [List.map_cons, List.head?_cons, Option.some.injEq] at hs ⊢
      rw [h2, hs]
    obtain ⟨x, y, hx, hy, hspan⟩ := hwin.spans ⟨start, hhead, hlong⟩
    have hab := hwin.within
    rw [List.length_map] at hab
    have hx' := hx
    rw [List.getElem?_map, Option.map_eq_some_iff] at hx hy
    obtain ⟨px, hpx, rfl⟩ := hx
    obtain ⟨py, hpy, rfl⟩ := hy
    rw [hx'] at hta
    simp only [Option.some.injEq] at hta
    refine ⟨px, py, ?_, ?_, hspan, by rw [← hta], rfl⟩
    · rw [List.head?_take, if_neg (by omega), List.head?_drop, hpx]
    · rw [List.getLast?_eq_getElem?, List.getElem?_take_of_lt (by simp; omega), List.getElem?_drop, List.length_take, List.length_drop, ← hpy]
      congr 1
      omega
  · -- elements in the middle have indexes strictly between
    have hidx : ∀ u, u ∈ (((samples signal time).drop a).take (b - a)).tail.dropLast →
        ∃ i, a < i ∧ i + 1 < b ∧ ((samples signal time).map (·.1))[i]? = some u.1 := by
      intro u hu
      obtain ⟨k, hk⟩ := List.getElem?_of_mem hu
      rw [List.getElem?_dropLast] at hk
      split_ifs at hk with hkl
      rw [List.getElem?_tail, List.getElem?_take] at hk
      split_ifs at hk with hk2
      rw [List.getElem?_drop] at hk
      simp only [List.length_tail, List.length_take, List.length_drop] at hkl
      refine ⟨a + (k + 1), by omega, by omega, ?_⟩
      rw [List.getElem?_map, hk]
      rfl
    intro u v hu hv
    obtain ⟨i, hi1, hi2, hi3⟩ := hidx u hu
    obtain ⟨j, hj1, hj2, hj3⟩ := hidx v hv
    rcases Nat.le_total i j with hij | hij
    · exact hwin.tight i j _ _ hi1 hij hj2 hi3 hj3
    · have hz : (time.data.zip signal.data).map (·.1) = time.data := List.map_fst_zip (by omega)
      have hmono : ((samples signal time).map (·.1)).Pairwise (· ≤ ·) :=
        (collapse_increasing _ (by rw [hz]; exact ht)).imp le_of_lt
      have := pairwise_get hmono hij hj3 hi3
      have hp : 0 < 1 / frequency := one_div_pos.mpr hf
      linarith

/-- **C279.** From a recording shorter than the period asked for, all of it is given as if it were one, without an error. -/
theorem short_recording {windows : Windows} {signal time : Column K} {frequency : K} (hf : 0 < frequency)
    (ht : time.data.Pairwise (· ≤ ·)) (hlen : signal.data.length = time.data.length)
    (hw : windows.lookup time.name = none) {start last : K} (hs : time.data.head? = some start) (hl : time.data.getLast? = some last)
    (hshort : last - start < 1 / frequency) :
    ∃ ws, extractRaw windows signal time frequency = (ws, .ok
      { time := (samples signal time).map fun p => p.1 - start, data := (samples signal time).map fun p => p.2 }) := by
  have hne : time.data ≠ [] := by intro h; rw [h] at hs; simp at hs
  have hz : (time.data.zip signal.data).map (·.1) = time.data := List.map_fst_zip (by omega)
  have hlast : ((samples signal time).map (·.1)).getLast? = some last := by
    rw [samples, List.getLast?_map, collapse_getLast, ← List.getLast?_map, hz, hl]
  have hincr : ((samples signal time).map (·.1)).Pairwise (· < ·) := collapse_increasing _ (show ((time.data.zip signal.data).map (·.1)).Pairwise (· ≤ ·) by rw [hz]; exact ht)
  have hhead : ((samples signal time).map (·.1)).head? = some start := by
    obtain ⟨p, r, hpr⟩ : ∃ p r, time.data.zip signal.data = p :: r := by
      rcases h : time.data.zip signal.data with _ | ⟨p, r⟩
      · rw [h] at hz; exact absurd hz.symm hne
      · exact ⟨p, r, rfl⟩
    obtain ⟨x, l, h1, h2⟩ := collapse_head p r
    rw [samples, hpr, h1]
    rw [hpr] at hz
    rw [← hz] at hs
    simp only [List.map_cons, List.head?_cons, Option.some.injEq] at hs ⊢
    rw [h2, hs]
  have h0 : ((samples signal time).map (·.1))[0]? = some start := by rw [← List.head?_eq_getElem?]; exact hhead
  obtain ⟨hn, hget⟩ := getLast_get hlast
  have htest : ∀ (q : K → Bool) (i : Nat), test ((samples signal time).map (·.1)) q i = true ↔
      ∃ x, ((samples signal time).map (·.1))[i]? = some x ∧ q x = true := by
    intro q i
    unfold test
    cases ((samples signal time).map (·.1))[i]? <;> simp
  have hmono : ((samples signal time).map (·.1)).Pairwise (· ≤ ·) := hincr.imp le_of_lt
  have hwin : findWindow frequency ((samples signal time).map (·.1)) ((samples signal time).map (·.2)) last =
      .ok (0, ((samples signal time).map (·.1)).length) := by
    unfold findWindow
    rw [if_neg (ne_of_gt hf)]
    have hnone : searchDown (test ((samples signal time).map (·.1)) fun t => decide (t ≤ last - 1 / frequency))
        ((samples signal time).map (·.1)).length = none := by
      rw [searchDown_none]
      intro j _
      rw [Bool.eq_false_iff]
      intro h
      obtain ⟨x, hx, hle⟩ := (htest _ j).mp h
      have hle : x ≤ last - 1 / frequency := by simpa using hle
      have := pairwise_get hmono (Nat.zero_le j) h0 hx
      linarith
    simp only [hnone, Option.getD_none, searchDown, endWindow]
    have hs' : searchUp (test ((samples signal time).map (·.1)) fun t => decide (t ≥ last - 1 / frequency + 1 / frequency)) 0
        (((samples signal time).map (·.1)).length - 0) = some (((samples signal time).map (·.1)).length - 1) := by
      rw [searchUp_some]
      refine ⟨Nat.zero_le _, by omega, (htest _ _).mpr ⟨last, hget, by simp⟩, fun j _ hj => ?_⟩
      rw [Bool.eq_false_iff]
      intro h
      obtain ⟨x, hx, hge⟩ := (htest _ j).mp h
      have hge : last ≤ x := by simpa using hge
      obtain ⟨h1, rfl⟩ := List.getElem?_eq_some_iff.mp hx
      obtain ⟨h2, h2'⟩ := List.getElem?_eq_some_iff.mp hget
      have := List.pairwise_iff_getElem.mp hincr j _ h1 h2 hj
      rw [h2'] at this
      exact absurd hge (not_le.mpr this)
    rw [hs']
    simp only [Res.ok.injEq, Prod.mk.injEq, true_and]
    omega
  refine ⟨(time.name, 0, ((samples signal time).map (·.1)).length) :: windows, ?_⟩
  unfold extractRaw
  rw [if_neg (by omega)]
  simp only
  unfold onePeriod
  rw [if_neg (by simp)]
  simp only
  have e : (collapse (time.data.zip signal.data)) = samples signal time := rfl
  rw [e, hlast]
  simp only
  rw [hw]
  simp only
  rw [hwin]
  simp only
  rw [cut_ok (by simp) ⟨hn, le_refl _⟩ h0]
  simp [List.take_of_length_le, Function.comp_def]

/-- **C279.** What is extracted from a recording of at least one period starts where the signal crosses or touches zero, unless it has one strict
sign from the first sample up to the start. -/
theorem starts_at_crossing {windows : Windows} {signal time : Column K} {frequency : K} (hf : 0 < frequency)
    (ht : time.data.Pairwise (· ≤ ·)) (hne : time.data ≠ []) (hlen : signal.data.length = time.data.length)
    (hw : windows.lookup time.name = none) {w : Wave K} {ws : Windows} (h : extractRaw windows signal time frequency = (ws, .ok w)) :
    ∃ before part after, samples signal time = before ++ part ++ after ∧ w.data = part.map (·.2) ∧
      ((∃ x y, (part ++ after)[0]? = some x ∧ (part ++ after)[1]? = some y ∧ (0 ≤ x.2 ∧ y.2 ≤ 0 ∨ x.2 ≤ 0 ∧ 0 ≤ y.2)) ∨
        (∀ x ∈ before ++ part.head?.toList, 0 < x.2) ∨ (∀ x ∈ before ++ part.head?.toList, x.2 < 0) ∨ before = []) := by
  obtain ⟨last, hl⟩ : ∃ last, time.data.getLast? = some last := ⟨_, List.getLast?_eq_getLast_of_ne_nil hne⟩
  obtain ⟨a, b, t, hwin, hta, he⟩ := extractRaw_ok hf ht hne hlen hw hl
  rw [he] at h
  simp only [Prod.mk.injEq, Res.ok.injEq] at h
  obtain ⟨_, rfl⟩ := h
  have hab := hwin.within
  rw [List.length_map] at hab
  refine ⟨(samples signal time).take a, ((samples signal time).drop a).take (b - a), ((samples signal time).drop a).drop (b - a), ?_, rfl, ?_⟩
  · rw [List.append_assoc, List.take_append_drop, List.take_append_drop]
  rw [List.take_append_drop]
  rcases hwin.aligned with hc | hno
  · left
    unfold crosses at hc
    rw [List.getElem?_map, List.getElem?_map] at hc
    rcases hx : (samples signal time)[a]? with _ | x
    · rw [hx] at hc; simp at hc
    · rcases hy : (samples signal time)[a + 1]? with _ | y
      · rw [hx, hy] at hc; simp at hc
      · rw [hx, hy] at hc
        simp only [Option.map_some, ge_iff_le, Bool.or_eq_true, Bool.and_eq_true, decide_eq_true_eq] at hc
        exact ⟨x, y, by rw [List.getElem?_drop]; exact hx, by rw [List.getElem?_drop]; exact hy, hc⟩
  · right
    by_cases ha : a = 0
    · right; right; rw [ha]; rfl
    -- one sign all along
    have hmem : ∀ x ∈ (samples signal time).take a ++ (((samples signal time).drop a).take (b - a)).head?.toList,
        ∃ i, i ≤ a ∧ (samples signal time)[i]? = some x := by
      intro x hx
      rcases List.mem_append.mp hx with hx | hx
      · obtain ⟨i, hi⟩ := List.getElem?_of_mem hx
        rw [List.getElem?_take] at hi
        split_ifs at hi with h1
        exact ⟨i, by omega, hi⟩
      · rw [List.head?_take, if_neg (by omega), List.head?_drop] at hx
        exact ⟨a, le_refl _, by simpa using hx⟩
    have hstep : ∀ i x y, i + 1 ≤ a → (samples signal time)[i]? = some x → (samples signal time)[i + 1]? = some y →
        (0 < x.2 ∧ 0 < y.2) ∨ (x.2 < 0 ∧ y.2 < 0) := by
      intro i x y hi hx hy
      have := hno i hi
      unfold crosses at this
      rw [List.getElem?_map, List.getElem?_map, hx, hy] at this
      simp only [Option.map_some, ge_iff_le, Bool.or_eq_false_iff, Bool.and_eq_false_iff, decide_eq_false_iff_not, not_le] at this
      rcases this with ⟨h1 | h1, h2 | h2⟩
      · exact absurd h1 (lt_asymm h2)
      · exact .inr ⟨h1, h2⟩
      · exact .inl ⟨h2, h1⟩
      · exact absurd h1 (lt_asymm h2)
    obtain ⟨x0, hx0⟩ : ∃ x, (samples signal time)[0]? = some x := ⟨_, List.getElem?_eq_getElem (by omega)⟩
    obtain ⟨x1, hx1⟩ : ∃ x, (samples signal time)[0 + 1]? = some x := ⟨_, List.getElem?_eq_getElem (by omega)⟩
    rcases hstep 0 x0 x1 (by omega) hx0 hx1 with ⟨hpos, _⟩ | ⟨hneg, _⟩
    · left
      have hall : ∀ i, i ≤ a → ∀ x, (samples signal time)[i]? = some x → 0 < x.2 := by
        intro i
        induction i with
        | zero => intro _ x hx; rw [hx0] at hx; simp only [Option.some.injEq] at hx; rw [← hx]; exact hpos
        | succ i ih =>
          intro hi y hy
          obtain ⟨x, hx⟩ : ∃ x, (samples signal time)[i]? = some x := by
            obtain ⟨h1, _⟩ := List.getElem?_eq_some_iff.mp hy
            exact ⟨_, List.getElem?_eq_getElem (by omega)⟩
          have hxp := ih (by omega) x hx
          rcases hstep i x y hi hx hy with h | h
          · exact h.2
          · exact absurd hxp (lt_asymm h.1)
      intro x hx
      obtain ⟨i, hi, hxi⟩ := hmem x hx
      exact hall i hi x hxi
    · right; left
      have hall : ∀ i, i ≤ a → ∀ x, (samples signal time)[i]? = some x → x.2 < 0 := by
        intro i
        induction i with
        | zero => intro _ x hx; rw [hx0] at hx; simp only [Option.some.injEq] at hx; rw [← hx]; exact hneg
        | succ i ih =>
          intro hi y hy
          obtain ⟨x, hx⟩ : ∃ x, (samples signal time)[i]? = some x := by
            obtain ⟨h1, _⟩ := List.getElem?_eq_some_iff.mp hy
            exact ⟨_, List.getElem?_eq_getElem (by omega)⟩
          have hxp := ih (by omega) x hx
          rcases hstep i x y hi hx hy with h | h
          · exact absurd hxp (lt_asymm h.1)
          · exact h.2
      intro x hx
      obtain ⟨i, hi, hxi⟩ := hmem x hx
      exact hall i hi x hxi

/-! ## C277: samples and the times of their rows -/

/-- **C277.** When no row lacks a value in the column of the time or in that of the signal, each sample has the time of its row.

Partial: with values missing, samples can take times of other rows, see `missing_shifts`. -/
theorem rows_paired_partial {stod : Text → Option K} {text : Text} {cols : List (Column K)}
    {t : Column K} (h : read stod text = .ok (cols, t)) {first : Text} {rows : List Text} (hk : kept text = first :: rows) {sep : Char}
    (hsep : guessSeparator first = some sep) {names : List Text} {blanks : Nat} (hn : names ≠ []) (hnames : ∀ n ∈ names, n ≠ [])
    (hh : cellsOf sep first = names ++ List.replicate blanks []) {i j : Nat} {time signal : Column K} (hi : cols[i]? = some time)
    (hj : cols[j]? = some signal) (x y : Text → K) (hx : ∀ l ∈ rows, valueAt stod (cellsOf sep l) i = [x l])
    (hy : ∀ l ∈ rows, valueAt stod (cellsOf sep l) j = [y l]) :
    time.data.zip signal.data = rows.map fun l => (x l, y l) := by
  obtain ⟨_, hd, _⟩ := values_in_their_columns_partial h hk hsep hn hnames hh
  have key : ∀ (f : Text → List K) (g : Text → K) (ls : List Text), (∀ l ∈ ls, f l = [g l]) → ls.flatMap f = ls.map g := by
    intro f g ls
    induction ls with
    | nil => intro _; rfl
    | cons l ls ih => intro h; simp [h l (by simp), ih fun x hx => h x (by simp [hx])]
  rw [hd i time hi, hd j signal hj, key _ x rows hx, key _ y rows hy]
  induction rows with
  | nil => rfl
  | cons l ls _ => simp [List.zip_map', List.zip_eq_zipWith]

/-- **C277.** A signal with more or fewer values than its time is refused. -/
theorem lengths_refused (windows : Windows) (signal time : Column K) (frequency : K) (h : signal.data.length ≠ time.data.length) :
    extractRaw windows signal time frequency = (windows, .throw .lengths) := by rw [extractRaw, if_pos h]

end

/-- **C277.** With as many values missing in both columns, a sample is given a time at which the file has none: 20 V are written in the row
without a time, after that of 1 s without a voltage. -/
theorem missing_shifts :
    ∃ time signal, read stod "time,V\n0,10\n1,\n,20\n2,30\n".toList = .ok ([time, signal], { time with kind := some .time }) ∧
      time.data.zip signal.data = [(0, 10), (1, 20), (2, 30)] ∧
      valueAt stod (cellsOf ',' "1,".toList) 1 = [] ∧ valueAt stod (cellsOf ',' ",20".toList) 0 = [] :=
  ⟨{ name := "time".toList, data := [0, 1, 2] }, { name := "V".toList, data := [10, 20, 30] }, by decide +kernel, by decide +kernel,
    by decide +kernel, by decide +kernel⟩

/-- Case of `rows_paired_partial`. -/
example : (read stod "time,V\n0,10\n1,20\n".toList).toOption.map (fun p => p.1.map Column.data) = some [[0, 1], [10, 20]] ∧
    valueAt stod (cellsOf ',' "1,20".toList) 1 = [20] := ⟨by decide +kernel, by decide +kernel⟩

/-- A time of eight samples, 1 s apart, one of them written twice, and a square wave of period 4 s on it. -/
def clock : Column ℚ := { name := "time".toList, data := [0, 1, 2, 2, 3, 4, 5, 6, 7], kind := some .time }
def square : Column ℚ := { name := "V1".toList, data := [1, 1, -1, -1, -1, 1, 1, -1, -1] }

/-- Case of `time_found`, `one_period_partial`, `starts_at_crossing` and `collapse_last`. -/
example : findTime [square, clock] = .ok clock ∧
    samples square clock = [(0, 1), (1, 1), (2, -1), (3, -1), (4, 1), (5, 1), (6, -1), (7, -1)] ∧
    extractRaw [] square clock (1 / 4) = ([("time".toList, 1, 6)], .ok { time := [0, 1, 2, 3, 4], data := [1, -1, -1, 1, 1] }) :=
  ⟨by decide +kernel, by decide +kernel, by decide +kernel⟩

/-- **C279.** So eight seconds are given for a period of a hundred. -/
theorem short_recording_counterexample :
    extractRaw [] square clock (1 / 100) =
      ([("time".toList, 0, 8)], .ok { time := [0, 1, 2, 3, 4, 5, 6, 7], data := [1, 1, -1, -1, 1, 1, -1, -1] }) := by decide +kernel

end Verif.Reader
