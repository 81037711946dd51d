import Verif.Filters.Sweep
import Mathlib.Algebra.Order.Field.Rat
import Mathlib.Algebra.Order.BigOperators.Group.List
import Mathlib.Tactic.Linarith
import Mathlib.Tactic.NormNum

/-!
# C183, C184: the sweep of turns of the filters by losses
-/

set_option linter.unusedSectionVars false
set_option linter.unusedSimpArgs false

namespace Verif.Filters.Sweep

open Verif.Requirements

variable {K : Type} [Field K] [LinearOrder K] [IsStrictOrderedRing K]

/-! ## What the sweep should give -/

/-- The losses of a number of turns at an operating point are those of the core and those of the windings, and neither is negative. -/
def Losses (u : Setup K) (op turns : ℕ) (x : K) : Prop :=
  ∃ c w : K, u.bench.core op turns = .value (.losses c) ∧ u.bench.winding op turns = .value w ∧ 0 ≤ c ∧ 0 ≤ w ∧ x = c + w

/-- An inductor does not saturate: its current of saturation, when there is one, is not under the peak with its margin. -/
def Unsaturated (u : Setup K) (op turns : ℕ) : Prop :=
  u.bench.inductor = true → ∀ p : K, u.bench.peak op = some p → 0 < p →
    ∀ i : K, u.bench.saturation op turns = some i → 0 < i → u.margin * p ≤ i

/-- The inductance meets the requirement, or is not over its nominal. -/
def NotOver (u : Setup K) (op turns : ℕ) : Prop :=
  ∃ l : K, u.bench.inductance op turns = .value l ∧
    (check u.tolerance u.required l = some true ∨ ∃ r : K, resolve u.required .nominal = some r ∧ l ≤ r)

/-- The `i`-th number of turns from `start`. -/
def tried (u : Setup K) (start i : ℕ) : ℕ := u.advance^[i] start

/-- What a sweep of `k` numbers of turns that chose the `j`-th has seen: each was wound, within saturation and not over the inductance, and
none before the chosen had losses as small, none after had smaller. -/
structure Chosen (u : Setup K) (op start k j : ℕ) (x : K) : Prop where
  within : j < k
  losses : Losses u op (tried u start j) x
  seen : ∀ i < k, u.bench.wound (tried u start i) = true ∧ Unsaturated u op (tried u start i) ∧ NotOver u op (tried u start i)
  least : ∀ i < k, ∃ y : K, Losses u op (tried u start i) y ∧ x ≤ y
  first : ∀ i < j, ∃ y : K, Losses u op (tried u start i) y ∧ x < y

/-! ## Lemmas -/

theorem unsaturated_of {u : Setup K} {op turns : ℕ} (h : saturates u op turns = false) : Unsaturated u op turns := by
  intro hi p hp hpos i hs hipos
  unfold saturates peakOf at h
  rw [hi] at h
  simp only [if_true, hp, Option.getD_some, if_pos hpos, hs] at h
  by_contra hc
  exact absurd (decide_eq_false_iff_not.mp h) (by push Not; exact ⟨hipos, lt_of_not_ge hc⟩)

/-- What one turn of the loop did when it went as far as the losses. -/
structure Measured (u : Setup K) (op : ℕ) (s : St K) (best : Best K) (s' : St K) (best' : Best K) : Prop where
  wound : u.bench.wound s.next = true
  unsaturated : Unsaturated u op s.next
  notOver : NotOver u op s.next
  next : s'.next = u.advance s.next
  loss : ∃ x : K, Losses u op s.next x ∧ best' = keepBest best x s.next ∧ s'.total = some x
  budget : s'.budget = pred64 s.budget

theorem evaluate_measured {u : Setup K} {op turns : ℕ} {cur : Option K} {s : St K} {best : Best K} (hi : u.bench.integrated = false)
    {r : Step K} (h : evaluate u op turns cur s best = r) :
    r = .reject ∨ r = .throws ∨ r = .undefined ∨
    (u.bench.wound turns = true ∧ ∃ c w : K, u.bench.core op turns = .value (.losses c) ∧ u.bench.winding op turns = .value w ∧ 0 ≤ c ∧ 0 ≤ w ∧
      ((r = .again { s with core := some c, total := some (c + w), budget := pred64 s.budget } (keepBest best (c + w) turns) ∧
          pred64 s.budget ≠ 0 ∧ improves u.threshold cur (c + w) = true) ∨
       (r = .leave { s with core := some c, total := some (c + w), budget := pred64 s.budget } (keepBest best (c + w) turns) ∧
          (pred64 s.budget = 0 ∨ improves u.threshold cur (c + w) = false)))) := by
  unfold evaluate at h
  rw [hi] at h
  by_cases hw : u.bench.wound turns = false
  · rw [if_pos hw, if_pos rfl] at h; exact Or.inl h.symm
  · rw [if_neg hw] at h
    have hw' : u.bench.wound turns = true := by simpa using hw
    cases hc : u.bench.core op turns with
    | throws => rw [hc] at h; exact Or.inr (Or.inl h.symm)
    | undefined => rw [hc] at h; exact Or.inr (Or.inr (Or.inl h.symm))
    | value p =>
      rw [hc] at h
      cases p with
      | unscorable => exact Or.inl h.symm
      | losses c =>
        simp only at h
        by_cases hc0 : c < 0
        · rw [if_pos hc0] at h; exact Or.inr (Or.inl h.symm)
        · rw [if_neg hc0, if_neg (by simp)] at h
          cases hwd : u.bench.winding op turns with
          | throws => rw [hwd] at h; exact Or.inr (Or.inl h.symm)
          | undefined => rw [hwd] at h; exact Or.inr (Or.inr (Or.inl h.symm))
          | value w =>
            rw [hwd] at h
            simp only at h
            by_cases hw0 : w < 0
            · rw [if_pos hw0] at h; exact Or.inr (Or.inl h.symm)
            · rw [if_neg hw0] at h
              refine Or.inr (Or.inr (Or.inr ⟨hw', c, w, rfl, rfl, not_lt.mp hc0, not_lt.mp hw0, ?_⟩))
              by_cases hb : pred64 s.budget = 0
              · rw [if_pos hb] at h; exact Or.inr ⟨h.symm, Or.inl hb⟩
              · rw [if_neg hb] at h
                by_cases him : improves u.threshold cur (c + w) = true
                · rw [if_pos him] at h; exact Or.inl ⟨h.symm, hb, him⟩
                · rw [if_neg him] at h; exact Or.inr ⟨h.symm, Or.inr (by simpa using him)⟩

/-- One turn of the loop either stops before the losses, or measures. -/
theorem step_cases (u : Setup K) (op : ℕ) (s : St K) (best : Best K) (hi : u.bench.integrated = false) :
    step u op s best = .reject ∨ step u op s best = .throws ∨ step u op s best = .undefined ∨
    (∃ s' : St K, step u op s best = .leave s' best ∧ s'.total = s.total ∧ s'.core = s.core ∧ s'.coil = s.previous) ∨
    (∃ (s' : St K) (best' : Best K), Measured u op s best s' best' ∧
      ((step u op s best = .again s' best' ∧ s'.budget ≠ 0) ∨ step u op s best = .leave s' best')) := by
  unfold step
  simp only
  by_cases hsat : saturates u op s.next = true
  · rw [if_pos hsat]; exact Or.inr (Or.inr (Or.inr (Or.inl ⟨_, rfl, rfl, rfl, rfl⟩)))
  · rw [if_neg hsat]
    have hun := unsaturated_of (by simpa using hsat : saturates u op s.next = false)
    cases hl : u.bench.inductance op s.next with
    | throws => exact Or.inr (Or.inl rfl)
    | undefined => exact Or.inr (Or.inr (Or.inl rfl))
    | value l =>
      simp only
      cases hch : check u.tolerance u.required l with
      | none => exact Or.inr (Or.inl rfl)
      | some ok =>
        cases ok with
        | true =>
          simp only
          rcases evaluate_measured (cur := s.total) (s := { s with next := u.advance s.next, coil := s.next, previous := s.next })
              (best := best) (op := op) (turns := s.next) hi rfl with h | h | h | ⟨hw, c, w, h1, h2, h3, h4, h5⟩
          · exact Or.inl h
          · exact Or.inr (Or.inl h)
          · exact Or.inr (Or.inr (Or.inl h))
          · refine Or.inr (Or.inr (Or.inr (Or.inr ⟨{ s with next := u.advance s.next, coil := s.next, previous := s.next, core := some c, total := some (c + w), budget := pred64 s.budget }, keepBest best (c + w) s.next, ⟨hw, hun, ⟨l, hl, Or.inl hch⟩, rfl, ⟨c + w, ⟨c, w, h1, h2, h3, h4, rfl⟩, rfl, rfl⟩, rfl⟩, ?_⟩)))
            rcases h5 with ⟨h5, h6, _⟩ | ⟨h5, _⟩
            · exact Or.inl ⟨h5, h6⟩
            · exact Or.inr h5
        | false =>
          simp only
          cases hr : resolve u.required .nominal with
          | none => exact Or.inr (Or.inl rfl)
          | some r =>
            simp only
            by_cases hlt : r < l
            · rw [if_pos hlt]; exact Or.inr (Or.inr (Or.inr (Or.inl ⟨_, rfl, rfl, rfl, rfl⟩)))
            · rw [if_neg hlt]
              rcases evaluate_measured (cur := s.total) (s := { s with next := u.advance s.next, coil := s.next })
                  (best := best) (op := op) (turns := s.next) hi rfl with h | h | h | ⟨hw, c, w, h1, h2, h3, h4, h5⟩
              · exact Or.inl h
              · exact Or.inr (Or.inl h)
              · exact Or.inr (Or.inr (Or.inl h))
              · refine Or.inr (Or.inr (Or.inr (Or.inr ⟨{ s with next := u.advance s.next, coil := s.next, core := some c, total := some (c + w), budget := pred64 s.budget }, keepBest best (c + w) s.next, ⟨hw, hun, ⟨l, hl, Or.inr ⟨r, hr, not_lt.mp hlt⟩⟩, rfl, ⟨c + w, ⟨c, w, h1, h2, h3, h4, rfl⟩, rfl, rfl⟩, rfl⟩, ?_⟩)))
                rcases h5 with ⟨h5, h6, _⟩ | ⟨h5, _⟩
                · exact Or.inl ⟨h5, h6⟩
                · exact Or.inr h5

theorem losses_unique {u : Setup K} {op n : ℕ} {x y : K} (h : Losses u op n x) (h' : Losses u op n y) : x = y := by
  obtain ⟨c, w, h1, h2, _, _, rfl⟩ := h
  obtain ⟨c', w', h1', h2', _, _, rfl⟩ := h'
  rw [h1] at h1'; rw [h2] at h2'
  cases h1'; cases h2'; rfl

/-- The state of a sweep that has already measured `k` numbers of turns from `start`. -/
def Along (u : Setup K) (op start k : ℕ) (s : St K) (best : Best K) : Prop :=
  s.next = tried u start k ∧
  match best with
  | none => k = 0
  | some (x, n) => ∃ j : ℕ, n = tried u start j ∧ Chosen u op start k j x

theorem along_step {u : Setup K} {op start k : ℕ} {s s' : St K} {best best' : Best K} (ha : Along u op start k s best)
    (hm : Measured u op s best s' best') : Along u op start (k + 1) s' best' := by
  obtain ⟨hn, hb⟩ := ha
  obtain ⟨x, hx, hbest, _⟩ := hm.loss
  have hseen : u.bench.wound (tried u start k) = true ∧ Unsaturated u op (tried u start k) ∧ NotOver u op (tried u start k) :=
    ⟨hn ▸ hm.wound, hn ▸ hm.unsaturated, hn ▸ hm.notOver⟩
  rw [hn] at hx hbest
  refine ⟨?_, ?_⟩
  · rw [hm.next, hn]; unfold tried; rw [Function.iterate_succ_apply']
  · subst hbest
    cases best with
    | none =>
      simp only at hb
      subst hb
      refine ⟨0, rfl, ⟨by omega, hx, ?_, ?_, by intro i hi; omega⟩⟩
      · intro i hi; obtain rfl : i = 0 := by omega
        exact hseen
      · intro i hi; obtain rfl : i = 0 := by omega
        exact ⟨x, hx, le_refl _⟩
    | some bn =>
      obtain ⟨b, n⟩ := bn
      simp only at hb
      obtain ⟨j, hj, hc⟩ := hb
      unfold keepBest
      simp only
      by_cases hlt : x < b
      · rw [if_pos hlt]
        refine ⟨k, rfl, ⟨by omega, hx, ?_, ?_, ?_⟩⟩
        · intro i hi
          by_cases hik : i < k
          · exact hc.seen i hik
          · obtain rfl : i = k := by omega
            exact hseen
        · intro i hi
          by_cases hik : i < k
          · obtain ⟨y, hy, hle⟩ := hc.least i hik
            exact ⟨y, hy, le_of_lt (lt_of_lt_of_le hlt hle)⟩
          · obtain rfl : i = k := by omega
            exact ⟨x, hx, le_refl _⟩
        · intro i hi
          obtain ⟨y, hy, hle⟩ := hc.least i hi
          exact ⟨y, hy, lt_of_lt_of_le hlt hle⟩
      · rw [if_neg hlt]
        refine ⟨j, hj, ⟨Nat.lt_succ_of_lt hc.within, hc.losses, ?_, ?_, hc.first⟩⟩
        · intro i hi
          by_cases hik : i < k
          · exact hc.seen i hik
          · obtain rfl : i = k := by omega
            exact hseen
        · intro i hi
          by_cases hik : i < k
          · exact hc.least i hik
          · obtain rfl : i = k := by omega
            exact ⟨x, hx, not_lt.mp hlt⟩

theorem pred64_pos {n : ℕ} (h : 0 < n) : pred64 n = n - 1 := by
  unfold pred64; rw [if_neg (by omega)]

/-- A loop that ends has measured some numbers of turns more, no more than its budget. -/
theorem loop_left {u : Setup K} {op start : ℕ} (hi : u.bench.integrated = false) :
    ∀ (fuel k : ℕ) (s : St K) (best : Best K) (s' : St K) (best' : Best K), Along u op start k s best → 0 < s.budget →
      loop u op fuel s best = .left s' best' →
      ∃ m : ℕ, k ≤ m ∧ m ≤ k + s.budget ∧ (match best' with
        | none => m = 0 ∧ s'.core = s.core ∧ s'.total = s.total
        | some (x, n) => ∃ j : ℕ, n = tried u start j ∧ Chosen u op start m j x) := by
  intro fuel
  induction fuel with
  | zero => intro k s best s' best' _ _ h; simp [loop] at h
  | succ fuel ih =>
    intro k s best s' best' ha hpos h
    rw [loop] at h
    rcases step_cases u op s best hi with h1 | h1 | h1 | ⟨t, h1, h2, h3, h4⟩ | ⟨t, bt, hm, h1⟩
    · rw [h1] at h; cases h
    · rw [h1] at h; cases h
    · rw [h1] at h; cases h
    · rw [h1] at h
      simp only [Run.left.injEq] at h
      obtain ⟨rfl, rfl⟩ := h
      refine ⟨k, le_refl _, by omega, ?_⟩
      have hb := ha.2
      cases best with
      | none => exact ⟨hb, h3, h2⟩
      | some bn => exact hb
    · have hb : t.budget = s.budget - 1 := by rw [hm.budget, pred64_pos hpos]
      have ha' := along_step ha hm
      rcases h1 with ⟨h1, hb0⟩ | h1
      · rw [h1] at h
        obtain ⟨m, hm1, hm2, hm3⟩ := ih (k + 1) t bt s' best' ha' (by omega) h
        refine ⟨m, by omega, by omega, ?_⟩
        cases hbest : best' with
        | none =>
          rw [hbest] at hm3
          exact absurd hm3.1 (by omega)
        | some bn => rw [hbest] at hm3; exact hm3
      · rw [h1] at h
        simp only [Run.left.injEq] at h
        obtain ⟨rfl, rfl⟩ := h
        refine ⟨k + 1, by omega, by omega, ?_⟩
        obtain ⟨x, _, hbest, _⟩ := hm.loss
        have hb' := ha'.2
        cases hq : bt with
        | none => rw [hq] at hb'; simp only at hb'; omega
        | some bn => rw [hq] at hb'; exact hb'

/-- The budget of the loop is enough for it to end. -/
theorem loop_ends {u : Setup K} {op : ℕ} (hi : u.bench.integrated = false) :
    ∀ (fuel : ℕ) (s : St K) (best : Best K), 0 < s.budget → s.budget ≤ fuel → loop u op fuel s best ≠ .running := by
  intro fuel
  induction fuel with
  | zero => intro s best h1 h2; omega
  | succ fuel ih =>
    intro s best hpos hle
    rw [loop]
    rcases step_cases u op s best hi with h1 | h1 | h1 | ⟨t, h1, h2, h3, h4⟩ | ⟨t, bt, hm, h1⟩
    · rw [h1]; simp
    · rw [h1]; simp
    · rw [h1]; simp
    · rw [h1]; simp
    · have hb : t.budget = s.budget - 1 := by rw [hm.budget, pred64_pos hpos]
      rcases h1 with ⟨h1, hb0⟩ | h1
      · rw [h1]; exact ih t bt (by omega) (by omega)
      · rw [h1]; simp

/-! ## C183 -/

/-- C183. With one operating point the sweep looks at no more numbers of turns than its budget, whatever the physics: it never goes on
for ever. -/
theorem one_point_ends (u : Setup K) (hi : u.bench.integrated = false) (limit : K) (budget start fuel : ℕ) (hb : 0 < budget)
    (hf : budget ≤ fuel) : filter u fuel limit budget start 1 ≠ .running := by
  unfold filter
  rw [points]
  have := loop_ends (op := 0) hi fuel (⟨start, none, none, start, budget, start⟩ : St K) none hb hf
  cases hl : loop u 0 fuel (⟨start, none, none, start, budget, start⟩ : St K) none with
  | running => exact absurd hl this
  | throws => simp
  | undefined => simp
  | reject => simp
  | left s b =>
    simp only
    rcases hr : record s b with ⟨s2, _ | ⟨x, n⟩⟩ <;> simp [points]

/-- C183. With one operating point, either the magnetic is rejected with a score of zero and keeps its coil, or the coil it is left with is
the one whose losses were the least of the turns the sweep looked at (the first of equals), every one of them wound, within saturation and
not over the inductance; the score is the losses of that coil, and the magnetic is kept when they are under the limit. -/
theorem one_point_honest (u : Setup K) (hi : u.bench.integrated = false) (limit : K) (budget start fuel : ℕ) (hb : 0 < budget)
    {a : Answer K} {w : Written K} (h : filter u fuel limit budget start 1 = .answer a w) :
    (a = rejected ∧ w.losses = [] ∧ w.coil = none) ∨
    ∃ (k j : ℕ) (x : K), k ≤ budget ∧ Chosen u 0 start k j x ∧ w.losses = [x] ∧ w.coil = some (tried u start j) ∧
      a.score = .num x ∧ (a.valid = true ↔ x < limit) := by
  unfold filter at h
  rw [points] at h
  cases hl : loop u 0 fuel (⟨start, none, none, start, budget, start⟩ : St K) none with
  | running => rw [hl] at h; cases h
  | throws => rw [hl] at h; cases h
  | undefined => rw [hl] at h; cases h
  | reject =>
    rw [hl] at h
    simp only [Verdict.answer.injEq] at h
    obtain ⟨rfl, rfl⟩ := h
    exact Or.inl ⟨rfl, rfl, rfl⟩
  | left s b =>
    rw [hl] at h
    obtain ⟨m, _, hm2, hm3⟩ := loop_left (start := start) hi fuel 0 (⟨start, none, none, start, budget, start⟩ : St K) none s b
      ⟨rfl, rfl⟩ hb hl
    cases hbb : b with
    | none =>
      rw [hbb] at hm3 h
      obtain ⟨_, hcore, _⟩ := hm3
      simp only [record, hcore, points, finalize, Verdict.answer.injEq] at h
      obtain ⟨rfl, rfl⟩ := h
      exact Or.inl ⟨rfl, rfl, rfl⟩
    | some bn =>
      obtain ⟨x, n⟩ := bn
      rw [hbb] at hm3 h
      obtain ⟨j, rfl, hc⟩ := hm3
      simp only [record, points, finalize, List.nil_append, List.length_cons, List.length_nil, Nat.zero_add, lt_irrefl, if_false, one_ne_zero,
        List.sum_cons, List.sum_nil, add_zero, Nat.cast_one, div_one, Verdict.answer.injEq] at h
      obtain ⟨rfl, rfl⟩ := h
      refine Or.inr ⟨m, j, x, by simpa using hm2, hc, rfl, rfl, rfl, ?_⟩
      simp

/-- C183. A magnetic whose first number of turns already saturates, or is over its inductance, is rejected. -/
theorem saturated_at_start (u : Setup K) (limit : K) (budget start fuel : ℕ) (hs : saturates u 0 start = true) :
    ∃ w : Written K, filter u (fuel + 1) limit budget start 1 = .answer rejected w := by
  refine ⟨⟨[], none⟩, ?_⟩
  unfold filter
  rw [points, loop]
  simp only [step, hs, if_true, record, points, finalize]
  simp

/-! ## C184: more than one operating point -/

/-- A candidate whose losses fall and then rise with the turns, as those of a core and of a winding do. -/
def bell (inductor : Bool) (peak : ℕ → Option ℚ) : Setup ℚ where
  bench :=
    { inductor := inductor
      integrated := false
      peak := peak
      saturation := fun _ n => some (24 / n)
      inductance := fun _ n => .value (n * n)
      wound := fun _ => true
      core := fun _ n => .value (.losses (64 / (n * n)))
      winding := fun _ n => .value (n * n) }
  required := ⟨none, some 1, none⟩
  tolerance := 1 / 4
  margin := 6 / 5
  threshold := 9 / 10
  advance := fun n => n + 1

/-- What the filter answers and leaves, when it answers. -/
def seenOf (v : Verdict ℚ) : Option (Bool × Score ℚ × List ℚ × Option ℕ) :=
  match v with
  | .answer a w => some (a.valid, a.score, w.losses, w.coil)
  | _ => none

/-- C184. The losses of one operating point: three turns, 145/9 W. -/
theorem bell_once : seenOf (filter (bell false (fun _ => none)) 100 1000 10 2 1) = some (true, .num (145 / 9), [145 / 9], some 3) := by
  decide +kernel

/-- C184, the claim is false of the code: two operating points, the second equal to the first. The sweep of the second starts where that
of the first stopped and the magnetic is left with five turns, not three; the mean is of the losses of three turns and of those of five,
which no coil has, and the losses of the coil it is left with are 689/25 W. -/
theorem repeated_point_counterexample :
    seenOf (filter (bell false (fun _ => none)) 100 1000 10 2 2) = some (true, .num ((145 / 9 + 689 / 25) / 2), [145 / 9, 689 / 25], some 5) ∧
    Losses (bell false (fun _ => none)) 0 5 (689 / 25) ∧ Losses (bell false (fun _ => none)) 1 5 (689 / 25) ∧
    Losses (bell false (fun _ => none)) 0 3 (145 / 9) ∧ Losses (bell false (fun _ => none)) 1 3 (145 / 9) := by
  refine ⟨by decide +kernel, ⟨64 / 25, 25, ?_, ?_, ?_, ?_, ?_⟩, ⟨64 / 25, 25, ?_, ?_, ?_, ?_, ?_⟩, ⟨64 / 9, 9, ?_, ?_, ?_, ?_, ?_⟩,
    ⟨64 / 9, 9, ?_, ?_, ?_, ?_, ?_⟩⟩ <;> norm_num [bell]

/-- C184, the claim is false of the code: the second operating point has a smaller peak than the first. The cap of saturation of the first
stops its sweep at four turns, and the magnetic is left with five, which saturate at the first operating point. -/
theorem saturates_at_first_counterexample :
    seenOf (filter (bell true (fun op => if op = 0 then some 6 else some 3)) 100 1000 10 2 2) =
      some (true, .num ((145 / 9 + 689 / 25) / 2), [145 / 9, 689 / 25], some 5) ∧
    ¬ Unsaturated (bell true (fun op => if op = 0 then some 6 else some 3)) 0 5 := by
  refine ⟨by decide +kernel, ?_⟩
  intro h
  have := h rfl 6 (by rfl) (by norm_num) (24 / 5) (by rfl) (by norm_num)
  norm_num [bell] at this

/-- C184, the claim is false of the code: the second operating point saturates at the first number of turns it looks at, so nothing of it is
measured, and what is written for it are the last losses of the first operating point. The magnetic is kept, with the last turns the first
operating point looked at, although at the second operating point every number of turns from two on saturates. -/
theorem unmeasured_point_counterexample :
    seenOf (filter (bell true (fun op => if op = 0 then some 1 else some 20)) 100 1000 10 2 2) =
      some (true, .num ((145 / 9 + 20) / 2), [145 / 9, 20], some 4) ∧
    Losses (bell true (fun op => if op = 0 then some 1 else some 20)) 0 4 20 ∧
    ∀ n : ℕ, 2 ≤ n → ¬ Unsaturated (bell true (fun op => if op = 0 then some 1 else some 20)) 1 n := by
  refine ⟨by decide +kernel, ⟨4, 16, ?_, ?_, ?_, ?_, ?_⟩, ?_⟩
  · norm_num [bell]
  · norm_num [bell]
  · norm_num
  · norm_num
  · norm_num
  · intro n hn h
    have hq : (2 : ℚ) ≤ n := by exact_mod_cast hn
    have := h rfl 20 (by rfl) (by norm_num) (24 / n) (by rfl) (by positivity)
    have h2 : (24 : ℚ) / n ≤ 24 / 2 := by
      apply div_le_div_of_nonneg_left (by norm_num) (by norm_num) hq
    have h3 : (bell true (fun op => if op = 0 then some 1 else some 20)).margin = 6 / 5 := rfl
    rw [h3] at this
    linarith

/-- The losses a state of the loop carries were measured, at this operating point or at one before. -/
def Honest (u : Setup K) (op : ℕ) (s : St K) : Prop := ∀ t : K, s.total = some t → ∃ op' ≤ op, ∃ n : ℕ, Losses u op' n t

theorem loop_honest {u : Setup K} {op : ℕ} (hi : u.bench.integrated = false) :
    ∀ (fuel : ℕ) (s : St K) (best : Best K) (s' : St K) (best' : Best K), Honest u op s →
      (∀ x n, best = some (x, n) → Losses u op n x ∧ Unsaturated u op n ∧ NotOver u op n) → loop u op fuel s best = .left s' best' →
      Honest u op s' ∧ ∀ x n, best' = some (x, n) → Losses u op n x ∧ Unsaturated u op n ∧ NotOver u op n := by
  intro fuel
  induction fuel with
  | zero => intro s best s' best' _ _ h; simp [loop] at h
  | succ fuel ih =>
    intro s best s' best' hs hb h
    rw [loop] at h
    rcases step_cases u op s best hi with h1 | h1 | h1 | ⟨t, h1, h2, h3, h4⟩ | ⟨t, bt, hm, h1⟩
    · rw [h1] at h; cases h
    · rw [h1] at h; cases h
    · rw [h1] at h; cases h
    · rw [h1] at h
      simp only [Run.left.injEq] at h
      obtain ⟨rfl, rfl⟩ := h
      exact ⟨fun x hx => hs x (h2 ▸ hx), hb⟩
    · obtain ⟨x, hx, hbest, htot⟩ := hm.loss
      have hs' : Honest u op t := by
        intro y hy
        rw [htot] at hy
        cases hy
        exact ⟨op, le_refl _, s.next, hx⟩
      have hb' : ∀ y n, bt = some (y, n) → Losses u op n y ∧ Unsaturated u op n ∧ NotOver u op n := by
        intro y n hy
        rw [hbest] at hy
        cases hbb : best with
        | none =>
          rw [hbb] at hy
          simp only [keepBest, Option.some.injEq, Prod.mk.injEq] at hy
          obtain ⟨rfl, rfl⟩ := hy
          exact ⟨hx, hm.unsaturated, hm.notOver⟩
        | some bn =>
          obtain ⟨b, m⟩ := bn
          rw [hbb] at hy
          simp only [keepBest] at hy
          split_ifs at hy
          · simp only [Option.some.injEq, Prod.mk.injEq] at hy
            obtain ⟨rfl, rfl⟩ := hy
            exact ⟨hx, hm.unsaturated, hm.notOver⟩
          · exact hb y n (by rw [hbb]; exact hy)
      rcases h1 with ⟨h1, _⟩ | h1
      · rw [h1] at h; exact ih t bt s' best' hs' hb' h
      · rw [h1] at h
        simp only [Run.left.injEq] at h
        obtain ⟨rfl, rfl⟩ := h
        exact ⟨hs', hb'⟩

theorem points_honest {u : Setup K} (hi : u.bench.integrated = false) (fuel : ℕ) (limit : K) (ops : ℕ) :
    ∀ (left op : ℕ) (s : St K) (w : Written K) (a : Answer K) (w' : Written K), (∀ op', op' + 1 = op → Honest u op' s) → (op = 0 → s.total = none) →
      (∀ x ∈ w.losses, ∃ op' < op + left, ∃ n : ℕ, Losses u op' n x) → w.losses.length ≤ op →
      points u fuel limit ops op left s w = .answer a w' →
      (∀ x ∈ w'.losses, ∃ op' < op + left, ∃ n : ℕ, Losses u op' n x) ∧ w'.losses.length ≤ op + left ∧ (a = rejected ∨ a = finalize limit ops w') := by
  intro left
  induction left with
  | zero =>
    intro op s w a w' _ _ hw hlen h
    simp only [points, Verdict.answer.injEq] at h
    obtain ⟨rfl, rfl⟩ := h
    exact ⟨hw, hlen, Or.inr rfl⟩
  | succ left ih =>
    intro op s w a w' hs h0 hw hlen h
    rw [points] at h
    cases hl : loop u op fuel s none with
    | running => rw [hl] at h; cases h
    | throws => rw [hl] at h; cases h
    | undefined => rw [hl] at h; cases h
    | reject =>
      rw [hl] at h
      simp only [Verdict.answer.injEq] at h
      obtain ⟨rfl, rfl⟩ := h
      exact ⟨hw, by omega, Or.inl rfl⟩
    | left s' b =>
      rw [hl] at h
      have hsop : Honest u op s := by
        rcases Nat.eq_zero_or_pos op with h' | h'
        · intro t ht; rw [h0 h'] at ht; cases ht
        · intro t ht
          obtain ⟨op', hle, n, hn⟩ := hs (op - 1) (by omega) t ht
          exact ⟨op', by omega, n, hn⟩
      obtain ⟨hs', hb'⟩ := loop_honest hi fuel s none s' b hsop (by simp) hl
      have hnext : ∀ s'' : St K, s''.total = s'.total → ∀ op', op' + 1 = op + 1 → Honest u op' s'' := by
        intro s'' he op' hop t ht
        obtain rfl : op' = op := by omega
        exact hs' t (he ▸ ht)
      have hpush : ∀ x : K, (∃ op' ≤ op, ∃ n : ℕ, Losses u op' n x) →
          ∀ y ∈ w.losses ++ [x], ∃ op' < op + 1 + left, ∃ n : ℕ, Losses u op' n y := by
        intro x hx y hy
        rcases List.mem_append.mp hy with hy | hy
        · obtain ⟨op', hlt, n, hn⟩ := hw y hy
          exact ⟨op', by omega, n, hn⟩
        · obtain rfl : y = x := by simpa using hy
          obtain ⟨op', hle, n, hn⟩ := hx
          exact ⟨op', by omega, n, hn⟩
      have hskip : ∀ y ∈ w.losses, ∃ op' < op + 1 + left, ∃ n : ℕ, Losses u op' n y := by
        intro y hy
        obtain ⟨op', hlt, n, hn⟩ := hw y hy
        exact ⟨op', by omega, n, hn⟩
      have hsum : op + (left + 1) = op + 1 + left := by omega
      rw [hsum]
      cases hbb : b with
      | some bn =>
        obtain ⟨x, n⟩ := bn
        rw [hbb] at h
        simp only [record] at h
        exact ih (op + 1) { s' with coil := n } ⟨w.losses ++ [x], some n⟩ a w' (hnext _ rfl) (by omega)
          (hpush x ⟨op, le_refl _, n, (hb' x n hbb).1⟩) (by simp; omega) h
      | none =>
        rw [hbb] at h
        cases hcore : s'.core with
        | none =>
          simp only [record, hcore] at h
          exact ih (op + 1) _ _ a w' (hnext _ rfl) (by omega) hskip (by omega) h
        | some c =>
          cases htot : s'.total with
          | none =>
            simp only [record, hcore, htot] at h
            exact ih (op + 1) _ _ a w' (hnext _ rfl) (by omega) hskip (by omega) h
          | some t =>
            simp only [record, hcore, htot] at h
            by_cases hc : 0 < c
            · rw [if_pos hc] at h
              exact ih (op + 1) s' ⟨w.losses ++ [t], some s'.coil⟩ a w' (hnext _ rfl) (by omega) (hpush t (hs' t htot)) (by simp; omega) h
            · rw [if_neg hc] at h
              exact ih (op + 1) _ _ a w' (hnext _ rfl) (by omega) hskip (by omega) h

/-- C184. What does hold with any number of operating points: every loss in the mean was measured at some number of turns of some operating
point, there is one for each operating point, and the magnetic is kept only when their mean is under the limit. What is missing for the claim:
that they are of one coil and each of its own operating point. -/
theorem kept_was_measured_partial (u : Setup K) (hi : u.bench.integrated = false) (limit : K) (budget start fuel ops : ℕ)
    {a : Answer K} {w : Written K} (h : filter u fuel limit budget start ops = .answer a w) (hv : a.valid = true) :
    0 < ops ∧ w.losses.length = ops ∧ (∀ x ∈ w.losses, ∃ op < ops, ∃ n : ℕ, Losses u op n x) ∧
    a.score = .num (w.losses.sum / ops) ∧ w.losses.sum / ops < limit := by
  obtain ⟨h1, h2, h3⟩ := points_honest hi fuel limit ops ops 0 _ _ a w (by intro op' h; omega) (by intro _; rfl) (by simp) (by simp) h
  rcases h3 with h3 | h3
  · rw [h3] at hv; simp [rejected] at hv
  · subst h3
    simp only [Nat.zero_add] at h1 h2
    unfold finalize at hv ⊢
    by_cases hl : w.losses.length < ops
    · rw [if_pos hl] at hv; simp [rejected] at hv
    · rw [if_neg hl] at hv ⊢
      by_cases h0 : ops = 0
      · rw [if_pos h0] at hv; simp at hv
      · rw [if_neg h0] at hv ⊢
        exact ⟨by omega, by omega, h1, rfl, by simpa using hv⟩

/-- Its hypotheses are met: two operating points, kept. -/
example : seenOf (filter (bell false (fun _ => none)) 100 1000 10 2 2) = some (true, .num ((145 / 9 + 689 / 25) / 2), [145 / 9, 689 / 25], some 5) := by
  decide +kernel

/-- C184. No operating points: nothing is kept, and the score is not a number. -/
theorem no_points (u : Setup K) (limit : K) (budget start fuel : ℕ) :
    filter u fuel limit budget start 0 = .answer ⟨false, .nan⟩ ⟨[], none⟩ := by
  simp [filter, points, finalize]

/-- C183, the claim is false of the code for requirements with a lower bound: too much inductance stops the sweep, too little does not, and
the magnetic is kept with it. -/
theorem too_little_inductance_counterexample :
    seenOf (filter { bell false (fun _ => none) with required := ⟨some 100, some 90, some 110⟩ } 100 1000 10 2 1) =
      some (true, .num (145 / 9), [145 / 9], some 3) ∧
    (bell false (fun _ => none)).bench.inductance 0 3 = .value 9 ∧
    check (1 / 4) (⟨some 100, some 90, some 110⟩ : Dim ℚ) 9 = some false := by
  refine ⟨by decide +kernel, ?_, by decide +kernel⟩
  norm_num [bell]

end Verif.Filters.Sweep
