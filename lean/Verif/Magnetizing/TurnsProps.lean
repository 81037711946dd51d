import Verif.Magnetizing.Turns
import Mathlib.Algebra.Order.Field.Rat
import Mathlib.Tactic.Linarith
import Mathlib.Tactic.Positivity
import Mathlib.Tactic.FieldSimp
import Mathlib.Tactic.Ring
import Mathlib.Tactic.NormNum

/-! # Turns for an inductance (C229, C230) -/

set_option linter.unusedSectionVars false

namespace Verif.Magnetizing

variable {K : Type} [Field K] [LinearOrder K] [IsStrictOrderedRing K] [FloorRing K]

/-! ## The rounded root -/

/-- What is rounded is at most half a unit from the root. -/
theorem rootRound_spec (x : K) (hx : 0 ≤ x) :
    4 * x < (2 * (rootRound x : K) + 1) ^ 2 ∧ (1 ≤ rootRound x → (2 * (rootRound x : K) - 1) ^ 2 ≤ 4 * x) := by
  have h0 : (0 : K) ≤ 4 * x := by linarith
  have h1 := Nat.sqrt_le' ⌊4 * x⌋₊
  have h2 := Nat.lt_succ_sqrt' ⌊4 * x⌋₊
  have hf := Nat.floor_le h0
  have hl := Nat.lt_floor_add_one (4 * x)
  have hr : rootRound x = (Nat.sqrt ⌊4 * x⌋₊ + 1) / 2 := rfl
  generalize Nat.sqrt ⌊4 * x⌋₊ = s at *
  generalize ⌊4 * x⌋₊ = f at *
  have h3 : s ≤ 2 * rootRound x := by omega
  have h4 : 2 * rootRound x ≤ s + 1 := by omega
  generalize rootRound x = n at *
  have h1' : ((s : K)) ^ 2 ≤ (f : K) := by exact_mod_cast h1
  have h2' : (f : K) + 1 ≤ ((s : K) + 1) ^ 2 := by exact_mod_cast h2
  have h3' : (s : K) ≤ 2 * (n : K) := by exact_mod_cast h3
  have h4' : 2 * (n : K) ≤ (s : K) + 1 := by exact_mod_cast h4
  have hs : (0 : K) ≤ s := Nat.cast_nonneg s
  refine ⟨?_, ?_⟩
  · have : ((s : K) + 1) ^ 2 ≤ (2 * (n : K) + 1) ^ 2 := pow_le_pow_left₀ (by linarith) (by linarith) 2
    linarith
  · intro hn
    have hn' : (1 : K) ≤ n := by exact_mod_cast hn
    have : (2 * (n : K) - 1) ^ 2 ≤ (s : K) ^ 2 := pow_le_pow_left₀ (by linarith) (by linarith) 2
    linarith

theorem toInt_some {n : ℕ} {m : ℤ} (h : toInt n = some m) : m = n ∧ n < 2 ^ 31 := by
  unfold toInt at h
  split at h
  · rename_i hn
    exact ⟨by simpa using h.symm, hn⟩
  · simp at h

/-! ## The steps, without state -/

/-- An inductance that only depends on the turns. -/
def pure (L : ℤ → K) : Unit → ℤ → K × Unit := fun _ n => (L n, ())

theorem newton_pos {S : Type} {eval : S → ℤ → K × S} {target : K} : ∀ (left : ℕ) (s : S) (n : ℤ) (p : ℤ × S), 1 ≤ n →
    newton eval target left s n = some p → 1 ≤ p.1
  | 0, s, n, p, hn, h => by
    simp only [newton, Option.some.injEq] at h
    rw [← h]; exact hn
  | left + 1, s, n, p, hn, h => by
    simp only [newton] at h
    split at h
    · simp only [Option.some.injEq] at h
      rw [← h]; exact hn
    · cases ht : toInt (rootRound ((n : K) ^ 2 * (target / (eval s n).1))) with
      | none => simp [ht] at h
      | some next =>
        simp only [ht, Option.bind_some] at h
        split at h
        · simp only [Option.some.injEq] at h
          rw [← h]; exact hn
        · exact newton_pos left _ _ p (le_max_left 1 next) h

/-- The turns added: they start at `n`, the ones passed are below the target, and it ends at one that is not or after all the steps. -/
theorem bump_spec {L : ℤ → K} {target : K} : ∀ (left : ℕ) (n m : ℤ), bump (pure L) target left () n = some m →
    n ≤ m ∧ (∀ j, n ≤ j → j < m → 0 < L j ∧ L j < target) ∧ (L m ≤ 0 ∨ target ≤ L m ∨ m = n + left)
  | 0, n, m, h => by
    simp only [bump, Option.some.injEq] at h
    subst h
    exact ⟨le_refl _, fun j h1 h2 => absurd h2 (by omega), by simp⟩
  | left + 1, n, m, h => by
    simp only [bump, pure] at h
    by_cases hc : L n ≤ 0 ∨ L n ≥ target
    · rw [if_pos hc] at h
      simp only [Option.some.injEq] at h
      subst h
      exact ⟨le_refl _, fun j h1 h2 => absurd h2 (by omega), by rcases hc with hc | hc; exact .inl hc; exact .inr (.inl hc)⟩
    · rw [if_neg hc] at h
      by_cases hi : n + 1 < 2 ^ 31
      · rw [if_pos hi] at h
        obtain ⟨h1, h2, h3⟩ := bump_spec left (n + 1) m h
        push Not at hc
        refine ⟨by omega, fun j h4 h5 => ?_, ?_⟩
        · by_cases hj : j = n
          · subst hj; exact hc
          · exact h2 j (by omega) h5
        · rcases h3 with h3 | h3 | h3
          · exact .inl h3
          · exact .inr (.inl h3)
          · exact .inr (.inr (by push_cast; omega))
      · rw [if_neg hi] at h; simp at h

/-- The pick is the best of the candidates that count, or the one it started with if none does. -/
theorem pick_spec {L : ℤ → K} {target : K} : ∀ (cs : List ℤ) (best : Option K) (turns : ℤ),
    (∀ b, best = some b → b = |L turns - target|) →
    let n := pick (pure L) target () cs best turns
    (n = turns ∨ n ∈ cs ∧ 1 ≤ n ∧ 0 < L n) ∧ (∀ c ∈ cs, 1 ≤ c → 0 < L c → |L n - target| ≤ |L c - target|) ∧
      (∀ b, best = some b → |L n - target| ≤ b)
  | [], best, turns, h => by
    refine ⟨.inl rfl, by simp, fun b hb => ?_⟩
    rw [h b hb]
    exact le_refl _
  | c :: cs, best, turns, h => by
    have hdef : pick (pure L) target () (c :: cs) best turns =
        if c < 1 then pick (pure L) target () cs best turns
        else if L c ≤ 0 then pick (pure L) target () cs best turns
        else if best.all (fun b => decide (|L c - target| < b)) then pick (pure L) target () cs (some |L c - target|) c
        else pick (pure L) target () cs best turns := rfl
    simp only [hdef]
    by_cases h1 : c < 1
    · rw [if_pos h1]
      obtain ⟨h2, h3, h4⟩ := pick_spec cs best turns h
      refine ⟨?_, ?_, h4⟩
      · rcases h2 with h2 | ⟨h2, h5⟩
        · exact .inl h2
        · exact .inr ⟨List.mem_cons_of_mem _ h2, h5⟩
      · intro d hd hp hl
        rcases List.mem_cons.mp hd with rfl | hd
        · omega
        · exact h3 d hd hp hl
    rw [if_neg h1]
    by_cases h2 : L c ≤ 0
    · rw [if_pos h2]
      obtain ⟨h5, h3, h4⟩ := pick_spec cs best turns h
      refine ⟨?_, ?_, h4⟩
      · rcases h5 with h5 | ⟨h5, h6⟩
        · exact .inl h5
        · exact .inr ⟨List.mem_cons_of_mem _ h5, h6⟩
      · intro d hd hp hl
        rcases List.mem_cons.mp hd with rfl | hd
        · exact absurd hl (not_lt.mpr h2)
        · exact h3 d hd hp hl
    rw [if_neg h2]
    by_cases h3 : best.all (fun b => decide (|L c - target| < b)) = true
    · rw [if_pos h3]
      obtain ⟨h5, h6, h7⟩ := pick_spec cs (some |L c - target|) c (fun b hb => (Option.some.inj hb).symm)
      have h8 := h7 _ rfl
      refine ⟨?_, ?_, ?_⟩
      · rcases h5 with h5 | ⟨h5, h9⟩
        · refine .inr ?_
          rw [h5]
          exact ⟨by simp, by omega, not_le.mp h2⟩
        · exact .inr ⟨List.mem_cons_of_mem _ h5, h9⟩
      · intro d hd hp hl
        rcases List.mem_cons.mp hd with rfl | hd
        · exact h8
        · exact h6 d hd hp hl
      · intro b hb
        rw [hb] at h3
        exact h8.trans (le_of_lt (by simpa using h3))
    · rw [if_neg h3]
      obtain ⟨h5, h6, h7⟩ := pick_spec cs best turns h
      refine ⟨?_, ?_, h7⟩
      · rcases h5 with h5 | ⟨h5, h9⟩
        · exact .inl h5
        · exact .inr ⟨List.mem_cons_of_mem _ h5, h9⟩
      · intro d hd hp hl
        rcases List.mem_cons.mp hd with rfl | hd
        · cases hb : best with
          | none => simp [hb] at h3
          | some b =>
            rw [hb] at h3
            have := (h7 b hb).trans (show b ≤ |L d - target| by simpa using h3)
            rw [hb] at this
            exact this
        · exact h6 d hd hp hl

/-! ## C229: turns for a minimum -/

/-- **C229.** For a minimum, the turns answered clear it, or their inductance is not positive, or a hundred turns before them are all below it.

Partial: the last two cases are answered like the first, see `minimum_missed`, and without operating point nothing is cleared, see
`no_point_below_minimum`. -/
theorem minimum_cleared_partial (L : ℤ → K) (given : ℤ) (reluctance target : K) (ht : 0 < target) (n : ℤ)
    (h : turnsFor (pure L) (some given) reluctance target true (some ()) = some n) :
    1 ≤ n ∧ (target ≤ L n ∨ L n ≤ 0 ∨ 101 ≤ n ∧ ∀ j, n - 100 ≤ j → j < n → 0 < L j ∧ L j < target) := by
  unfold turnsFor at h
  rw [if_neg (by simpa using ht)] at h
  cases hs : toInt (rootRound (target * reluctance)) with
  | none => simp [hs] at h
  | some seed =>
    simp only [hs, Option.bind_some] at h
    cases hw : newton (pure L) target 6 () (max 1 seed) with
    | none => simp [hw] at h
    | some p =>
      obtain ⟨m, ⟨⟩⟩ := p
      have hm := newton_pos 6 () (max 1 seed) _ (le_max_left 1 seed) hw
      simp only [hw, Option.bind_some, if_true] at h
      cases hb : bump (pure L) target 100 () m with
      | none => simp [hb] at h
      | some k =>
        simp only [hb, Option.bind_some, Option.some.injEq] at h
        obtain ⟨h1, h2, h3⟩ := bump_spec 100 m k hb
        have hk : (1 : ℤ) ≤ k := le_trans hm h1
        rw [max_eq_right hk] at h
        subst h
        refine ⟨hk, ?_⟩
        rcases h3 with h3 | h3 | h3
        · exact .inr (.inl h3)
        · exact .inl h3
        · exact .inr (.inr ⟨by push_cast at h3; omega, fun j h4 h5 => h2 j (by push_cast at h3; omega) h5⟩)

/-- One step of the iteration when the reluctance does not depend on the turns. -/
theorem newton_constant {R target : K} (hR : 0 < R) (ht : 0 < target) (n : ℤ) (hn : 1 ≤ n) :
    (n : K) ^ 2 * (target / ((n : K) ^ 2 / R)) = target * R := by
  have h1 : (n : K) ≠ 0 := by
    have : (0 : K) < n := by exact_mod_cast (by omega : (0 : ℤ) < n)
    exact this.ne'
  field_simp

theorem newton_end {R target : K} (hR : 0 < R) (ht : 0 < target) (n : ℤ) (hn : 1 ≤ n) (left : ℕ) (p : ℤ × Unit)
    (h : newton (pure fun n : ℤ => (n : K) ^ 2 / R) target (left + 2) () n = some p) : p.1 = max 1 (rootRound (target * R) : ℤ) := by
  have hpos : ∀ m : ℤ, 1 ≤ m → ¬ (m : K) ^ 2 / R ≤ 0 := by
    intro m hm
    have : (0 : K) < m := by exact_mod_cast (by omega : (0 : ℤ) < m)
    rw [not_le]
    positivity
  simp only [newton, pure] at h
  rw [if_neg (hpos n hn), newton_constant hR ht n hn] at h
  cases hs : toInt (rootRound (target * R)) with
  | none => simp [hs] at h
  | some next =>
    obtain ⟨hnext, _⟩ := toInt_some hs
    simp only [hs, Option.bind_some] at h
    by_cases he : max 1 next = n
    · rw [if_pos he] at h
      simp only [Option.some.injEq] at h
      rw [← h, ← he, hnext]
    · rw [if_neg he, if_neg (hpos _ (le_max_left 1 next)), newton_constant hR ht _ (le_max_left 1 next)] at h
      simp only [hs, Option.bind_some, if_true, Option.some.injEq] at h
      rw [← h, hnext]

/-- **C229.** With a reluctance that does not depend on the turns, whatever the permeability of the seed, the turns for a minimum are the least that
clear it. -/
theorem least_turns (given : ℤ) (seed R target : K) (hR : 0 < R) (ht : 0 < target) (n : ℤ)
    (h : turnsFor (pure fun n : ℤ => (n : K) ^ 2 / R) (some given) seed target true (some ()) = some n) :
    1 ≤ n ∧ target ≤ (n : K) ^ 2 / R ∧ ∀ m : ℤ, 1 ≤ m → target ≤ (m : K) ^ 2 / R → n ≤ m := by
  unfold turnsFor at h
  rw [if_neg (by simpa using ht)] at h
  cases hs : toInt (rootRound (target * seed)) with
  | none => simp [hs] at h
  | some sd =>
    simp only [hs, Option.bind_some] at h
    cases hw : newton (pure fun n : ℤ => (n : K) ^ 2 / R) target 6 () (max 1 sd) with
    | none => simp [hw] at h
    | some p =>
      have hp := newton_end hR ht (max 1 sd) (le_max_left 1 sd) 4 p hw
      obtain ⟨m, ⟨⟩⟩ := p
      simp only at hp
      simp only [hw, Option.bind_some, if_true] at h
      cases hb : bump (pure fun n : ℤ => (n : K) ^ 2 / R) target 100 () m with
      | none => simp [hb] at h
      | some k =>
        simp only [hb, Option.bind_some, Option.some.injEq] at h
        obtain ⟨h1, h2, h3⟩ := bump_spec 100 m k hb
        have hm1 : 1 ≤ m := by rw [hp]; exact le_max_left _ _
        have hk : (1 : ℤ) ≤ k := le_trans hm1 h1
        rw [max_eq_right hk] at h
        subst h
        obtain ⟨s1, s2⟩ := rootRound_spec (target * R) (by positivity)
        have hbelow : ∀ j : ℤ, (1 : ℤ) ≤ j → ((j : K) ^ 2 / R < target ↔ (j : K) ^ 2 < target * R) := fun j _ => div_lt_iff₀ hR
        have hclear : ∀ j : ℤ, (1 : ℤ) ≤ j → (target ≤ (j : K) ^ 2 / R ↔ target * R ≤ (j : K) ^ 2) := fun j _ => le_div_iff₀ hR
        generalize hx : target * R = x at *
        -- the end of the iteration, and at most one more
        have hm2 : x < ((m : K) + 1) ^ 2 := by
          have hz : ((rootRound x : ℤ) : K) ≤ (m : K) := by rw [hp]; exact_mod_cast le_max_right 1 (rootRound x : ℤ)
          have hz' : (rootRound x : K) ≤ (m : K) := by exact_mod_cast hz
          have h0 : (0 : K) ≤ rootRound x := Nat.cast_nonneg _
          have : (2 * (rootRound x : K) + 1) ^ 2 ≤ (2 * ((m : K) + 1)) ^ 2 := pow_le_pow_left₀ (by linarith) (by linarith) 2
          have h4 : (2 * ((m : K) + 1)) ^ 2 = 4 * ((m : K) + 1) ^ 2 := by ring
          linarith
        have hk2 : k ≤ m + 1 := by
          by_contra hc
          push Not at hc
          have := (h2 (m + 1) (by omega) hc).2
          rw [hbelow (m + 1) (by omega)] at this
          push_cast at this
          exact absurd this (not_lt.mpr hm2.le)
        have hcl : target ≤ (k : K) ^ 2 / R := by
          rcases h3 with h3 | h3 | h3
          · exfalso
            have : (0 : K) < k := by exact_mod_cast (by omega : (0 : ℤ) < k)
            have : (0 : K) < (k : K) ^ 2 / R := by positivity
            linarith
          · exact h3
          · push_cast at h3; omega
        refine ⟨hk, hcl, ?_⟩
        intro j hj hcj
        by_contra hlt
        push Not at hlt
        by_cases hjm : m ≤ j
        · have := (h2 j hjm hlt).2
          exact absurd this (not_lt.mpr hcj)
        · push Not at hjm
          rw [hclear j hj] at hcj
          have hmr : m = (rootRound x : ℤ) := by
            rcases max_cases (1 : ℤ) (rootRound x : ℤ) with ⟨h5, _⟩ | ⟨h5, _⟩
            · omega
            · rw [hp, h5]
          have hr1 : 1 ≤ rootRound x := by omega
          have hs2 := s2 hr1
          have hjr : (j : K) ≤ (rootRound x : K) - 1 := by
            have : j ≤ (rootRound x : ℤ) - 1 := by omega
            have : (j : K) ≤ (((rootRound x : ℤ) - 1 : ℤ) : K) := by exact_mod_cast this
            push_cast at this
            exact this
          have hj0 : (1 : K) ≤ j := by exact_mod_cast hj
          have : (2 * (j : K) + 1) ^ 2 ≤ (2 * (rootRound x : K) - 1) ^ 2 := pow_le_pow_left₀ (by linarith) (by linarith) 2
          nlinarith

/-- **C229, C230.** Whatever the inductance does with the turns, and with or without operating points, the turns answered are at least one; without
operating points they are one, or the whole number nearest to the root of the inductance times the reluctance. -/
theorem at_least_one_turn {S : Type} (eval : S → ℤ → K × S) (given : Option ℤ) (reluctance target : K) (minimum : Bool) (start : Option S) (n : ℤ)
    (h : turnsFor eval given reluctance target minimum start = some n) :
    1 ≤ n ∧ (start = none → 0 < target → given ≠ none → 0 ≤ reluctance →
      4 * (target * reluctance) < (2 * (n : K) + 1) ^ 2 ∧ (1 < n → (2 * (n : K) - 1) ^ 2 ≤ 4 * (target * reluctance))) := by
  unfold turnsFor at h
  by_cases h0 : target ≤ 0 ∨ given = none
  · rw [if_pos h0] at h
    simp only [Option.some.injEq] at h
    subst h
    exact ⟨le_max_left _ _, fun _ ht hg => by rcases h0 with h0 | h0 <;> [exact absurd ht (not_lt.2 h0); exact absurd h0 hg]⟩
  · rw [if_neg h0] at h
    cases hs : toInt (rootRound (target * reluctance)) with
    | none => simp [hs] at h
    | some seed =>
      simp only [hs, Option.bind_some] at h
      cases start with
      | none =>
        simp only [Option.some.injEq] at h
        subst h
        refine ⟨le_max_left _ _, fun _ ht _ hr => ?_⟩
        obtain ⟨h1, h2⟩ := rootRound_spec (target * reluctance) (mul_nonneg ht.le hr)
        obtain ⟨rfl, _⟩ := toInt_some hs
        have hle : ((rootRound (target * reluctance) : ℕ) : K) ≤ ((max 1 ((rootRound (target * reluctance) : ℕ) : ℤ) : ℤ) : K) := by
          exact_mod_cast le_max_right (1 : ℤ) (rootRound (target * reluctance) : ℤ)
        constructor
        · refine h1.trans_le (pow_le_pow_left₀ (by positivity) (by linarith) 2)
        · intro hn
          have hm : max 1 ((rootRound (target * reluctance) : ℕ) : ℤ) = (rootRound (target * reluctance) : ℤ) := by omega
          rw [hm] at hn ⊢
          have := h2 (by omega)
          exact_mod_cast this
      | some s =>
        simp only at h
        cases hn : newton eval target 6 s (max 1 seed) with
        | none => simp [hn] at h
        | some p =>
          simp only [hn, Option.bind_some] at h
          refine ⟨?_, by simp⟩
          split_ifs at h
          · cases hb : bump eval target 100 p.2 p.1 with
            | none => simp [hb] at h
            | some m => simp only [hb, Option.bind_some, Option.some.injEq] at h; omega
          · simp only [Option.some.injEq] at h; omega

/-- Case of `at_least_one_turn`: no turns would be the nearest. -/
example : turnsFor (pure fun n : ℤ => (n : ℚ) ^ 2) (some 1) 1 (1 / 10 : ℚ) false none = some 1 := by decide +kernel

/-- **C229.** An inductance that never reaches the minimum: the turns are answered all the same. -/
theorem minimum_missed : turnsFor (pure fun n : ℤ => if n ≤ 10 then (n : ℚ) / 10 else 1) (some 1) 50 (2 : ℚ) true (some ()) = some 181 ∧
    (if (181 : ℤ) ≤ 10 then ((181 : ℤ) : ℚ) / 10 else 1) < 2 := by
  decide +kernel

/-- **C229.** Without operating points, the turns for a minimum are those rounded, which may be below it: ten turns where eleven are needed. -/
theorem no_point_below_minimum : turnsFor (pure fun n : ℤ => (n : ℚ) ^ 2 / 1) (some 1) 1 108 true none = some 10 ∧ ((10 : ℤ) : ℚ) ^ 2 / 1 < 108 ∧
    turnsFor (pure fun n : ℤ => (n : ℚ) ^ 2 / 1) (some 1) 1 108 true (some ()) = some 11 := by
  decide +kernel

/-- Case of `least_turns`: another seed, the same answer. -/
example : turnsFor (pure fun n : ℤ => (n : ℚ) ^ 2 / 1) (some 1) 30 108 true (some ()) = some 11 := by decide +kernel

/-! ## C230: turns for a nominal -/

/-- **C230.** For a nominal value, the turns answered are the best of three neighbours.

Partial: the best of all is another one where the iteration has not settled after six steps, see `nominal_missed`. -/
theorem best_of_three_partial (L : ℤ → K) (given : ℤ) (reluctance target : K) (ht : 0 < target) (n : ℤ)
    (h : turnsFor (pure L) (some given) reluctance target false (some ()) = some n) :
    ∃ m : ℤ, 1 ≤ m ∧ 1 ≤ n ∧ m - 1 ≤ n ∧ n ≤ m + 1 ∧ ∀ c, 1 ≤ c → m - 1 ≤ c → c ≤ m + 1 → 0 < L c → |L n - target| ≤ |L c - target| := by
  unfold turnsFor at h
  rw [if_neg (by simpa using ht)] at h
  cases hs : toInt (rootRound (target * reluctance)) with
  | none => simp [hs] at h
  | some seed =>
    simp only [hs, Option.bind_some] at h
    cases hw : newton (pure L) target 6 () (max 1 seed) with
    | none => simp [hw] at h
    | some p =>
      obtain ⟨m, ⟨⟩⟩ := p
      have hm := newton_pos 6 () (max 1 seed) _ (le_max_left 1 seed) hw
      simp only at hm
      simp only [hw, Option.bind_some, Bool.false_eq_true, if_false] at h
      split at h
      · obtain ⟨h1, h2, _⟩ := pick_spec (L := L) (target := target) [m - 1, m, m + 1] none m (by simp)
        generalize pick (pure L) target () [m - 1, m, m + 1] none m = k at h h1 h2
        have hk : 1 ≤ k ∧ m - 1 ≤ k ∧ k ≤ m + 1 := by
          rcases h1 with h1 | ⟨h1, h5, _⟩
          · omega
          · simp only [List.mem_cons, List.not_mem_nil, or_false] at h1
            omega
        simp only [Option.some.injEq] at h
        rw [max_eq_right hk.1] at h
        subst h
        refine ⟨m, hm, hk.1, hk.2.1, hk.2.2, fun c hc h6 h7 hl => h2 c ?_ hc hl⟩
        simp only [List.mem_cons, List.not_mem_nil, or_false]
        omega
      · simp at h

/-- **C230.** With a reluctance that does not depend on the turns, no other number of turns comes closer to the inductance. -/
theorem nearest_turns (given : ℤ) (seed R target : K) (hR : 0 < R) (ht : 0 < target) (n : ℤ)
    (h : turnsFor (pure fun n : ℤ => (n : K) ^ 2 / R) (some given) seed target false (some ()) = some n) :
    1 ≤ n ∧ ∀ c : ℤ, 1 ≤ c → |(n : K) ^ 2 / R - target| ≤ |(c : K) ^ 2 / R - target| := by
  unfold turnsFor at h
  rw [if_neg (by simpa using ht)] at h
  cases hs : toInt (rootRound (target * seed)) with
  | none => simp [hs] at h
  | some sd =>
    simp only [hs, Option.bind_some] at h
    cases hw : newton (pure fun n : ℤ => (n : K) ^ 2 / R) target 6 () (max 1 sd) with
    | none => simp [hw] at h
    | some p =>
      have hp := newton_end hR ht (max 1 sd) (le_max_left 1 sd) 4 p hw
      obtain ⟨m, ⟨⟩⟩ := p
      simp only at hp
      simp only [hw, Option.bind_some, Bool.false_eq_true, if_false] at h
      split at h
      · have hm1 : 1 ≤ m := by rw [hp]; exact le_max_left _ _
        obtain ⟨h1, h2, _⟩ := pick_spec (L := fun n : ℤ => (n : K) ^ 2 / R) (target := target) [m - 1, m, m + 1] none m (by simp)
        generalize pick (pure fun n : ℤ => (n : K) ^ 2 / R) target () [m - 1, m, m + 1] none m = k at h h1 h2
        have hk : 1 ≤ k := by
          rcases h1 with h1 | ⟨_, h5, _⟩ <;> omega
        simp only [Option.some.injEq] at h
        rw [max_eq_right hk] at h
        subst h
        have hpos : ∀ j : ℤ, 1 ≤ j → 0 < (j : K) ^ 2 / R := by
          intro j hj
          have : (0 : K) < j := by exact_mod_cast (by omega : (0 : ℤ) < j)
          positivity
        have hmono : ∀ i j : ℤ, 1 ≤ i → i ≤ j → (i : K) ^ 2 / R ≤ (j : K) ^ 2 / R := by
          intro i j hi hij
          have h1 : (0 : K) ≤ i := by exact_mod_cast (by omega : (0 : ℤ) ≤ i)
          have h2 : (i : K) ≤ j := by exact_mod_cast hij
          gcongr
        obtain ⟨s1, s2⟩ := rootRound_spec (target * R) (by positivity)
        have hm2 : target ≤ (((m + 1 : ℤ)) : K) ^ 2 / R := by
          rw [le_div_iff₀ hR]
          have hz' : (rootRound (target * R) : K) ≤ (m : K) := by
            have : ((rootRound (target * R) : ℤ) : K) ≤ (m : K) := by rw [hp]; exact_mod_cast le_max_right 1 (rootRound (target * R) : ℤ)
            exact_mod_cast this
          have h0 : (0 : K) ≤ rootRound (target * R) := Nat.cast_nonneg _
          have h5 : (2 * (rootRound (target * R) : K) + 1) ^ 2 ≤ (2 * ((m : K) + 1)) ^ 2 := pow_le_pow_left₀ (by linarith) (by linarith) 2
          push_cast
          nlinarith
        have hm3 : 2 ≤ m → (((m - 1 : ℤ)) : K) ^ 2 / R ≤ target := by
          intro h2m
          rw [div_le_iff₀ hR]
          have hmr : m = (rootRound (target * R) : ℤ) := by
            rcases max_cases (1 : ℤ) (rootRound (target * R) : ℤ) with ⟨h5, _⟩ | ⟨h5, _⟩
            · omega
            · rw [hp, h5]
          have hs2 := s2 (by omega)
          have hmk : (m : K) = (rootRound (target * R) : K) := by rw [hmr]; norm_cast
          rw [← hmk] at hs2
          have h2k : (2 : K) ≤ m := by exact_mod_cast h2m
          push_cast
          nlinarith
        refine ⟨hk, fun c hc => ?_⟩
        by_cases hcm : c ≤ m + 1
        · by_cases hcl : m - 1 ≤ c
          · refine h2 c ?_ hc (hpos c hc)
            simp only [List.mem_cons, List.not_mem_nil, or_false]
            omega
          · have h3 := h2 (m - 1) (by simp) (by omega) (hpos _ (by omega))
            refine h3.trans ?_
            have h4 := hm3 (by omega)
            have h5 := hmono c (m - 1) hc (by omega)
            rw [abs_of_nonpos (by linarith), abs_of_nonpos (by linarith)]
            linarith
        · have h3 := h2 (m + 1) (by simp) (by omega) (hpos _ (by omega))
          refine h3.trans ?_
          have h5 := hmono (m + 1) c (by omega) (by omega)
          rw [abs_of_nonneg (by linarith), abs_of_nonneg (by linarith)]
          linarith
      · simp at h

/-- **C230.** An inductance that grows with the turns instead of their square, as with a permeability that falls with the field: ninety nine turns
are answered where a hundred give exactly what is wanted. -/
theorem nominal_missed : turnsFor (pure fun n : ℤ => (n : ℚ)) (some 1) 9 100 false (some ()) = some 99 := by
  decide +kernel

/-- **C230.** Without operating points the turns are rounded, which is not the nearest inductance: two turns where one is nearer. -/
theorem no_point_not_nearest : turnsFor (pure fun n : ℤ => (n : ℚ) ^ 2 / 1) (some 1) 1 (12 / 5) false none = some 2 ∧
    |((1 : ℤ) : ℚ) ^ 2 / 1 - 12 / 5| < |((2 : ℤ) : ℚ) ^ 2 / 1 - 12 / 5| := by
  decide +kernel

/-- Case of `nearest_turns`. -/
example : turnsFor (pure fun n : ℤ => (n : ℚ) ^ 2 / 1) (some 1) 30 (12 / 5) false (some ()) = some 1 := by decide +kernel

end Verif.Magnetizing
