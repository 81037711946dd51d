import Verif.Rings.Model
import Mathlib.Tactic.Linarith
import Mathlib.Tactic.Ring
import Mathlib.Tactic.Positivity
import Mathlib.Algebra.Order.BigOperators.Group.List

/-! # Lemmas about rings -/

namespace Verif.Rings

set_option linter.unusedSimpArgs false
set_option linter.unusedSectionVars false
set_option linter.unusedVariables false

variable {K : Type} [Field K] [LinearOrder K] [IsStrictOrderedRing K]

/-- The turns that fit in the first `n` rings from ring `k`. -/
def room (cap : Nat → Nat) (k : Nat) : Nat → Nat
  | 0 => 0
  | n + 1 => max 1 (cap k) + room cap (k + 1) n

theorem room_le_self (cap : Nat → Nat) (n : Nat) : ∀ k, n ≤ room cap k n := by
  induction n with
  | zero => intro k; exact Nat.le_refl _
  | succ n ih => intro k; simp only [room]; have := ih (k + 1); omega

theorem room_mono_cap (cap cap' : Nat → Nat) (h : ∀ k, cap k ≤ cap' k) (n : Nat) : ∀ k, room cap k n ≤ room cap' k n := by
  induction n with
  | zero => intro k; exact Nat.le_refl _
  | succ n ih => intro k; simp only [room]; have := ih (k + 1); have := h k; omega

theorem fill_zero (cap : Nat → Nat) (k : Nat) : fill cap k 0 = [] := by unfold fill; simp

theorem fill_pos (cap : Nat → Nat) (k r : Nat) (h : 0 < r) :
    fill cap k r = max 1 (cap k) :: fill cap (k + 1) (r - max 1 (cap k)) := by
  conv_lhs => unfold fill
  rw [if_neg (by omega)]

theorem fill_spec (cap : Nat → Nat) (r : Nat) : ∀ k,
    (fill cap k r).sum = room cap k (fill cap k r).length ∧ r ≤ (fill cap k r).sum ∧
    (∀ n, r ≤ room cap k n → (fill cap k r).length ≤ n) ∧
    (∀ (i : Nat) (c : Nat), (fill cap k r)[i]? = some c → c = max 1 (cap (k + i))) ∧
    (0 < r → ∃ n, (fill cap k r).length = n + 1 ∧ (fill cap k r).sum < r + max 1 (cap (k + n))) := by
  induction r using Nat.strong_induction_on with
  | _ r ih =>
    intro k
    by_cases h : r = 0
    · subst h
      rw [fill_zero]
      refine ⟨rfl, Nat.le_refl _, fun n _ => Nat.zero_le _, fun i c hc => by simp at hc, fun h => absurd h (by omega)⟩
    · have hpos : 0 < r := Nat.pos_of_ne_zero h
      rw [fill_pos cap k r hpos]
      obtain ⟨h1, h2, h3, h4, h5⟩ := ih (r - max 1 (cap k)) (by omega) (k + 1)
      refine ⟨?_, ?_, ?_, ?_, ?_⟩
      · simp only [List.sum_cons, List.length_cons, room, h1]
      · clear h5; simp only [List.sum_cons]; omega
      · clear h5; intro n hn
        cases n with
        | zero => simp only [room] at hn; omega
        | succ n =>
          simp only [room] at hn
          have := h3 n (by omega)
          simp only [List.length_cons]
          omega
      · intro i c hc
        cases i with
        | zero => simp at hc; simpa using hc.symm
        | succ i =>
          rw [List.getElem?_cons_succ] at hc
          have := h4 i c hc
          have e : k + 1 + i = k + (i + 1) := by omega
          rw [e] at this
          exact this
      · intro _
        by_cases hr : r - max 1 (cap k) = 0
        · rw [hr, fill_zero]
          exact ⟨0, rfl, by simp; omega⟩
        · obtain ⟨n, hn, hs⟩ := h5 (Nat.pos_of_ne_zero hr)
          clear h5
          refine ⟨n + 1, by simp [hn], ?_⟩
          have e : k + 1 + n = k + (n + 1) := by omega
          rw [e] at hs
          simp only [List.sum_cons]
          omega

theorem fill_length_anti (cap cap' : Nat → Nat) (h : ∀ k, cap k ≤ cap' k) (r k : Nat) :
    (fill cap' k r).length ≤ (fill cap k r).length := by
  obtain ⟨h1, h2, _⟩ := fill_spec cap r k
  obtain ⟨_, _, h3, _⟩ := fill_spec cap' r k
  refine h3 _ ?_
  calc r ≤ (fill cap k r).sum := h2
    _ = room cap k (fill cap k r).length := h1
    _ ≤ _ := room_mono_cap cap cap' h _ k

/-! ## Turns taken back -/

theorem modify_sum (l : List Int) : ∀ i, i < l.length → (l.modify i (· - 1)).sum = l.sum - 1 := by
  induction l with
  | nil => intro i h; simp at h
  | cons a r ih =>
    intro i h
    cases i with
    | zero => simp [List.modify_cons]; ring
    | succ i =>
      rw [List.modify_succ_cons, List.sum_cons, List.sum_cons, ih i (by simpa using h)]
      ring

theorem shave_length (n : Nat) (e : Nat) : ∀ l cur, (shave n l cur e).length = l.length := by
  induction e with
  | zero => intro l cur; rfl
  | succ e ih => intro l cur; rw [shave, ih]; simp

theorem shave_sum (e : Nat) : ∀ (l : List Int) (cur : Nat), cur < l.length → (shave l.length l cur e).sum = l.sum - e := by
  induction e with
  | zero => intro l cur _; simp [shave]
  | succ e ih =>
    intro l cur hc
    rw [shave]
    have hl : (l.modify cur (· - 1)).length = l.length := by simp
    have := ih (l.modify cur (· - 1)) (if cur = 0 then l.length - 1 else cur - 1) (by rw [hl]; split <;> omega)
    rw [hl] at this
    rw [this, modify_sum l cur hc]
    push_cast
    ring

/-- Each ring loses at most all that is taken back, and nothing is added. -/
theorem shave_bounds (n e : Nat) : ∀ (l : List Int) (cur : Nat) (i : Nat) (x y : Int), l[i]? = some x → (shave n l cur e)[i]? = some y →
    x - e ≤ y ∧ y ≤ x := by
  induction e with
  | zero => intro l cur i x y hx hy; simp only [shave] at hy; rw [hx] at hy; cases hy; simp
  | succ e ih =>
    intro l cur i x y hx hy
    rw [shave] at hy
    have hm : (l.modify cur (· - 1))[i]? = some (if cur = i then x - 1 else x) := by
      rw [List.getElem?_modify, hx]
      by_cases h : cur = i <;> simp [h]
    obtain ⟨h1, h2⟩ := ih _ _ i _ y hm hy
    push_cast
    split at h1 <;> split at h2 <;> constructor <;> omega

/-! ## Capacity -/

theorem radius_anti (w r0 : K) (hw : 0 ≤ w) : ∀ k, radius w r0 (k + 1) ≤ radius w r0 k := by
  intro k
  simp only [radius]
  split
  · linarith
  · exact le_refl _

theorem radius_le (w r0 : K) (hw : 0 ≤ w) (j k : Nat) (h : j ≤ k) : radius w r0 k ≤ radius w r0 j := by
  induction k with
  | zero => have : j = 0 := by omega
            subst this; exact le_refl _
  | succ k ih =>
    by_cases hj : j = k + 1
    · subst hj; exact le_refl _
    · exact le_trans (radius_anti w r0 hw k) (ih (by omega))

theorem ringTurns_mono [FloorRing K] (angle angle' wa wa' : K) (b : Int) (hwa : 0 < wa) (hwa' : wa ≤ wa') (h : angle' ≤ angle)
    (hs : 0 ≤ angle ∨ wa = wa') : ringTurns angle' wa' b ≤ ringTurns angle wa b := by
  unfold ringTurns
  refine Int.toNat_le_toNat (max_le_max (le_refl _) ?_)
  have : ⌊angle' / wa'⌋ ≤ ⌊angle / wa⌋ := by
    refine Int.floor_le_floor ?_
    have hp : 0 < wa' := lt_of_lt_of_le hwa hwa'
    rcases hs with hs | hs
    · calc angle' / wa' ≤ angle / wa' := div_le_div_of_nonneg_right h (le_of_lt hp)
        _ ≤ angle / wa := div_le_div_of_nonneg_left hs hwa hwa'
    · rw [← hs]; exact div_le_div_of_nonneg_right h (le_of_lt hwa)
  omega

end Verif.Rings
