import Verif.Winding.Split
import Mathlib.Algebra.BigOperators.Group.List.Basic
import Mathlib.Algebra.Order.BigOperators.Group.List
import Mathlib.Algebra.Order.Floor.Semiring
import Mathlib.Tactic.Ring

/-! # Counting the turns a slot gets: the split over rationals agrees with one over naturals -/

namespace Verif.Winding

open Verif.Round

set_option linter.unusedSimpArgs false

/-- Proportions of a vector of turn counts. -/
def props (T : Nat) (cs : List Nat) : List ℚ := cs.map fun c : Nat => (c : ℚ) / (T : ℚ)

@[simp] theorem props_length (T : Nat) (cs : List Nat) : (props T cs).length = cs.length := by
  simp [props]

theorem round_div_mul {T : Nat} (hT : 0 < T) (c : Nat) : Round.round ((c : ℚ) / T * T) = c := by
  have : (T : ℚ) ≠ 0 := by exact_mod_cast hT.ne'
  rw [div_mul_cancel₀ _ this]
  exact_mod_cast Round.round_intCast (K := ℚ) (c : ℤ)

theorem turnsOf_div {T : Nat} (hT : 0 < T) (c : Nat) : turnsOf T ((c : ℚ) / T) = .ok c := by
  unfold turnsOf
  simp only [round_div_mul hT]
  rw [if_neg (by omega)]
  simp

theorem sumTurns_props {T : Nat} (hT : 0 < T) : ∀ cs : List Nat,
    sumTurns T (props T cs) = .ok cs.sum
  | [] => rfl
  | c :: cs => by
    show (turnsOf T ((c : ℚ) / T)).bind _ = _
    rw [turnsOf_div hT]
    simp only [Res.bind]
    change (sumTurns T (props T cs)).bind _ = _
    rw [sumTurns_props hT cs]
    simp [Res.bind]

theorem turnsList_props {T : Nat} (hT : 0 < T) : ∀ cs : List Nat,
    turnsList T (props T cs) = .ok cs
  | [] => rfl
  | c :: cs => by
    show (turnsOf T ((c : ℚ) / T)).bind _ = _
    rw [turnsOf_div hT]
    simp only [Res.bind]
    change (turnsList T (props T cs)).bind _ = _
    rw [turnsList_props hT cs]
    simp [Res.bind]

/-- Greedy filling, over counts. -/
def fillNat : Nat → List Nat → List Nat
  | _, [] => []
  | k, c :: cs => min k c :: fillNat (k - c) cs

@[simp] theorem fillNat_length : ∀ (k : Nat) (cs : List Nat), (fillNat k cs).length = cs.length
  | _, [] => rfl
  | k, c :: cs => by simp [fillNat, fillNat_length]

theorem fillNat_zero : ∀ cs : List Nat, fillNat 0 cs = List.replicate cs.length 0
  | [] => rfl
  | c :: cs => by simp [fillNat, fillNat_zero cs, List.replicate_succ]

theorem fillNat_sum : ∀ (k : Nat) (cs : List Nat), (fillNat k cs).sum = min k cs.sum
  | k, [] => by simp [fillNat]
  | k, c :: cs => by simp only [fillNat, List.sum_cons, fillNat_sum (k - c) cs]; omega

/-- Pointwise at most, same length. -/
def Le (ks cs : List Nat) : Prop := List.Forall₂ (· ≤ ·) ks cs

theorem fillNat_le : ∀ (k : Nat) (cs : List Nat), Le (fillNat k cs) cs
  | _, [] => .nil
  | k, c :: cs => .cons (min_le_right _ _) (fillNat_le (k - c) cs)

theorem props_replicate_zero (T n : Nat) : props T (List.replicate n 0) = List.replicate n 0 := by
  simp [props]

theorem fill_props {T : Nat} (hT : 0 < T) : ∀ (cs : List Nat) (k : Nat), k ≤ cs.sum →
    fill T k (props T cs) = .ok (props T (fillNat k cs))
  | [], k, h => by
    simp at h; subst h; rfl
  | c :: cs, k, h => by
    show fill T k ((c : ℚ) / T :: props T cs) = _
    unfold fill
    by_cases h0 : k = 0
    · subst h0
      rw [if_pos rfl, fillNat_zero, props_replicate_zero]
      simp
    · rw [if_neg h0, turnsOf_div hT]
      simp only [Res.bind]
      by_cases hk : k ≥ c
      · rw [if_pos hk, fill_props hT cs (k - c) (by simp at h; omega)]
        simp [fillNat, props, min_eq_right hk]
      · rw [if_neg hk]
        have : k - c = 0 := by omega
        simp [fillNat, this, fillNat_zero, props, min_eq_left (not_le.mp hk).le]

theorem div_pos_iff_count {T : Nat} (hT : 0 < T) (c : Nat) : (c : ℚ) / T > 0 ↔ 0 < c := by
  have hq : (0 : ℚ) < T := by exact_mod_cast hT
  constructor
  · intro h
    by_contra hc
    have : c = 0 := by omega
    subst this
    simp at h
  · intro h
    have : (0 : ℚ) < c := by exact_mod_cast h
    exact div_pos this hq

theorem dropWhile_props {T : Nat} (hT : 0 < T) : ∀ cs : List Nat,
    (props T cs).dropWhile (fun p => decide (¬ p > 0)) = props T (cs.dropWhile (fun c => decide (c = 0))) ∧
    ((props T cs).takeWhile (fun p => decide (¬ p > 0))).length
      = (cs.takeWhile (fun c => decide (c = 0))).length
  | [] => by simp [props]
  | c :: cs => by
    have ih := dropWhile_props hT cs
    have hc := div_pos_iff_count hT c
    by_cases h : c = 0
    · subst h
      have e : props T (0 :: cs) = ((0 : Nat) : ℚ) / T :: props T cs := rfl
      rw [e, List.dropWhile_cons, List.takeWhile_cons]
      simp only [Nat.cast_zero, zero_div, gt_iff_lt, lt_self_iff_false, not_false_eq_true,
        decide_true, if_true, List.dropWhile_cons, List.takeWhile_cons, List.length_cons]
      constructor
      · simpa using ih.1
      · simpa using ih.2
    · have e : props T (c :: cs) = (c : ℚ) / T :: props T cs := rfl
      have hp : (c : ℚ) / T > 0 := hc.mpr (by omega)
      rw [e, List.dropWhile_cons, List.takeWhile_cons]
      have hd : decide (¬ (c : ℚ) / T > 0) = false := by simpa using hp
      simp only [hd, List.dropWhile_cons, List.takeWhile_cons, h, decide_false]
      simp [props]

theorem fillNat_skip : ∀ (cs : List Nat) (k : Nat),
    fillNat k cs = List.replicate (cs.takeWhile (fun c => decide (c = 0))).length 0 ++
      fillNat k (cs.dropWhile (fun c => decide (c = 0)))
  | [], k => by simp [fillNat]
  | c :: cs, k => by
    by_cases h : c = 0
    · subst h
      simp [fillNat, List.takeWhile_cons, List.dropWhile_cons, fillNat_skip cs k, List.replicate_succ]
    · simp [List.takeWhile_cons, List.dropWhile_cons, h]

theorem sum_dropWhile_zero : ∀ cs : List Nat, (cs.dropWhile (fun c => decide (c = 0))).sum = cs.sum
  | [] => rfl
  | c :: cs => by
    by_cases h : c = 0
    · subst h; simp [List.dropWhile_cons, sum_dropWhile_zero cs]
    · simp [List.dropWhile_cons, h]

theorem fillFrom_props {T : Nat} (hT : 0 < T) (cs : List Nat) (k : Nat) (h : k ≤ cs.sum) :
    fillFrom T k (props T cs) = .ok (props T (fillNat k cs)) := by
  unfold fillFrom
  by_cases hx : ∃ p ∈ props T cs, p > 0
  · rw [if_pos hx]
    obtain ⟨h1, h2⟩ := dropWhile_props hT cs
    simp only
    rw [h1, h2, fill_props hT _ _ (by rw [sum_dropWhile_zero]; exact h)]
    simp only [Res.bind]
    rw [fillNat_skip cs k]
    simp [props]
  · rw [if_neg hx]
    exact fill_props hT cs k h

/-- Round-up division. -/
def cdiv (c m : Nat) : Nat := (c + m - 1) / m

theorem cdiv_eq {c m : Nat} (hm : 0 < m) : cdiv c m = c / m + if c % m = 0 then 0 else 1 := by
  unfold cdiv
  have h1 := Nat.div_add_mod c m
  have h2 := Nat.mod_lt c hm
  split
  · rename_i h
    rw [Nat.div_eq_of_lt_le]
    · have e : (c / m + 0) * m = m * (c / m) := by ring
      omega
    · have e : (c / m + 0 + 1) * m = m * (c / m) + m := by ring
      omega
  · rename_i h
    rw [Nat.div_eq_of_lt_le]
    · have : 0 < c % m := Nat.pos_of_ne_zero h
      have e : (c / m + 1) * m = m * (c / m) + m := by ring
      omega
    · have e : (c / m + 1 + 1) * m = m * (c / m) + m + m := by ring
      omega

theorem cdiv_le {c m : Nat} (hm : 0 < m) : cdiv c m ≤ c := by
  unfold cdiv
  rcases Nat.eq_zero_or_pos c with h | h
  · subst h
    rw [Nat.zero_add, Nat.div_eq_of_lt (by omega)]
  · have : (c + m - 1) / m ≤ c ↔ c + m - 1 ≤ c * m + m - 1 := by
      rw [← Nat.lt_succ_iff, Nat.div_lt_iff_lt_mul hm, Nat.succ_mul]; omega
    rw [this]
    have : c ≤ c * m := Nat.le_mul_of_pos_right c hm
    omega

theorem cdiv_one (c : Nat) : cdiv c 1 = c := by simp [cdiv]

theorem ceil_div_nat {c m : Nat} (hm : 0 < m) : ⌈(c : ℚ) / (m : ℚ)⌉ = (cdiv c m : ℤ) := by
  rw [Int.ceil_eq_iff]
  have hq : (0 : ℚ) < m := by exact_mod_cast hm
  have h1 := Nat.div_add_mod c m
  have h2 := Nat.mod_lt c hm
  rw [cdiv_eq hm]
  generalize c / m = q at *
  generalize c % m = r at *
  have e : (c : ℚ) = m * q + r := by exact_mod_cast h1.symm
  have e2 : (r : ℚ) < m := by exact_mod_cast h2
  split
  · rename_i h
    subst h
    rw [lt_div_iff₀ hq, div_le_iff₀ hq]
    push_cast at *
    rw [e]
    constructor <;> nlinarith
  · rename_i h
    have e4 : (1 : ℚ) ≤ (r : ℚ) := by
      exact_mod_cast Nat.one_le_iff_ne_zero.mpr h
    rw [lt_div_iff₀ hq, div_le_iff₀ hq]
    push_cast
    rw [e]
    constructor <;> nlinarith

/-- Rounding to ten decimals before rounding up does not change the quotient of two counts while
there are at most 2·10¹⁰ slots. -/
theorem ceil_roundFloat_div {c m : Nat} (hm : 0 < m) (hb : m ≤ 2 * 10 ^ 10) :
    ⌈roundFloat ((c : ℚ) / (m : ℚ)) 10⌉ = (cdiv c m : ℤ) := by
  have hq : (0 : ℚ) < m := by exact_mod_cast hm
  have hle := (Int.ceil_eq_iff.mp (ceil_div_nat (c := c) hm))
  have hup : roundFloat ((c : ℚ) / m) 10 ≤ ((cdiv c m : ℤ) : ℚ) := by
    have := roundFloat_mono (K := ℚ) hle.2 10
    refine le_trans this ?_
    unfold roundFloat
    have e : ((cdiv c m : ℤ) : ℚ) * 10 ^ 10 = (((cdiv c m : ℤ) * 10 ^ 10 : ℤ) : ℚ) := by push_cast; ring
    rw [e, Round.round_intCast]
    push_cast
    rw [mul_div_assoc]
    norm_num
  rw [Int.ceil_eq_iff]
  refine ⟨?_, hup⟩
  have h1 := Nat.div_add_mod c m
  have h2 := Nat.mod_lt c hm
  rw [cdiv_eq hm]
  generalize c / m = q at *
  generalize c % m = r at *
  have e : (c : ℚ) = m * q + r := by exact_mod_cast h1.symm
  split
  · rename_i h
    subst h
    have e0 : (c : ℚ) / m = (q : ℚ) := by
      rw [e]; push_cast; field_simp; ring
    have : roundFloat ((c : ℚ) / m) 10 = (q : ℚ) := by
      rw [e0]
      unfold roundFloat
      have e' : (q : ℚ) * 10 ^ 10 = (((q : ℤ) * 10 ^ 10 : ℤ) : ℚ) := by push_cast; ring
      rw [e', Round.round_intCast]; push_cast
      rw [mul_div_assoc]; norm_num
    rw [this]; push_cast; linarith
  · rename_i h
    have e4 : (1 : ℚ) ≤ (r : ℚ) := by
      exact_mod_cast Nat.one_le_iff_ne_zero.mpr h
    have hmq : (m : ℚ) ≤ 2 * 10 ^ 10 := by exact_mod_cast hb
    have hx : (q : ℚ) * 10 ^ 10 + 1 / 2 ≤ (c : ℚ) / m * 10 ^ 10 := by
      rw [div_mul_eq_mul_div, le_div_iff₀ hq, e]
      nlinarith
    have hr : ((q : ℤ) * 10 ^ 10 + 1 : ℤ) ≤ Round.round ((c : ℚ) / m * 10 ^ 10) := by
      refine le_trans ?_ (round_mono hx)
      unfold Round.round
      rw [if_pos (by positivity), Int.le_floor]
      push_cast
      linarith
    have hr' : (q : ℚ) * 10 ^ 10 + 1 ≤ (Round.round ((c : ℚ) / m * 10 ^ 10) : ℚ) := by
      exact_mod_cast hr
    unfold roundFloat
    rw [lt_div_iff₀ (by positivity)]
    push_cast
    nlinarith

theorem roundFloat_nonneg' {x : ℚ} (h : 0 ≤ x) (d : Nat) : 0 ≤ roundFloat x d := by
  unfold roundFloat Round.round
  rw [if_pos (by positivity)]
  have : (0 : ℤ) ≤ ⌊x * 10 ^ d + 1 / 2⌋ := Int.floor_nonneg.mpr (by positivity)
  have : (0 : ℚ) ≤ (⌊x * 10 ^ d + 1 / 2⌋ : ℚ) := by exact_mod_cast this
  positivity

/-- With the plain proportion, each parallel gives its remaining turns divided by the slots left,
rounded up. -/
theorem evenShare_one {T : Nat} (hT : 0 < T) (c m : Nat) (hm : 0 < m) (hb : m ≤ 2 * 10 ^ 10) :
    evenShare m T 1 ((c : ℚ) / T) = ((cdiv c m : ℤ), ((cdiv c m : Nat) : ℚ) / T) := by
  have hTq : (0 : ℚ) < T := by exact_mod_cast hT
  have hTne : (T : ℚ) ≠ 0 := hTq.ne'
  have e : (T : ℚ) * ((c : ℚ) / T) = c := by field_simp
  unfold evenShare
  simp only [e, mul_one, ceil_roundFloat_div hm hb, ite_self]
  rw [if_neg hT.ne']
  congr 1
  rw [min_eq_right]
  · push_cast; rfl
  · have : (cdiv c m : ℚ) ≤ c := by exact_mod_cast cdiv_le hm
    push_cast
    gcongr

/-- With any proportion, a parallel never gives more than it has left. -/
theorem evenShare_any {T : Nat} (hT : 0 < T) (c m : Nat) (rel : ℚ) (hm : 0 < m)
    (hb : m ≤ 2 * 10 ^ 10) (hrel : 0 ≤ (evenShare m T rel ((c : ℚ) / T)).1) :
    ∃ k : Nat, k ≤ c ∧ evenShare m T rel ((c : ℚ) / T) = ((k : ℤ), (k : ℚ) / T) := by
  have hTq : (0 : ℚ) < T := by exact_mod_cast hT
  have hTne : (T : ℚ) ≠ 0 := hTq.ne'
  have e : (T : ℚ) * ((c : ℚ) / T) = c := by field_simp
  unfold evenShare at hrel ⊢
  simp only [e, ceil_roundFloat_div hm hb] at hrel ⊢
  rw [if_neg hT.ne']
  by_cases h : (c : ℚ) - (⌈roundFloat ((c : ℚ) / m * rel) 10⌉ : ℚ) < (m : ℚ) - 1
  · refine ⟨cdiv c m, cdiv_le hm, ?_⟩
    rw [if_pos h]
    congr 1
    rw [min_eq_right]
    · push_cast; rfl
    · have : (cdiv c m : ℚ) ≤ c := by exact_mod_cast cdiv_le hm
      push_cast
      gcongr
  · rw [if_neg h] at hrel
    obtain ⟨k, hk⟩ := Int.eq_ofNat_of_zero_le hrel
    have hk1 : (1 : ℚ) ≤ m := by exact_mod_cast hm
    rw [hk] at h
    push_cast at h
    have hkc : k ≤ c := by
      have : (k : ℚ) ≤ c := by linarith
      exact_mod_cast this
    refine ⟨k, hkc, ?_⟩
    rw [hk]
    have h' : ¬ (c : ℚ) - ((k : ℤ) : ℚ) < (m : ℚ) - 1 := by push_cast; exact h
    rw [if_neg h']
    congr 1
    rw [min_eq_right]
    · push_cast; rfl
    · have : (k : ℚ) ≤ c := by exact_mod_cast hkc
      push_cast
      gcongr

/-! ## Round robin -/

theorem Le.refl (cs : List Nat) : Le cs cs := List.forall₂_refl _

theorem Le.length {ks cs : List Nat} (h : Le ks cs) : ks.length = cs.length := List.Forall₂.length_eq h

theorem Le.sum : ∀ {ks cs : List Nat}, Le ks cs → ks.sum ≤ cs.sum
  | _, _, .nil => le_refl _
  | _, _, .cons h t => by simpa using Nat.add_le_add h (Le.sum t)

theorem Le.zero (cs : List Nat) : Le (List.replicate cs.length 0) cs := by
  induction cs with
  | nil => exact .nil
  | cons c cs ih => exact .cons (Nat.zero_le _) ih

/-- What one pass of the round robin does. -/
structure PassSpec (target : Nat) (cs rs : List Nat) (placed : Nat) (t : List Nat × Nat × Bool) : Prop where
  below : Le t.1 rs
  above : Le cs t.1
  count : t.1.sum + placed = cs.sum + t.2.1
  cap : t.2.1 ≤ target
  stuck : t.2.2 = false → t.2.1 = placed ∧ t.1 = cs ∧ (placed = target ∨ cs = rs)

theorem rrPass_spec (target : Nat) : ∀ (cs rs : List Nat) (placed : Nat), Le cs rs → placed ≤ target →
    PassSpec target cs rs placed (rrPass target cs rs placed)
  | [], _, placed, .nil, hp => by
    refine ⟨.nil, .nil, by simp [rrPass], by simpa [rrPass] using hp, fun _ => ⟨rfl, rfl, Or.inr rfl⟩⟩
  | c :: cs, r :: rs, placed, .cons h t, hp => by
    unfold rrPass
    by_cases hc : placed < target ∧ c < r
    · rw [if_pos hc]
      have ih := rrPass_spec target cs rs (placed + 1) t hc.1
      refine ⟨.cons hc.2 ih.below, .cons (Nat.le_succ _) ih.above, ?_, ih.cap, ?_⟩
      · have := ih.count
        simp only [List.sum_cons]; omega
      · intro hf; simp at hf
    · rw [if_neg hc]
      have ih := rrPass_spec target cs rs placed t hp
      refine ⟨.cons h ih.below, .cons (le_refl _) ih.above, ?_, ih.cap, ?_⟩
      · have := ih.count
        simp only [List.sum_cons]; omega
      · intro hf
        obtain ⟨h1, h2, h3⟩ := ih.stuck hf
        refine ⟨h1, by simp only [h2], ?_⟩
        by_cases hpt : placed = target
        · exact Or.inl hpt
        · right
          have hcr : c = r := by
            have : ¬ c < r := fun hl => hc ⟨by omega, hl⟩
            have h' : c ≤ r := h
            omega
          rcases h3 with h3 | h3
          · exact absurd h3 hpt
          · rw [hcr, h3]

theorem rrLoop_spec (target : Nat) (rs : List Nat) : ∀ (n : Nat) (cs : List Nat) (placed : Nat),
    target - placed = n → Le cs rs → cs.sum = placed → placed ≤ target →
    Le (rrLoop target rs cs placed).1 rs ∧
    (rrLoop target rs cs placed).1.sum = (rrLoop target rs cs placed).2 ∧
    (rrLoop target rs cs placed).2 = min target rs.sum := by
  intro n
  induction n using Nat.strong_induction_on with
  | _ n ih =>
    intro cs placed hn hle hsum hp
    unfold rrLoop
    have hs := rrPass_spec target cs rs placed hle hp
    by_cases hlt : placed < target
    · rw [dif_pos hlt]
      split
      · rename_i hm
        have hadv := (rrPass_placed target cs rs placed).2 hm
        have hcap := hs.cap
        have hcount := hs.count
        exact ih _ (by omega) _ _ rfl hs.below (by omega) hcap
      · rename_i hm
        obtain ⟨h1, h2, h3⟩ := hs.stuck hm
        simp only [h1, h2]
        refine ⟨hle, hsum, ?_⟩
        rcases h3 with h3 | h3
        · omega
        · rw [← hsum, h3]
          have : rs.sum ≤ target := by rw [← h3, hsum]; exact hp
          omega
    · rw [dif_neg hlt]
      refine ⟨hle, hsum, ?_⟩
      have := hle.sum
      simp only
      omega

/-- Round robin over counts: `k` turns handed out one per parallel in turn. -/
def rrNat (k : Nat) (cs : List Nat) : List Nat := (rrLoop k cs (List.replicate cs.length 0) 0).1

theorem rrNat_spec (k : Nat) (cs : List Nat) :
    Le (rrNat k cs) cs ∧ (rrNat k cs).sum = min k cs.sum ∧
      (rrLoop k cs (List.replicate cs.length 0) 0).2 = min k cs.sum := by
  obtain ⟨h1, h2, h3⟩ := rrLoop_spec k cs _ (List.replicate cs.length 0) 0 rfl (Le.zero cs) (by simp)
    (Nat.zero_le _)
  exact ⟨h1, by rw [← h3]; exact h2, h3⟩

theorem rrPass_uniform (target x r : Nat) (hx : x < r) : ∀ (P placed : Nat), placed + P ≤ target →
    (rrPass target (List.replicate P x) (List.replicate P r) placed).1 = List.replicate P (x + 1) ∧
    (rrPass target (List.replicate P x) (List.replicate P r) placed).2.1 = placed + P ∧
    (0 < P → (rrPass target (List.replicate P x) (List.replicate P r) placed).2.2 = true)
  | 0, placed, _ => by simp [rrPass]
  | P + 1, placed, h => by
    have ih := rrPass_uniform target x r hx P (placed + 1) (by omega)
    simp only [List.replicate_succ]
    unfold rrPass
    rw [if_pos ⟨by omega, hx⟩]
    refine ⟨by simp only [ih.1], by simp only [ih.2.1]; omega, fun _ => rfl⟩

theorem rrLoop_uniform (P r : Nat) (hP : 0 < P) : ∀ (d x : Nat), x + d ≤ r →
    rrLoop (P * (x + d)) (List.replicate P r) (List.replicate P x) (P * x) =
      (List.replicate P (x + d), P * (x + d))
  | 0, x, _ => by
    unfold rrLoop
    simp
  | d + 1, x, h => by
    unfold rrLoop
    have hlt : P * x < P * (x + (d + 1)) := Nat.mul_lt_mul_of_pos_left (by omega) hP
    rw [dif_pos hlt]
    have hu := rrPass_uniform (P * (x + (d + 1))) x r (by omega) P (P * x) (by
      have : P * (x + (d + 1)) = P * x + P * d + P := by ring
      omega)
    have e : P * x + P = P * (x + 1) := by ring
    have e2 : x + (d + 1) = (x + 1) + d := by omega
    have ih := rrLoop_uniform P r hP d (x + 1) (by omega)
    rw [← e2] at ih
    split
    · rw [hu.1, hu.2.1, e]
      exact ih
    · rename_i hm
      rw [hu.2.2 hP] at hm
      exact absurd hm (by simp)

theorem rrNat_uniform (P r q : Nat) (hq : q ≤ r) :
    rrNat (P * q) (List.replicate P r) = List.replicate P q := by
  rcases Nat.eq_zero_or_pos P with h | h
  · subst h
    unfold rrNat rrLoop
    simp
  · have := rrLoop_uniform P r h q 0 (by omega)
    unfold rrNat
    simp only [List.length_replicate]
    simp only [Nat.zero_add, Nat.mul_zero] at this
    rw [this]

/-! ## The split -/

theorem take_self {α : Type} {l : List α} {n : Nat} (h : l.length = n) : l.take n = l := by
  rw [← h]; exact List.take_length

/-- Consecutive turns: the slot takes its share of the total, first parallels first. -/
theorem split_turns {T : Nat} (hT : 0 < T) (i n : Nat) (cs : List Nat) (rel : ℚ) (hi : i < n)
    (hrel : 0 ≤ rel) :
    split i n T cs.length (props T cs) .turns rel none =
      .ok (min cs.sum ⌈(cs.sum : ℚ) / ((n - i : Nat) : ℚ) * rel⌉.toNat,
        props T (fillNat (min cs.sum ⌈(cs.sum : ℚ) / ((n - i : Nat) : ℚ) * rel⌉.toNat) cs)) := by
  unfold split
  rw [if_neg (by simp)]
  simp only [take_self (props_length T cs), sumTurns_props hT, Res.bind]
  rw [if_neg (by omega)]
  have : ¬ ⌈(cs.sum : ℚ) / ((n - i : Nat) : ℚ) * rel⌉ < 0 := by
    have : (0 : ℤ) ≤ ⌈(cs.sum : ℚ) / ((n - i : Nat) : ℚ) * rel⌉ := Int.ceil_nonneg (by positivity)
    omega
  rw [if_neg this, fillFrom_props hT _ _ (min_le_left _ _)]

theorem split_turns_one {T : Nat} (hT : 0 < T) (i n : Nat) (cs : List Nat) (hi : i < n) :
    split i n T cs.length (props T cs) .turns 1 none =
      .ok (cdiv cs.sum (n - i), props T (fillNat (cdiv cs.sum (n - i)) cs)) := by
  rw [split_turns hT i n cs 1 hi (by norm_num), mul_one, ceil_div_nat (by omega), Int.toNat_natCast,
    min_eq_right (cdiv_le (by omega))]

theorem split_turns_forced {T : Nat} (hT : 0 < T) (i n : Nat) (cs : List Nat) (rel : ℚ) (k : Nat)
    (hk : k ≤ cs.sum) :
    split i n T cs.length (props T cs) .turns rel (some k) = .ok (k, props T (fillNat k cs)) := by
  unfold split
  rw [if_neg (by simp)]
  simp only [take_self (props_length T cs), sumTurns_props hT, Res.bind, fillFrom_props hT _ _ hk]

theorem split_parallels_forced {T : Nat} (hT : 0 < T) (i n : Nat) (cs : List Nat) (rel : ℚ) (k : Nat) :
    split i n T cs.length (props T cs) .parallels rel (some k) =
      .ok (min k cs.sum, props T (rrNat k cs)) := by
  unfold split
  rw [if_neg (by simp)]
  simp only [take_self (props_length T cs), turnsList_props hT, Res.bind]
  rw [if_neg hT.ne', (rrNat_spec k cs).2.2]
  rfl

theorem map_evenShare {T : Nat} (hT : 0 < T) (m : Nat) (rel : ℚ) (hm : 0 < m) (hb : m ≤ 2 * 10 ^ 10) :
    ∀ cs : List Nat,
      ((props T cs).map (evenShare m T rel)).any (fun s : ℤ × ℚ => decide (s.1 < 0)) = false →
      ∃ ks : List Nat, Le ks cs ∧
        (props T cs).map (evenShare m T rel) = ks.map fun k : Nat => ((k : ℤ), (k : ℚ) / (T : ℚ))
  | [], _ => ⟨[], .nil, rfl⟩
  | c :: cs, h => by
    have e : props T (c :: cs) = (c : ℚ) / T :: props T cs := rfl
    rw [e, List.map_cons, List.any_cons, Bool.or_eq_false_iff] at h
    obtain ⟨ks, h1, h2⟩ := map_evenShare hT m rel hm hb cs h.2
    obtain ⟨k, h3, h4⟩ := evenShare_any hT c m rel hm hb (by simpa using h.1)
    refine ⟨k :: ks, .cons h3 h1, ?_⟩
    rw [e, List.map_cons, h4, h2]
    rfl

theorem shares_total : ∀ (T : Nat) (ks : List Nat),
    ((ks.map fun k : Nat => ((k : ℤ), (k : ℚ) / (T : ℚ))).map Prod.fst).sum.toNat = ks.sum ∧
    (ks.map fun k : Nat => ((k : ℤ), (k : ℚ) / (T : ℚ))).any (fun s : ℤ × ℚ => decide (s.1 < 0)) = false ∧
    (ks.map fun k : Nat => ((k : ℤ), (k : ℚ) / (T : ℚ))).map Prod.snd = props T ks := by
  intro T ks
  refine ⟨?_, ?_, ?_⟩
  · have : ((ks.map fun k : Nat => ((k : ℤ), (k : ℚ) / (T : ℚ))).map Prod.fst).sum = (ks.sum : ℤ) := by
      induction ks with
      | nil => rfl
      | cons k ks ih => simp only [List.map_cons, List.sum_cons, ih]; push_cast; rfl
    rw [this]; simp
  · rw [List.any_eq_false]
    intro s hs
    simp only [List.mem_map] at hs
    obtain ⟨k, _, rfl⟩ := hs
    simp
  · simp [props, List.map_map, Function.comp_def]

theorem split_parallels_one {T : Nat} (hT : 0 < T) (i n : Nat) (cs : List Nat) (hi : i < n)
    (hb : n - i ≤ 2 * 10 ^ 10) :
    split i n T cs.length (props T cs) .parallels 1 none =
      .ok ((cs.map (cdiv · (n - i))).sum, props T (cs.map (cdiv · (n - i)))) := by
  have h2 : (props T cs).map (evenShare (n - i) T 1) =
      (cs.map (cdiv · (n - i))).map fun k : Nat => ((k : ℤ), (k : ℚ) / (T : ℚ)) := by
    simp only [props, List.map_map]
    apply List.map_congr_left
    intro c _
    simp only [Function.comp]
    rw [evenShare_one hT c (n - i) (by omega) hb]
  unfold split
  rw [if_neg (by simp)]
  simp only [take_self (props_length T cs), h2]
  rw [if_neg (by omega)]
  obtain ⟨e1, e2, e3⟩ := shares_total T (cs.map (cdiv · (n - i)))
  rw [e2, e1, e3]
  simp

theorem fill_ok {T : Nat} (hT : 0 < T) : ∀ (cs : List Nat) (k : Nat) (ps : List ℚ),
    fill T k (props T cs) = .ok ps → k ≤ cs.sum
  | [], k, ps, h => by
    unfold fill props at h
    simp only [List.map_nil] at h
    split at h
    · simp_all
    · simp at h
  | c :: cs, k, ps, h => by
    change fill T k ((c : ℚ) / T :: props T cs) = _ at h
    unfold fill at h
    by_cases h0 : k = 0
    · simp [h0]
    · rw [if_neg h0, turnsOf_div hT] at h
      simp only [Res.bind] at h
      by_cases hk : k ≥ c
      · rw [if_pos hk] at h
        cases hd : fill T (k - c) (props T cs) with
        | ok qs =>
          have := fill_ok hT cs (k - c) qs hd
          simp only [List.sum_cons]; omega
        | refused => rw [hd] at h; simp at h
        | thrown m => rw [hd] at h; simp at h
        | ub => rw [hd] at h; simp at h
        | nan => rw [hd] at h; simp at h
      · simp only [List.sum_cons]; omega

theorem fillFrom_ok {T : Nat} (hT : 0 < T) (cs : List Nat) (k : Nat) (ps : List ℚ)
    (h : fillFrom T k (props T cs) = .ok ps) : k ≤ cs.sum := by
  unfold fillFrom at h
  split at h
  · simp only at h
    rw [(dropWhile_props hT cs).1] at h
    cases hd : fill T k (props T (cs.dropWhile (fun c => decide (c = 0)))) with
    | ok qs =>
      have := fill_ok hT _ k qs hd
      rwa [sum_dropWhile_zero] at this
    | refused => rw [hd] at h; simp [Res.bind] at h
    | thrown m => rw [hd] at h; simp [Res.bind] at h
    | ub => rw [hd] at h; simp [Res.bind] at h
    | nan => rw [hd] at h; simp [Res.bind] at h
  · exact fill_ok hT cs k ps h

/-- Any call on the proportions of a count vector that returns gives the proportions of a smaller
one, and the physical turns it reports are their total. -/
theorem split_ok {T : Nat} (hT : 0 < T) (i n : Nat) (cs : List Nat) (style : Style) (rel : ℚ)
    (forced : Option Nat) (hb : n ≤ 2 * 10 ^ 10) (r : Nat × List ℚ)
    (h : split i n T cs.length (props T cs) style rel forced = .ok r) :
    ∃ ks : List Nat, Le ks cs ∧ r = (ks.sum, props T ks) := by
  cases style with
  | turns =>
    cases forced with
    | none =>
      unfold split at h
      rw [if_neg (by simp)] at h
      simp only [take_self (props_length T cs), sumTurns_props hT, Res.bind] at h
      split at h
      · simp at h
      · split at h
        · simp at h
        · rw [fillFrom_props hT _ _ (min_le_left _ _)] at h
          simp only [Res.ok.injEq] at h
          refine ⟨fillNat (min cs.sum ⌈(cs.sum : ℚ) / ((n - i : Nat) : ℚ) * rel⌉.toNat) cs,
            fillNat_le _ _, ?_⟩
          rw [← h, fillNat_sum]
          simp
    | some k =>
      unfold split at h
      rw [if_neg (by simp)] at h
      simp only [take_self (props_length T cs), sumTurns_props hT, Res.bind] at h
      cases hd : fillFrom T k (props T cs) with
      | ok qs =>
        have hk := fillFrom_ok hT cs k qs hd
        rw [fillFrom_props hT _ _ hk] at hd
        rw [fillFrom_props hT _ _ hk] at h
        simp only [Res.ok.injEq] at h
        refine ⟨fillNat k cs, fillNat_le _ _, ?_⟩
        rw [← h, fillNat_sum, min_eq_left hk]
      | refused => rw [hd] at h; simp at h
      | thrown m => rw [hd] at h; simp at h
      | ub => rw [hd] at h; simp at h
      | nan => rw [hd] at h; simp at h
  | parallels =>
    cases forced with
    | none =>
      unfold split at h
      rw [if_neg (by simp)] at h
      simp only [take_self (props_length T cs)] at h
      split at h
      · simp at h
      · rename_i hi
        split at h
        · simp at h
        · rename_i ha
          obtain ⟨ks, h1, h2⟩ := map_evenShare hT (n - i) rel (by omega) (by omega) cs (by simpa using ha)
          rw [h2] at h
          obtain ⟨e1, _, e3⟩ := shares_total T ks
          rw [e1, e3] at h
          simp only [Res.ok.injEq] at h
          exact ⟨ks, h1, h.symm⟩
    | some k =>
      rw [split_parallels_forced hT i n cs rel k] at h
      simp only [Res.ok.injEq] at h
      exact ⟨rrNat k cs, (rrNat_spec k cs).1, by rw [← h, (rrNat_spec k cs).2.1]⟩

/-- Difference of count vectors. -/
def minus (cs ks : List Nat) : List Nat := List.zipWith (· - ·) cs ks

theorem minus_length {cs ks : List Nat} (h : Le ks cs) : (minus cs ks).length = cs.length := by
  simp [minus, h.length]

theorem takeAway_props (T : Nat) : ∀ {cs ks : List Nat}, Le ks cs →
    takeAway (props T cs) (props T ks) = props T (minus cs ks)
  | _, _, .nil => rfl
  | c :: cs, k :: ks, .cons h t => by
    have ih := takeAway_props T t
    have h' : k ≤ c := h
    show ((c : ℚ) / T - (k : ℚ) / T) :: takeAway (props T cs) (props T ks) = _
    rw [ih]
    show _ = (((c - k : Nat) : ℚ) / T) :: props T (minus cs ks)
    rw [Nat.cast_sub h', sub_div]

theorem minus_sum : ∀ {cs ks : List Nat}, Le ks cs → (minus cs ks).sum + ks.sum = cs.sum
  | _, _, .nil => rfl
  | c :: cs, k :: ks, .cons h t => by
    have ih := minus_sum t
    have h' : k ≤ c := h
    simp only [minus, List.zipWith_cons_cons, List.sum_cons]
    unfold minus at ih
    omega

theorem minus_getD : ∀ {cs ks : List Nat} (j : Nat), Le ks cs →
    (minus cs ks).getD j 0 + ks.getD j 0 = cs.getD j 0 ∧ ks.getD j 0 ≤ cs.getD j 0
  | _, _, _, .nil => by simp [minus]
  | c :: cs, k :: ks, j, .cons h t => by
    have h' : k ≤ c := h
    cases j with
    | zero => simp [minus]; omega
    | succ j =>
      have := minus_getD j t
      simpa [minus] using this

/-! ## All the slots of a winding in a row -/

/-- What a slot takes when `m` slots, this one included, are left. -/
def stepNat (style : Style) (m : Nat) (cs : List Nat) : List Nat :=
  match style with
  | .turns => fillNat (cdiv cs.sum m) cs
  | .parallels => cs.map (cdiv · m)

theorem map_le (f : Nat → Nat) (hf : ∀ c, f c ≤ c) : ∀ cs : List Nat, Le (cs.map f) cs
  | [] => .nil
  | c :: cs => .cons (hf c) (map_le f hf cs)

theorem stepNat_le (style : Style) {m : Nat} (hm : 0 < m) (cs : List Nat) : Le (stepNat style m cs) cs := by
  cases style with
  | turns => exact fillNat_le _ _
  | parallels => exact map_le _ (fun c => cdiv_le hm) cs

theorem split_step {T : Nat} (hT : 0 < T) (i n : Nat) (cs : List Nat) (style : Style) (hi : i < n)
    (hb : n ≤ 2 * 10 ^ 10) :
    split i n T cs.length (props T cs) style 1 none =
      .ok ((stepNat style (n - i) cs).sum, props T (stepNat style (n - i) cs)) := by
  cases style with
  | turns =>
    rw [split_turns_one hT i n cs hi]
    simp only [stepNat, fillNat_sum, min_eq_left (cdiv_le (c := cs.sum) (m := n - i) (by omega))]
  | parallels => exact split_parallels_one hT i n cs hi (by omega)

/-- The slots of a winding, `m` left. -/
def runNat (style : Style) : Nat → List Nat → List (List Nat)
  | 0, _ => []
  | m + 1, cs => stepNat style (m + 1) cs :: runNat style m (minus cs (stepNat style (m + 1) cs))

/-- What is left after the slots. -/
def leftNat (style : Style) : Nat → List Nat → List Nat
  | 0, cs => cs
  | m + 1, cs => leftNat style m (minus cs (stepNat style (m + 1) cs))

theorem runNat_length (style : Style) : ∀ (m : Nat) (cs : List Nat), (runNat style m cs).length = m
  | 0, _ => rfl
  | m + 1, cs => by simp [runNat, runNat_length]

theorem stepNat_one (style : Style) (cs : List Nat) : stepNat style 1 cs = cs := by
  cases style with
  | turns =>
    simp only [stepNat, cdiv_one]
    induction cs with
    | nil => rfl
    | cons c cs ih =>
      simp only [fillNat, List.sum_cons]
      rw [min_eq_right (by omega), Nat.add_sub_cancel_left, ih]
  | parallels =>
    simp only [stepNat, cdiv_one, List.map_id']

theorem minus_self : ∀ cs : List Nat, minus cs cs = List.replicate cs.length 0
  | [] => rfl
  | c :: cs => by
    have := minus_self cs
    simp only [minus, List.zipWith_cons_cons, List.length_cons, List.replicate_succ, Nat.sub_self] at this ⊢
    rw [this]

theorem leftNat_zero (style : Style) : ∀ (m : Nat) (cs : List Nat), 0 < m →
    leftNat style m cs = List.replicate cs.length 0
  | 0, _, h => by omega
  | 1, cs, _ => by simp [leftNat, stepNat_one, minus_self]
  | m + 2, cs, _ => by
    show leftNat style (m + 1) (minus cs (stepNat style (m + 2) cs)) = _
    rw [leftNat_zero style (m + 1) _ (by omega), minus_length (stepNat_le style (by omega) cs)]

/-- Consecutive turns: the slots share the total evenly, the larger shares first. -/
theorem cdiv_step {c m : Nat} (hm : 0 < m) :
    (c - cdiv c (m + 1)) / m = c / (m + 1) ∧
    (c - cdiv c (m + 1)) % m = c % (m + 1) - 1 := by
  have h1 := Nat.div_add_mod c (m + 1)
  have h2 := Nat.mod_lt c (Nat.succ_pos m)
  rw [cdiv_eq (Nat.succ_pos m)]
  generalize c / (m + 1) = q at *
  generalize c % (m + 1) = r at *
  have e : (m + 1) * q = q * m + q := by ring
  split
  · rename_i h
    have hc : c - (q + 0) = m * q := by
      have : m * q = q * m := by ring
      omega
    rw [hc]
    refine ⟨Nat.mul_div_cancel_left q hm, ?_⟩
    rw [Nat.mul_mod_right]; omega
  · rename_i h
    have hc : c - (q + 1) = (r - 1) + m * q := by
      have : m * q = q * m := by ring
      omega
    rw [hc, Nat.add_mul_div_left _ _ hm, Nat.add_mul_mod_self_left]
    rw [Nat.div_eq_of_lt (by omega), Nat.mod_eq_of_lt (by omega)]
    omega

theorem share_shift {c m i : Nat} (hm : 0 < m) :
    (c - cdiv c (m + 1)) / m + (if i < (c - cdiv c (m + 1)) % m then 1 else 0) =
      c / (m + 1) + (if i + 1 < c % (m + 1) then 1 else 0) := by
  obtain ⟨h1, h2⟩ := cdiv_step (c := c) hm
  rw [h1, h2]
  congr 1
  by_cases h : i + 1 < c % (m + 1)
  · rw [if_pos h, if_pos (by omega)]
  · rw [if_neg h, if_neg (by omega)]

theorem runNat_turns_sum : ∀ (m : Nat) (cs : List Nat) (i : Nat) (row : List Nat),
    (runNat .turns m cs)[i]? = some row →
      row.sum = cs.sum / m + if i < cs.sum % m then 1 else 0
  | 0, cs, i, row, h => by simp [runNat] at h
  | m + 1, cs, 0, row, h => by
    simp only [runNat, List.getElem?_cons_zero, Option.some.injEq] at h
    subst h
    simp only [stepNat, fillNat_sum, min_eq_left (cdiv_le (c := cs.sum) (m := m + 1) (by omega))]
    rw [cdiv_eq (by omega)]
    congr 1
    by_cases h : cs.sum % (m + 1) = 0
    · rw [if_pos h, if_neg (by omega)]
    · rw [if_neg h, if_pos (by omega)]
  | m + 1, cs, i + 1, row, h => by
    simp only [runNat, List.getElem?_cons_succ] at h
    have hm : 0 < m := by
      rcases Nat.eq_zero_or_pos m with h0 | h0
      · subst h0; simp [runNat] at h
      · exact h0
    have ih := runNat_turns_sum m _ i row h
    have hs := minus_sum (stepNat_le .turns (Nat.succ_pos m) cs)
    have hst : (stepNat .turns (m + 1) cs).sum = cdiv cs.sum (m + 1) := by
      simp only [stepNat, fillNat_sum, min_eq_left (cdiv_le (c := cs.sum) (m := m + 1) (by omega))]
    have e : (minus cs (stepNat .turns (m + 1) cs)).sum = cs.sum - cdiv cs.sum (m + 1) := by
      rw [Nat.succ_eq_add_one] at hs; omega
    rw [e] at ih
    rw [ih, share_shift hm]

theorem minus_map (f : Nat → Nat) : ∀ cs : List Nat, minus cs (cs.map f) = cs.map (fun c => c - f c)
  | [] => rfl
  | c :: cs => by
    have := minus_map f cs
    simp only [minus] at this ⊢
    simp [this]

theorem runNat_parallels : ∀ (m : Nat) (cs : List Nat) (i : Nat) (row : List Nat),
    (runNat .parallels m cs)[i]? = some row →
      row = cs.map fun c => c / m + if i < c % m then 1 else 0
  | 0, cs, i, row, h => by simp [runNat] at h
  | m + 1, cs, 0, row, h => by
    simp only [runNat, List.getElem?_cons_zero, Option.some.injEq] at h
    subst h
    simp only [stepNat]
    apply List.map_congr_left
    intro c _
    rw [cdiv_eq (by omega)]
    congr 1
    by_cases h : c % (m + 1) = 0
    · rw [if_pos h, if_neg (by omega)]
    · rw [if_neg h, if_pos (by omega)]
  | m + 1, cs, i + 1, row, h => by
    simp only [runNat, List.getElem?_cons_succ, stepNat] at h
    have hm : 0 < m := by
      rcases Nat.eq_zero_or_pos m with h0 | h0
      · subst h0; simp [runNat] at h
      · exact h0
    rw [minus_map] at h
    rw [runNat_parallels m _ i row h, List.map_map]
    apply List.map_congr_left
    intro c _
    simp only [Function.comp]
    exact share_shift hm

/-- Total of the `j`-th entries. -/
def column (j : Nat) (rows : List (List Nat)) : Nat := (rows.map fun r => r.getD j 0).sum

theorem runNat_column (style : Style) (j : Nat) : ∀ (m : Nat) (cs : List Nat),
    column j (runNat style m cs) + (leftNat style m cs).getD j 0 = cs.getD j 0
  | 0, cs => by simp [column, runNat, leftNat]
  | m + 1, cs => by
    have ih := runNat_column style j m (minus cs (stepNat style (m + 1) cs))
    have h := (minus_getD j (stepNat_le style (Nat.succ_pos m) cs)).1
    simp only [column, runNat, leftNat, List.map_cons, List.sum_cons] at ih ⊢
    rw [Nat.succ_eq_add_one] at h
    omega

end Verif.Winding
