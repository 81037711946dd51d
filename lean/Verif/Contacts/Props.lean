import Verif.Contacts.Model
import Mathlib.Tactic.Linarith
import Mathlib.Tactic.FieldSimp
import Mathlib.Tactic.Ring
import Mathlib.Tactic.Positivity
import Mathlib.Tactic.NormNum
import Mathlib.Data.List.Nodup
import Mathlib.Data.List.Range

/-! # Properties of turns that touch -/

namespace Verif.Contacts

set_option linter.unusedVariables false
set_option linter.unusedSectionVars false
set_option linter.unusedSimpArgs false

section
variable {K : Type} [Field K] [LinearOrder K] [IsStrictOrderedRing K]

/-- Specification: a square root. -/
def IsRoot (root : K → K) : Prop := ∀ x : K, 0 ≤ x → 0 ≤ root x ∧ root x * root x = x

example : IsRoot Real.sqrt := fun x hx => ⟨Real.sqrt_nonneg x, Real.mul_self_sqrt hx⟩

/-! ## C386: turns near each other -/

/-- **C386.** Turns are near each other whichever comes first. -/
theorem near_comm (root : K → K) (a b : Node K) : near root a b = near root b a := by
  have hd : distance root a b = distance root b a := by
    unfold distance
    congr 1
    ring
  unfold near gap
  rw [hd, min_comm (least a) (least b)]
  congr 2
  split_ifs
  · rfl
  · ring

theorem near_iff {root : K → K} {a b : Node K} (ha : 1 / 10 ^ 9 ≤ least a) (hb : 1 / 10 ^ 9 ≤ least b) :
    near root a b = true ↔ distance root a b - least a / 2 - least b / 2 ≤ min (least a) (least b) / 4 := by
  have h9 : (0 : K) < 1 / 10 ^ 9 := by positivity
  have hm : 0 ≤ min (least a) (least b) := le_min (by linarith) (by linarith)
  unfold near gap
  rw [decide_eq_true_iff]
  by_cases h : distance root a b < 1 / 10 ^ 9
  · rw [if_pos h]
    exact iff_of_true (by linarith) (by linarith)
  · rw [if_neg h]

/-- **C386.** Turns of round wires are near when their surfaces are not farther apart than a quarter of the thinner of them.
Partial: the wires are round (see `flat_apart`); they are not thinner than a nanometre. -/
theorem near_round_partial {root : K → K} {a b : Node K} (ha : a.width = a.height) (hb : b.width = b.height)
    (h1 : 1 / 10 ^ 9 ≤ a.width) (h2 : 1 / 10 ^ 9 ≤ b.width) :
    near root a b = true ↔ distance root a b - a.width / 2 - b.width / 2 ≤ min a.width b.width / 4 := by
  have la : least a = a.width := by unfold least; rw [← ha, min_self]
  have lb : least b = b.width := by unfold least; rw [← hb, min_self]
  rw [near_iff (by rw [la]; exact h1) (by rw [lb]; exact h2), la, lb]

theorem root_sq {root : K → K} (hr : IsRoot root) {w : K} (hw : 0 ≤ w) : root (w * w) = w := by
  obtain ⟨h1, h2⟩ := hr (w * w) (mul_nonneg hw hw)
  exact (mul_self_inj h1 hw).mp h2

/-- **C386.** Flat turns that touch with their narrow sides are near only if they are hardly flat: no more than a quarter wider than
high. -/
theorem flat_apart {root : K → K} (hr : IsRoot root) {a b : Node K} (hw : a.width = b.width) (hh : a.height = b.height)
    (hf : a.height ≤ a.width) (h9 : 1 / 10 ^ 9 ≤ a.height) (hx : b.x = a.x + a.width) (hy : b.y = a.y) :
    near root a b = true ↔ 4 * a.width ≤ 5 * a.height := by
  have la : least a = a.height := min_eq_right hf
  have lb : least b = a.height := by unfold least; rw [← hw, ← hh]; exact min_eq_right hf
  have h0 : (0 : K) < 1 / 10 ^ 9 := by positivity
  have hd : distance root a b = a.width := by
    have e : (a.x - b.x) * (a.x - b.x) + (a.y - b.y) * (a.y - b.y) = a.width * a.width := by rw [hx, hy]; ring
    unfold distance
    rw [e, root_sq hr (by linarith)]
  rw [near_iff (by rw [la]; exact h9) (by rw [lb]; exact h9), la, lb, hd, min_self]
  constructor <;> intro h <;> linarith

/-- **C386.** With their wide sides they always are. -/
theorem flat_stacked {root : K → K} (hr : IsRoot root) {a b : Node K} (hw : a.width = b.width) (hh : a.height = b.height)
    (hf : a.height ≤ a.width) (h9 : 1 / 10 ^ 9 ≤ a.height) (hx : b.x = a.x) (hy : b.y = a.y + a.height) :
    near root a b = true := by
  have la : least a = a.height := min_eq_right hf
  have lb : least b = a.height := by unfold least; rw [← hw, ← hh]; exact min_eq_right hf
  have h0 : (0 : K) < 1 / 10 ^ 9 := by positivity
  have hd : distance root a b = a.height := by
    have e : (a.x - b.x) * (a.x - b.x) + (a.y - b.y) * (a.y - b.y) = a.height * a.height := by rw [hx, hy]; ring
    unfold distance
    rw [e, root_sq hr (by linarith)]
  rw [near_iff (by rw [la]; exact h9) (by rw [lb]; exact h9), la, lb, hd, min_self]
  linarith

example : near Real.sqrt ⟨0, 0, 3, 1, 0, ⟨1, 1, 1, 1⟩, none⟩ ⟨3, 0, 3, 1, 1, ⟨1, 1, 1, 1⟩, none⟩ = false := by
  rw [← Bool.not_eq_true]
  intro h
  have := (flat_apart (a := ⟨0, 0, 3, 1, 0, ⟨1, 1, 1, 1⟩, none⟩) (b := ⟨3, 0, 3, 1, 1, ⟨1, 1, 1, 1⟩, none⟩)
    (fun x hx => ⟨Real.sqrt_nonneg x, Real.mul_self_sqrt hx⟩) rfl rfl (by norm_num) (by norm_num) (by norm_num) rfl).mp h
  norm_num at this

/-! ## C387: faces that face each other -/

/-- Specification: where a face looks. -/
def normal (s : Side) : K × K :=
  match s with
  | .left => (-1, 0)
  | .right => (1, 0)
  | .top => (0, 1)
  | .bottom => (0, -1)

/-- **C387.** The faces connected look at each other: each looks to the other turn in the direction in which it is farther, and they
are opposite. -/
theorem facing_towards (a b : Node K) :
    (normal (facing a b).1).1 * (b.x - a.x) + (normal (facing a b).1).2 * (b.y - a.y) = max |a.x - b.x| |a.y - b.y| ∧
      (normal (K := K) (facing a b).2).1 = -(normal (K := K) (facing a b).1).1 ∧
      (normal (K := K) (facing a b).2).2 = -(normal (K := K) (facing a b).1).2 := by
  unfold facing horizontal
  by_cases h : |a.y - b.y| < |a.x - b.x|
  · rw [if_pos (decide_eq_true h), max_eq_left h.le]
    by_cases h' : 0 < a.x - b.x
    · rw [if_pos h', abs_of_pos h']; simp [normal]
    · rw [if_neg h', abs_of_nonpos (not_lt.mp h')]; simp [normal]
  · rw [if_neg (by simpa using h), max_eq_right (not_lt.mp h)]
    by_cases h' : 0 < a.y - b.y
    · rw [if_pos h', abs_of_pos h']; simp [normal]
    · rw [if_neg h', abs_of_nonpos (not_lt.mp h')]; simp [normal]

/-- **C387.** The same faces are connected whichever turn comes first, unless they are at the same place. -/
theorem facing_swap {a b : Node K} (h : a.x ≠ b.x ∨ a.y ≠ b.y) : facing b a = (facing a b).swap := by
  unfold facing horizontal
  rw [abs_sub_comm b.y a.y, abs_sub_comm b.x a.x]
  by_cases hh : |a.y - b.y| < |a.x - b.x|
  · rw [if_pos (decide_eq_true hh), if_pos (decide_eq_true hh)]
    have hx : a.x - b.x ≠ 0 := by
      intro e
      rw [e, abs_zero] at hh
      exact absurd (abs_nonneg (a.y - b.y)) (not_le.mpr hh)
    by_cases h' : 0 < a.x - b.x
    · rw [if_pos h', if_neg (by linarith)]; rfl
    · rw [if_neg h', if_pos (by have := lt_of_le_of_ne (not_lt.mp h') hx; linarith)]; rfl
  · have hh' : ¬ decide (|a.y - b.y| < |a.x - b.x|) = true := by rw [decide_eq_true_iff]; exact hh
    rw [if_neg hh', if_neg hh']
    have hy : a.y - b.y ≠ 0 := by
      intro e
      rw [e, abs_zero] at hh
      have hx0 : a.x - b.x = 0 := abs_eq_zero.mp (le_antisymm (not_lt.mp hh) (abs_nonneg _))
      rcases h with h | h
      · exact h (by linarith)
      · exact h (by linarith)
    by_cases h' : 0 < a.y - b.y
    · rw [if_pos h', if_neg (by linarith)]; rfl
    · rw [if_neg h', if_pos (by have := lt_of_le_of_ne (not_lt.mp h') hy; linarith)]; rfl

example : facing (K := ℚ) ⟨1, 0, 1, 1, 0, ⟨1, 1, 1, 1⟩, none⟩ ⟨3, 1, 1, 1, 1, ⟨1, 1, 1, 1⟩, none⟩ = (.right, .left) := by decide +kernel

/-! ## C388: every pair once -/

theorem linksOf_spec (f : Node K → Node K → Outcome K) (a : Node K) (m : Nat) : ∀ (bs : List (Node K)) (n : Nat),
    (linksOf f a m n bs = none ↔ ∃ b ∈ bs, f a b = .throws) ∧
      ∀ out : List (Link K), linksOf f a m n bs = some out →
        (∀ p : Link K, p ∈ out ↔ ∃ (j : Nat) (b : Node K), bs[j]? = some b ∧ f a b = .link p.faces p.resistance ∧ p.first = m ∧
          p.second = n + j) ∧
        (out.map fun p => (p.first, p.second)).Nodup
  | [], n => by
    refine ⟨by simp [linksOf], fun out h => ?_⟩
    simp only [linksOf, Option.some.injEq] at h
    subst h
    simp
  | b :: bs, n => by
    obtain ⟨i1, i2⟩ := linksOf_spec f a m bs (n + 1)
    have shift : ∀ p : Link K, (∃ (j : Nat) (b' : Node K), (b :: bs)[j]? = some b' ∧ f a b' = .link p.faces p.resistance ∧ p.first = m ∧
          p.second = n + j) ↔ (f a b = .link p.faces p.resistance ∧ p.first = m ∧ p.second = n) ∨
          ∃ (j : Nat) (b' : Node K), bs[j]? = some b' ∧ f a b' = .link p.faces p.resistance ∧ p.first = m ∧ p.second = n + 1 + j := by
      intro p
      constructor
      · rintro ⟨j, b', h1, h2, h3, h4⟩
        cases j with
        | zero =>
          simp only [List.getElem?_cons_zero, Option.some.injEq] at h1
          subst h1
          exact Or.inl ⟨h2, h3, by omega⟩
        | succ j =>
          rw [List.getElem?_cons_succ] at h1
          exact Or.inr ⟨j, b', h1, h2, h3, by omega⟩
      · rintro (⟨h1, h2, h3⟩ | ⟨j, b', h1, h2, h3, h4⟩)
        · exact ⟨0, b, by simp, h1, h2, by omega⟩
        · exact ⟨j + 1, b', by rw [List.getElem?_cons_succ]; exact h1, h2, h3, by omega⟩
    cases hf : f a b with
    | throws =>
      have e : linksOf f a m n (b :: bs) = none := by simp [linksOf, hf]
      rw [e]
      exact ⟨iff_of_true rfl ⟨b, by simp, hf⟩, fun out h => by cases h⟩
    | none =>
      have e : linksOf f a m n (b :: bs) = linksOf f a m (n + 1) bs := by simp [linksOf, hf]
      rw [e]
      refine ⟨?_, fun out h => ?_⟩
      · rw [i1]; simp [hf]
      · obtain ⟨h1, h2⟩ := i2 out h
        refine ⟨fun p => ?_, h2⟩
        rw [shift p, hf, h1 p]
        simp
    | link s r =>
      have e : linksOf f a m n (b :: bs) = (linksOf f a m (n + 1) bs).map (⟨m, n, s, r⟩ :: ·) := by simp [linksOf, hf]
      rw [e]
      refine ⟨?_, fun out h => ?_⟩
      · rw [Option.map_eq_none_iff, i1]; simp [hf]
      · obtain ⟨l, hl, rfl⟩ := Option.map_eq_some_iff.mp h
        obtain ⟨h1, h2⟩ := i2 l hl
        refine ⟨fun p => ?_, ?_⟩
        · rw [shift p, hf, List.mem_cons, h1 p]
          constructor
          · rintro (rfl | hp)
            · exact Or.inl ⟨rfl, rfl, rfl⟩
            · exact Or.inr hp
          · rintro (⟨q1, q2, q3⟩ | hp)
            · left
              injection q1 with q4 q5
              cases p
              simp_all
            · exact Or.inr hp
        · rw [List.map_cons, List.nodup_cons]
          refine ⟨?_, h2⟩
          rw [List.mem_map]
          rintro ⟨p, hp, hpe⟩
          obtain ⟨j, b', -, -, -, h4⟩ := (h1 p).mp hp
          injection hpe with q1 q2
          have q3 : p.second = n := q2
          omega

/-- **C388.** Every pair of turns is connected at most once, a turn never with itself, and exactly the pairs that should be are. -/
theorem links_spec (f : Node K → Node K → Outcome K) : ∀ (as : List (Node K)) (m : Nat) (out : List (Link K)),
    links f m as = some out →
      (∀ p : Link K, p ∈ out ↔ ∃ (i j : Nat) (a b : Node K), i < j ∧ as[i]? = some a ∧ as[j]? = some b ∧
        f a b = .link p.faces p.resistance ∧ p.first = m + i ∧ p.second = m + j) ∧
      (out.map fun p => (p.first, p.second)).Nodup
  | [], m, out, h => by
    simp only [links, Option.some.injEq] at h
    subst h
    simp
  | a :: as, m, out, h => by
    unfold links at h
    obtain ⟨-, k2⟩ := linksOf_spec f a m as (m + 1)
    cases hl : linksOf f a m (m + 1) as with
    | none => rw [hl] at h; cases h
    | some l =>
      rw [hl] at h
      obtain ⟨rest, hr, rfl⟩ := Option.map_eq_some_iff.mp h
      obtain ⟨i1, i2⟩ := links_spec f as (m + 1) rest hr
      obtain ⟨k3, k4⟩ := k2 l hl
      refine ⟨fun p => ?_, ?_⟩
      · rw [List.mem_append, k3 p, i1 p]
        constructor
        · rintro (⟨j, b, h1, h2, h3, h4⟩ | ⟨i, j, x, y, h1, h2, h3, h4, h5, h6⟩)
          · exact ⟨0, j + 1, a, b, by omega, by simp, by rw [List.getElem?_cons_succ]; exact h1, h2, by omega, by omega⟩
          · exact ⟨i + 1, j + 1, x, y, by omega, by rw [List.getElem?_cons_succ]; exact h2,
              by rw [List.getElem?_cons_succ]; exact h3, h4, by omega, by omega⟩
        · rintro ⟨i, j, x, y, h1, h2, h3, h4, h5, h6⟩
          cases j with
          | zero => omega
          | succ j =>
            rw [List.getElem?_cons_succ] at h3
            cases i with
            | zero =>
              simp only [List.getElem?_cons_zero, Option.some.injEq] at h2
              subst h2
              exact Or.inl ⟨j, y, h3, h4, by omega, by omega⟩
            | succ i =>
              rw [List.getElem?_cons_succ] at h2
              exact Or.inr ⟨i, j, x, y, by omega, h2, h3, h4, by omega, by omega⟩
      · rw [List.map_append]
        refine List.Nodup.append k4 i2 ?_
        intro q hq hq'
        obtain ⟨p, hp, rfl⟩ := List.mem_map.mp hq
        obtain ⟨p', hp', he⟩ := List.mem_map.mp hq'
        obtain ⟨j, b, -, -, g1, -⟩ := (k3 p).mp hp
        obtain ⟨i', j', x, y, -, -, -, -, g2, -⟩ := (i1 p').mp hp'
        injection he with e1 e2
        omega

/-- **C388.** Nothing is connected only if some pair of turns makes it throw. -/
theorem links_throw (f : Node K → Node K → Outcome K) : ∀ (as : List (Node K)) (m : Nat),
    links f m as = none ↔ ∃ (i j : Nat) (a b : Node K), i < j ∧ as[i]? = some a ∧ as[j]? = some b ∧ f a b = .throws
  | [], m => by simp [links]
  | a :: as, m => by
    obtain ⟨k1, -⟩ := linksOf_spec f a m as (m + 1)
    have ih := links_throw f as (m + 1)
    have e : links f m (a :: as) = none ↔ linksOf f a m (m + 1) as = none ∨ links f (m + 1) as = none := by
      conv_lhs => unfold links
      cases hl : linksOf f a m (m + 1) as with
      | none => simp
      | some l => simp
    rw [e, k1, ih]
    constructor
    · rintro (⟨b, hb, h⟩ | ⟨i, j, x, y, h1, h2, h3, h4⟩)
      · obtain ⟨j, hj⟩ := List.mem_iff_getElem?.mp hb
        exact ⟨0, j + 1, a, b, by omega, by simp, by rw [List.getElem?_cons_succ]; exact hj, h⟩
      · exact ⟨i + 1, j + 1, x, y, by omega, by rw [List.getElem?_cons_succ]; exact h2, by rw [List.getElem?_cons_succ]; exact h3, h4⟩
    · rintro ⟨i, j, x, y, h1, h2, h3, h4⟩
      cases j with
      | zero => omega
      | succ j =>
        rw [List.getElem?_cons_succ] at h3
        cases i with
        | zero =>
          simp only [List.getElem?_cons_zero, Option.some.injEq] at h2
          subst h2
          exact Or.inl ⟨y, List.mem_iff_getElem?.mpr ⟨j, h3⟩, h4⟩
        | succ i =>
          rw [List.getElem?_cons_succ] at h2
          exact Or.inr ⟨i, j, x, y, by omega, h2, h3, h4⟩

/-! ## C389: the insulation looked at -/

theorem numbers_get : ∀ (ws seen : List Nat) (i : Nat) (w : Nat), ws[i]? = some w →
    (numbers seen ws)[i]? = some (seen.count w + (ws.take i).count w)
  | [], seen, i, w, h => by simp at h
  | v :: ws, seen, 0, w, h => by
    simp only [List.getElem?_cons_zero, Option.some.injEq] at h
    subst h
    simp [numbers]
  | v :: ws, seen, i + 1, w, h => by
    rw [List.getElem?_cons_succ] at h
    have ih := numbers_get ws (v :: seen) i w h
    unfold numbers
    rw [List.getElem?_cons_succ, ih, List.take_succ_cons, List.count_cons, List.count_cons]
    congr 1
    omega

/-- **C389.** The insulation looked at between two turns is that between them, if the coil has one winding: the number of each turn is
its position. Partial: see `wrong_insulation`. -/
theorem insulation_partial {ws : List Nat} {w : Nat} (h : ∀ v ∈ ws, v = w) {i : Nat} (hi : i < ws.length) :
    (numbers [] ws)[i]? = some i := by
  have hw : ws[i]? = some w := by
    rw [List.getElem?_eq_getElem hi, h _ (List.getElem_mem hi)]
  rw [numbers_get ws [] i w hw]
  have hc : (ws.take i).count w = (ws.take i).length := by
    rw [List.count_eq_length]
    intro v hv
    exact (h v (List.mem_of_mem_take hv)).symm
  rw [hc, List.length_take, List.count_nil]
  congr 1
  omega

/-- **C389.** The number of a turn is how many turns of its winding come before it. -/
theorem numbers_spec {ws : List Nat} {i w : Nat} (h : ws[i]? = some w) : (numbers [] ws)[i]? = some ((ws.take i).count w) := by
  rw [numbers_get ws [] i w h]
  simp

/-- **C389.** Turns that touch with nothing between them are not connected, for the insulation between others: a winding of one
turn, tape, and a winding of two turns of which the first touches the second. -/
theorem wrong_insulation (root : ℚ → ℚ) (hr : root 1 = 1) :
    let i := Insulation.ofCoil [1, 3, 3] [⟨1 / 10, 2⟩] (1 / 4)
    let first : Node ℚ := ⟨3, 0, 1, 1, 0, ⟨1, 1, 1, 1⟩, some (1 / 50, 1 / 4)⟩
    let second : Node ℚ := ⟨3, 1, 1, 1, 1, ⟨1, 1, 1, 1⟩, some (1 / 50, 1 / 4)⟩
    numbers [] [0, 1, 1] = [0, first.number, second.number] ∧ near root first second = true ∧ i.layers 1 2 = some [] ∧
      pair root i [] first second = .none := by
  intro i first second
  have hn : near root first second = true := by
    have hd : distance root first second = 1 := by
      rw [← hr]
      unfold distance
      congr 1
      norm_num [first, second]
    unfold near gap
    rw [hd]
    norm_num [least, first, second]
  refine ⟨by decide +kernel, hn, by decide +kernel, ?_⟩
  unfold pair
  rw [hn]
  have hs : solid i first.number second.number = true := by decide +kernel
  simp [hs]

/-! ## C390: resistance of a connection -/

theorem pair_link {root : K → K} {i : Insulation K} {plates : List (Plate K)} {a b : Node K} {s : Side × Side} {r : K}
    (h : pair root i plates a b = .link s r) :
    near root a b = true ∧ i.layers a.number b.number = some [] ∧ 0 < contact a b ∧ (∀ p ∈ plates, between a b p = false) ∧
      s = facing a b ∧ r = Faces.coated a.coat (contact a b) + Faces.coated b.coat (contact a b) := by
  unfold pair at h
  by_cases hn : near root a b = false
  · rw [if_pos hn] at h; cases h
  rw [if_neg hn] at h
  by_cases hs : (solid i a.number b.number || plates.any (between a b)) = true
  · rw [if_pos hs] at h; cases h
  rw [if_neg hs] at h
  rw [Bool.not_eq_true, Bool.or_eq_false_iff] at hs
  obtain ⟨hs1, hs2⟩ := hs
  unfold insulating at h
  by_cases hc : contact a b ≤ 0
  · rw [if_pos hc] at h; cases h
  rw [if_neg hc] at h
  by_cases hr : a.number < i.count ∧ b.number < i.count
  · rw [if_pos hr] at h
    unfold solid at hs1
    rw [if_pos hr] at hs1
    cases hl : i.layers a.number b.number with
    | none => rw [hl] at h; cases h
    | some l =>
      rw [hl] at h hs1
      have hl0 : l = [] := by simpa using hs1
      subst hl0
      simp only [Option.map_some, layered, zero_add] at h
      injection h with h1 h2
      refine ⟨by simpa using hn, rfl, not_le.mp hc, ?_, h1.symm, h2.symm⟩
      intro p hp
      have := List.any_eq_false.mp hs2 p hp
      simpa using this
  · rw [if_neg hr] at h; cases h

/-- **C390.** A connection resists as the coatings of both turns at their area of contact, and nothing else: turns of bare wires are
connected without any resistance. -/
theorem link_resistance {root : K → K} {i : Insulation K} {plates : List (Plate K)} {a b : Node K} {s : Side × Side} {r : K}
    (h : pair root i plates a b = .link s r) :
    r = Faces.coated a.coat (contact a b) + Faces.coated b.coat (contact a b) ∧ (a.coat = none → b.coat = none → r = 0) := by
  obtain ⟨-, -, -, -, -, hr⟩ := pair_link h
  refine ⟨hr, fun h1 h2 => ?_⟩
  rw [hr, h1, h2]
  simp [Faces.coated]

/-- **C390.** Turns are connected exactly when they are near, no insulation is found between them and they have an area of contact. -/
theorem linked_iff {root : K → K} {i : Insulation K} {plates : List (Plate K)} {a b : Node K} (ha : a.number < i.count)
    (hb : b.number < i.count) : (∃ s r, pair root i plates a b = .link s r) ↔
      near root a b = true ∧ i.layers a.number b.number = some [] ∧ 0 < contact a b ∧ ∀ p ∈ plates, between a b p = false := by
  constructor
  · rintro ⟨s, r, h⟩
    obtain ⟨h1, h2, h3, h4, -, -⟩ := pair_link h
    exact ⟨h1, h2, h3, h4⟩
  · rintro ⟨h1, h2, h3, h4⟩
    have hs : solid i a.number b.number = false := by simp [solid, ha, hb, h2]
    have hp : plates.any (between a b) = false := List.any_eq_false.mpr fun p hp => by rw [h4 p hp]; simp
    refine ⟨facing a b, 0 + Faces.coated a.coat (contact a b) + Faces.coated b.coat (contact a b), ?_⟩
    have hi : insulating i a.number b.number (contact a b) = some 0 := by
      unfold insulating
      rw [if_neg (not_le.mpr h3), if_pos (And.intro ha hb), h2]
      rfl
    unfold pair
    rw [h1, hs, hp, hi]
    simp

/-- **C390.** The area of contact of turns side by side is the smaller of the outer face of that nearer to the axis and the inner face of the other,
and of turns one above the other the smaller of the two faces between them, whichever is taken first. -/
theorem contact_faces (a b : Node K) :
    (|a.y - b.y| < |a.x - b.x| → a.x < b.x → contact a b = min a.areas.outer b.areas.inner ∧ contact b a = min b.areas.inner a.areas.outer) ∧
    (|a.x - b.x| ≤ |a.y - b.y| → a.y < b.y → contact a b = min a.areas.left b.areas.right ∧ contact b a = min b.areas.right a.areas.left) := by
  have e1 : |b.y - a.y| = |a.y - b.y| := abs_sub_comm _ _
  have e2 : |b.x - a.x| = |a.x - b.x| := abs_sub_comm _ _
  constructor
  · intro h hx
    have h1 : ¬ 0 < a.x - b.x := by linarith
    have h2 : 0 < b.x - a.x := by linarith
    constructor
    · simp only [contact, facing, horizontal, h, decide_true, if_true, if_neg h1, Side.area]
    · simp only [contact, facing, horizontal, e1, e2, h, decide_true, if_true, if_pos h2, Side.area]
  · intro h hy
    have h0 : ¬ |a.y - b.y| < |a.x - b.x| := not_lt.2 h
    have h1 : ¬ 0 < a.y - b.y := by linarith
    have h2 : 0 < b.y - a.y := by linarith
    constructor
    · simp [contact, facing, horizontal, h0, h1, Side.area]
    · simp only [contact, facing, horizontal, e1, e2, h0, decide_false, Bool.false_eq_true, if_false, if_pos h2, Side.area]

/-- **C390.** The layers of insulation found between two turns resist in series: the resistance times the area is the sum of thickness by
conductivity. -/
theorem layers_in_series (i : Insulation K) (m n : Nat) (area : K) (ha : 0 < area) (hm : m < i.count) (hn : n < i.count)
    (ls : List (K × K)) (hl : i.layers m n = some ls) (hp : ∀ l ∈ ls, 0 ≤ l.1 ∧ 0 < l.2) :
    ∃ r, insulating i m n area = some r ∧ r * area = (ls.map fun l => l.1 / l.2).sum := by
  refine ⟨layered area ls, by simp [insulating, not_le.2 ha, hm, hn, hl], ?_⟩
  clear hl
  induction ls with
  | nil => simp [layered]
  | cons l ls ih =>
    obtain ⟨h1, h2⟩ := hp l (by simp)
    have := ih fun x hx => hp x (by simp [hx])
    simp only [layered, List.map_cons, List.sum_cons, add_mul, this]
    congr 1
    unfold Faces.conduction
    by_cases h : l.1 ≤ 0
    · rw [if_pos h, le_antisymm h h1]; simp
    · rw [if_neg h, if_neg (not_or.mpr ⟨not_le.mpr h2, not_le.mpr ha⟩)]
      have := h2.ne'
      have := ha.ne'
      field_simp

/-- **C390.** Where the insulation between turns cannot be found, the network is not built, although the failure is caught for the
turns to be connected. -/
theorem unknown_insulation {root : K → K} {i : Insulation K} {plates : List (Plate K)} {a b : Node K} (hn : near root a b = true)
    (hp : ∀ p ∈ plates, between a b p = false) (hl : i.layers a.number b.number = none) : pair root i plates a b = .throws := by
  have hs : solid i a.number b.number = false := by
    unfold solid
    rw [hl]
    split_ifs <;> rfl
  have hq : plates.any (between a b) = false := List.any_eq_false.mpr fun p h => by rw [hp p h]; simp
  unfold pair
  rw [hn, hs, hq]
  have : insulating i a.number b.number (contact a b) = none := by
    unfold insulating
    rw [hl]
    split_ifs <;> rfl
  simp [this]

example : pair (fun x => x) ⟨2, fun _ _ => some []⟩ [] (⟨0, 0, 1, 1, 0, ⟨1, 1, 1, 1⟩, some (1 / 50, 1 / 4)⟩ : Node ℚ)
    ⟨1, 0, 1, 1, 1, ⟨1, 1, 1, 1⟩, none⟩ = .link (.right, .left) (2 / 25) := by decide +kernel

/-! ## C391: insulation in the way -/

/-- **C391.** A layer of insulation is in the way of two turns or not, whichever comes first. Partial: the turns are beside or over
each other and of the same dimensions (see `between_order`). -/
theorem between_comm_partial {a b : Node K} (p : Plate K) (hw : a.width = b.width) (hh : a.height = b.height)
    (h : a.x = b.x ∨ a.y = b.y) : between a b p = between b a p := by
  have hz : horizontal b a = horizontal a b := by
    unfold horizontal
    rw [abs_sub_comm b.y a.y, abs_sub_comm b.x a.x]
  unfold between
  rw [hz, max_comm b.x a.x, min_comm b.x a.x, max_comm b.y a.y, min_comm b.y a.y, hw, hh]
  by_cases hc : horizontal a b = true
  · rw [if_pos hc, if_pos hc]
    have hy : a.y = b.y := by
      rcases h with h | h
      · exfalso
        unfold horizontal at hc
        rw [decide_eq_true_iff, h, sub_self, abs_zero] at hc
        exact absurd (abs_nonneg (a.y - b.y)) (not_le.mpr hc)
      · exact h
    rw [hy]
  · rw [if_neg hc, if_neg hc]
    have hx : a.x = b.x := by
      rcases h with h | h
      · exact h
      · unfold horizontal at hc
        rw [decide_eq_true_iff, h, sub_self, abs_zero, not_lt] at hc
        have := abs_eq_zero.mp (le_antisymm hc (abs_nonneg _))
        linarith
    rw [hx]

/-- **C391.** Of two turns of a staggered pair, tape that ends at the first is in the way if that one comes first, and is not if it
comes second. -/
theorem between_order :
    let a : Node ℚ := ⟨0, 0, 1, 1, 0, ⟨1, 1, 1, 1⟩, none⟩
    let b : Node ℚ := ⟨9 / 10, 1 / 2, 1, 1, 1, ⟨1, 1, 1, 1⟩, none⟩
    let p : Plate ℚ := ⟨45 / 100, -1, 1 / 100, 11 / 10⟩
    between a b p = true ∧ between b a p = false := ⟨by decide +kernel, by decide +kernel⟩

/-! ## C392: tape between turns -/

/-- **C392.** The tape between two places is the same from both, and is all that has some thickness and lies between. -/
theorem tapes_between (layers : List (Tape K)) (x1 x2 : K) :
    tapesBetween layers x1 x2 = tapesBetween layers x2 x1 ∧
      ∀ l : Tape K, l ∈ tapesBetween layers x1 x2 ↔
        l ∈ layers ∧ 0 < l.thickness ∧ (x1 < l.place ∧ l.place < x2 ∨ x2 < l.place ∧ l.place < x1) := by
  refine ⟨by unfold tapesBetween; rw [min_comm, max_comm], fun l => ?_⟩
  simp only [tapesBetween, List.mem_filter, Bool.and_eq_true, decide_eq_true_eq, min_lt_iff, lt_max_iff, and_assoc]
  constructor
  · rintro ⟨h1, h2, h3, h4⟩
    refine ⟨h1, h2, ?_⟩
    rcases h3 with h3 | h3 <;> rcases h4 with h4 | h4
    · rcases lt_or_ge l.place x2 with h | h
      · exact Or.inl ⟨h3, h⟩
      · exact absurd (lt_trans h3 h4) (lt_irrefl _)
    · exact Or.inl ⟨h3, h4⟩
    · exact Or.inr ⟨h3, h4⟩
    · exact absurd (lt_trans h3 h4) (lt_irrefl _)
  · rintro ⟨h1, h2, h | h⟩
    · exact ⟨h1, h2, Or.inl h.1, Or.inr h.2⟩
    · exact ⟨h1, h2, Or.inr h.1, Or.inl h.2⟩

/-- **C392.** In a round window the tape between turns is that between their angles. Partial: the turns are not on both sides of the
angle zero (see `tapes_round_missed`). -/
theorem tapes_round_partial {layers : List (Tape K)} {y1 y2 : K} (h : (90 ≤ y1 ∨ y2 ≤ 270) ∧ (90 ≤ y2 ∨ y1 ≤ 270)) (l : Tape K) :
    l ∈ tapesRound layers y1 y2 ↔
      l ∈ layers ∧ 0 < l.thickness ∧ (y1 < l.place ∧ l.place < y2 ∨ y2 < l.place ∧ l.place < y1) := by
  unfold tapesRound
  rw [if_neg (by rintro ⟨h1, h2⟩; rcases h.1 with h3 | h3 <;> linarith),
    if_neg (by rintro ⟨h1, h2⟩; rcases h.2 with h3 | h3 <;> linarith)]
  exact (tapes_between layers y1 y2).2 l

theorem tapes_round_comm (layers : List (Tape K)) (y1 y2 : K) : tapesRound layers y1 y2 = tapesRound layers y2 y1 := by
  unfold tapesRound
  by_cases h1 : y1 < 90 ∧ 270 < y2
  · rw [if_pos h1, if_neg (by rintro ⟨h2, h3⟩; linarith [h1.1]), if_pos h1]
  · rw [if_neg h1]
    by_cases h2 : y2 < 90 ∧ 270 < y1
    · rw [if_pos h2, if_pos h2]
    · rw [if_neg h2, if_neg h2, if_neg h1, (tapes_between layers y1 y2).1]

/-- **C392.** Of turns on both sides of the angle zero, only the tape before zero is found: not that between zero and the other turn. -/
theorem tapes_round_across {layers : List (Tape K)} {y1 y2 : K} (h1 : y1 < 90) (h2 : 270 < y2) (l : Tape K) :
    l ∈ tapesRound layers y1 y2 ↔ l ∈ layers ∧ 0 < l.thickness ∧ y2 < l.place := by
  unfold tapesRound
  rw [if_pos ⟨h1, h2⟩]
  simp [tapesBeyond, and_assoc]

/-- **C392.** Tape at 5 degrees is not found between turns at 20 and at 350 degrees. -/
theorem tapes_round_missed : tapesRound (K := ℚ) [⟨2, 5⟩] 20 350 = [] ∧ tapesRound (K := ℚ) [⟨2, 355⟩] 20 350 = [⟨2, 355⟩] :=
  ⟨by decide +kernel, by decide +kernel⟩

/-! ## C393: faces of turns of a toroid -/

theorem best_spec (dx dy : K) : ∀ (qs : List (K × K)) (n : Nat) (acc : Option Nat × K),
    acc.2 ≤ (best dx dy n qs acc).2 ∧ (∀ q ∈ qs, q.1 * dx + q.2 * dy ≤ (best dx dy n qs acc).2) ∧
      (best dx dy n qs acc = acc ∨ ∃ (k : Nat) (q : K × K), qs[k]? = some q ∧
        best dx dy n qs acc = (some (n + k), q.1 * dx + q.2 * dy))
  | [], n, acc => by simp [best]
  | q :: qs, n, acc => by
    obtain ⟨h1, h2, h3⟩ := best_spec dx dy qs (n + 1) (if acc.2 < q.1 * dx + q.2 * dy then (some n, q.1 * dx + q.2 * dy) else acc)
    have e : best dx dy n (q :: qs) acc =
        best dx dy (n + 1) qs (if acc.2 < q.1 * dx + q.2 * dy then (some n, q.1 * dx + q.2 * dy) else acc) := rfl
    rw [e]
    by_cases hc : acc.2 < q.1 * dx + q.2 * dy
    · rw [if_pos hc] at h1 h2 h3 ⊢
      have h1' : q.1 * dx + q.2 * dy ≤ (best dx dy (n + 1) qs (some n, q.1 * dx + q.2 * dy)).2 := h1
      refine ⟨le_trans hc.le h1', ?_, Or.inr ?_⟩
      · intro p hp
        rcases List.mem_cons.mp hp with rfl | hp
        · exact h1'
        · exact h2 p hp
      · rcases h3 with h3 | ⟨k, p, hk, h3⟩
        · exact ⟨0, q, by simp, by rw [h3]; simp⟩
        · exact ⟨k + 1, p, by rw [List.getElem?_cons_succ]; exact hk, by rw [h3]; congr 2; omega⟩
    · rw [if_neg hc] at h1 h2 h3 ⊢
      refine ⟨h1, ?_, ?_⟩
      · intro p hp
        rcases List.mem_cons.mp hp with rfl | hp
        · exact le_trans (not_lt.mp hc) h1
        · exact h2 p hp
      · rcases h3 with h3 | ⟨k, p, hk, h3⟩
        · exact Or.inl h3
        · exact Or.inr ⟨k + 1, p, by rw [List.getElem?_cons_succ]; exact hk, by rw [h3]; congr 2; omega⟩

/-- **C393.** A turn of a toroid always has a face that looks at another one, no other face looks at it more, and it looks at it within
45 degrees. -/
theorem looks_found {c s dx dy : K} (h1 : c * c + s * s = 1) (h2 : dx * dx + dy * dy = 1) :
    ∃ (k : Nat) (q : K × K), (directions c s)[k]? = some q ∧ looks c s dx dy = (some k, q.1 * dx + q.2 * dy) ∧
      (∀ p ∈ directions c s, p.1 * dx + p.2 * dy ≤ q.1 * dx + q.2 * dy) ∧ 0 < q.1 * dx + q.2 * dy ∧
      1 ≤ 2 * ((q.1 * dx + q.2 * dy) * (q.1 * dx + q.2 * dy)) := by
  obtain ⟨g1, g2, g3⟩ := best_spec dx dy (directions c s) 0 (none, -1)
  have e1 := g2 (c, s) (by simp [directions])
  have e2 := g2 (-c, -s) (by simp [directions])
  have e3 := g2 (-s, c) (by simp [directions])
  have e4 := g2 (s, -c) (by simp [directions])
  have hsum : (c * dx + s * dy) * (c * dx + s * dy) + (-s * dx + c * dy) * (-s * dx + c * dy) = 1 := by
    have : (c * dx + s * dy) * (c * dx + s * dy) + (-s * dx + c * dy) * (-s * dx + c * dy) =
      (c * c + s * s) * (dx * dx + dy * dy) := by ring
    rw [this, h1, h2, one_mul]
  have hv : ∀ v : K, c * dx + s * dy ≤ v → -c * dx + -s * dy ≤ v → -s * dx + c * dy ≤ v → s * dx + -c * dy ≤ v →
      0 ≤ v ∧ 1 ≤ 2 * (v * v) := by
    intro v a1 a2 a3 a4
    have h0 : 0 ≤ v := by linarith
    refine ⟨h0, ?_⟩
    have b1 : (c * dx + s * dy) * (c * dx + s * dy) ≤ v * v := by
      rw [← abs_mul_abs_self (c * dx + s * dy)]
      have : |c * dx + s * dy| ≤ v := abs_le.mpr ⟨by linarith, a1⟩
      exact mul_self_le_mul_self (abs_nonneg _) this
    have b2 : (-s * dx + c * dy) * (-s * dx + c * dy) ≤ v * v := by
      rw [← abs_mul_abs_self (-s * dx + c * dy)]
      have : |-s * dx + c * dy| ≤ v := abs_le.mpr ⟨by linarith, a3⟩
      exact mul_self_le_mul_self (abs_nonneg _) this
    linarith
  obtain ⟨v0, v1⟩ := hv _ e1 e2 e3 e4
  rcases g3 with g3 | ⟨k, q, hk, g3⟩
  · exfalso
    rw [g3] at v0
    have : (0 : K) ≤ -1 := v0
    linarith
  · rw [g3] at v0 v1 g2
    have v0' : 0 ≤ q.1 * dx + q.2 * dy := v0
    have v1' : 1 ≤ 2 * ((q.1 * dx + q.2 * dy) * (q.1 * dx + q.2 * dy)) := v1
    refine ⟨k, q, hk, ?_, g2, ?_, v1'⟩
    · unfold looks
      rw [g3, Nat.zero_add]
    · rcases v0'.lt_or_eq with h | h
      · exact h
      · rw [← h] at v1'
        norm_num at v1'

example : looks (K := ℚ) 1 0 (3 / 5) (4 / 5) = (some 2, 4 / 5) := by decide +kernel

end

end Verif.Contacts
