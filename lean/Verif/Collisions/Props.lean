import Verif.Collisions.Model
import Mathlib.Data.Real.Sqrt

/-! # Property C38: collision checking -/

namespace Verif.Collisions

open Verif.Round

set_option linter.unusedSectionVars false

variable {N K : Type} [LinearOrder N] [Field K] [LinearOrder K] [IsStrictOrderedRing K] [FloorRing K]

/-- Specification: box `n` is centred at `(x, y)` and measures `w × h`. -/
def IsBox (dims coords : SMap N (List K)) (n : N) (x y w h : K) : Prop :=
  (∃ t, (n, w :: h :: t) ∈ dims) ∧ ∃ t, coords.find? n = some (x :: y :: t)

/-- Specification: every name with dimensions has two dimensions and two coordinates. -/
def Complete (dims coords : SMap N (List K)) : Prop :=
  ∀ n d, (n, d) ∈ dims → ∃ x y w h, IsBox dims coords n x y w h ∧ ∃ t, d = w :: h :: t

/-- Half the sum of the extents minus the distance of the centres, along one axis: how deep two boxes
overlap along that axis (negative: they are apart). -/
def depth (a b wa wb : K) : K := (wa + wb) / 2 - |a - b|

theorem innerLoop_iff (sqrt : K → K) (rd : Bool) (coords : SMap N (List K)) (l : N × List K)
    (ds : SMap N (List K))
    (hd : ∀ r ∈ ds, ∃ b, pairCollides sqrt rd l.2 (coordsOf coords l.1) r.2 (coordsOf coords r.1) = some b) :
    ∃ b, innerLoop sqrt rd coords l ds = some b ∧ (b = true ↔ ∃ r ∈ ds, r.1 ≠ l.1 ∧
      pairCollides sqrt rd l.2 (coordsOf coords l.1) r.2 (coordsOf coords r.1) = some true) := by
  induction ds with
  | nil => exact ⟨false, rfl, by simp⟩
  | cons r ds ih =>
    obtain ⟨b, h1, h2⟩ := ih (fun r' h => hd r' (by simp [h]))
    unfold innerLoop
    by_cases hr : r.1 = l.1
    · rw [if_pos hr]
      exact ⟨b, h1, by rw [h2]; simp [hr]⟩
    · rw [if_neg hr]
      obtain ⟨c, hc⟩ := hd r (by simp)
      rw [hc]
      cases c
      · refine ⟨b, h1, ?_⟩
        rw [h2]; simp [hc]
      · exact ⟨true, rfl, by simp [hr, hc]⟩

theorem outerLoop_iff (sqrt : K → K) (rd : Bool) (coords dims ls : SMap N (List K))
    (hd : ∀ l ∈ ls, ∀ r ∈ dims,
      ∃ b, pairCollides sqrt rd l.2 (coordsOf coords l.1) r.2 (coordsOf coords r.1) = some b) :
    ∃ b, outerLoop sqrt rd coords dims ls = some b ∧ (b = true ↔ ∃ l ∈ ls, ∃ r ∈ dims, r.1 ≠ l.1 ∧
      pairCollides sqrt rd l.2 (coordsOf coords l.1) r.2 (coordsOf coords r.1) = some true) := by
  induction ls with
  | nil => exact ⟨false, rfl, by simp⟩
  | cons l ls ih =>
    obtain ⟨b, h1, h2⟩ := ih (fun l' h => hd l' (by simp [h]))
    obtain ⟨c, h3, h4⟩ := innerLoop_iff sqrt rd coords l dims (hd l (by simp))
    unfold outerLoop
    rw [h3]
    cases c
    · refine ⟨b, h1, ?_⟩
      rw [h2]
      constructor
      · rintro ⟨l', hl', h⟩; exact ⟨l', by simp [hl'], h⟩
      · rintro ⟨l', hl', h⟩
        rcases List.mem_cons.mp hl' with rfl | hl'
        · exact absurd (h4.mpr h) (by simp)
        · exact ⟨l', hl', h⟩
    · exact ⟨true, rfl, by simp only [true_iff]; exact ⟨l, by simp, h4.mp rfl⟩⟩

theorem pair_defined (sqrt : K → K) (rd : Bool) (dims coords : SMap N (List K)) (hc : Complete dims coords)
    (l r : N × List K) (hl : l ∈ dims) (hr : r ∈ dims) :
    ∃ b, pairCollides sqrt rd l.2 (coordsOf coords l.1) r.2 (coordsOf coords r.1) = some b := by
  obtain ⟨x, y, w, h, ⟨_, t, ht⟩, u, hu⟩ := hc l.1 l.2 hl
  obtain ⟨x', y', w', h', ⟨_, t', ht'⟩, u', hu'⟩ := hc r.1 r.2 hr
  simp only [coordsOf, ht, ht', hu, hu', Option.getD_some]
  cases rd <;> exact ⟨_, rfl⟩

/-- **C38** (rectangular window): the call is defined and reports a collision exactly when two different
boxes overlap on both axes by more than the tolerance, measured on values rounded to a nanometre. -/
theorem rect_collision_iff (sqrt : K → K) (dims coords : SMap N (List K)) (hc : Complete dims coords) :
    ∃ b, checkCollisions sqrt dims coords false = some b ∧
      (b = true ↔ ∃ n m, n ≠ m ∧ ∃ x y w h x' y' w' h', IsBox dims coords n x y w h ∧
        IsBox dims coords m x' y' w' h' ∧
        tol < roundFloat (w / 2 + w' / 2) 9 - roundFloat |x - x'| 9 ∧
        tol < roundFloat (h / 2 + h' / 2) 9 - roundFloat |y - y'| 9) := by
  obtain ⟨b, h1, h2⟩ := outerLoop_iff sqrt false coords dims dims
    (fun l hl r hr => pair_defined sqrt false dims coords hc l r hl hr)
  refine ⟨b, h1, ?_⟩
  rw [h2]
  constructor
  · rintro ⟨l, hl, r, hr, hne, hp⟩
    obtain ⟨x, y, w, h, ⟨hm, t, ht⟩, u, hu⟩ := hc l.1 l.2 hl
    obtain ⟨x', y', w', h', ⟨hm', t', ht'⟩, u', hu'⟩ := hc r.1 r.2 hr
    refine ⟨l.1, r.1, hne.symm, x, y, w, h, x', y', w', h', ⟨hm, t, ht⟩, ⟨hm', t', ht'⟩, ?_⟩
    simp only [coordsOf, ht, ht', hu, hu', Option.getD_some, pairCollides, List.getElem?_cons_zero,
      List.getElem?_cons_succ, Bool.false_eq_true, if_false] at hp
    exact of_decide_eq_true (Option.some.inj hp)
  · rintro ⟨n, m, hne, x, y, w, h, x', y', w', h', ⟨⟨u, hu⟩, t, ht⟩, ⟨⟨u', hu'⟩, t', ht'⟩, hd⟩
    refine ⟨_, hu, _, hu', hne.symm, ?_⟩
    simp only [coordsOf, ht, ht', Option.getD_some, pairCollides, List.getElem?_cons_zero,
      List.getElem?_cons_succ, Bool.false_eq_true, if_false]
    exact congrArg some (decide_eq_true hd)

theorem near (x : K) : |roundFloat x 9 - x| ≤ 1 / (2 * 10 ^ 9) := roundFloat_near x 9

/-- **C38** (rectangular window, in true geometry): boxes overlapping on both axes by more than 11 nm are
reported, and only boxes overlapping on both axes by more than 9 nm are. -/
theorem rect_collision_sound_complete (sqrt : K → K) (dims coords : SMap N (List K))
    (hc : Complete dims coords) :
    ∃ b, checkCollisions sqrt dims coords false = some b ∧
      ((∃ n m, n ≠ m ∧ ∃ x y w h x' y' w' h', IsBox dims coords n x y w h ∧ IsBox dims coords m x' y' w' h' ∧
        11 / 10 ^ 9 < depth x x' w w' ∧ 11 / 10 ^ 9 < depth y y' h h') → b = true) ∧
      (b = true → ∃ n m, n ≠ m ∧ ∃ x y w h x' y' w' h', IsBox dims coords n x y w h ∧
        IsBox dims coords m x' y' w' h' ∧ 9 / 10 ^ 9 < depth x x' w w' ∧ 9 / 10 ^ 9 < depth y y' h h') := by
  obtain ⟨b, h1, h2⟩ := rect_collision_iff sqrt dims coords hc
  have step : ∀ a c w w' : K, |(roundFloat (w / 2 + w' / 2) 9 - roundFloat |a - c| 9) - depth a c w w'|
      ≤ 1 / 10 ^ 9 := by
    intro a c w w'
    have e1 := abs_le.mp (near (w / 2 + w' / 2))
    have e2 := abs_le.mp (near |a - c|)
    unfold depth
    norm_num at e1 e2 ⊢
    rw [abs_le]
    constructor <;> linarith [e1.1, e1.2, e2.1, e2.2]
  refine ⟨b, h1, ?_, ?_⟩
  · rintro ⟨n, m, hne, x, y, w, h, x', y', w', h', hb, hb', hx, hy⟩
    refine h2.mpr ⟨n, m, hne, x, y, w, h, x', y', w', h', hb, hb', ?_, ?_⟩
    · have := (abs_le.mp (step x x' w w')).1
      unfold tol; norm_num at *; linarith
    · have := (abs_le.mp (step y y' h h')).1
      unfold tol; norm_num at *; linarith
  · intro hbt
    obtain ⟨n, m, hne, x, y, w, h, x', y', w', h', hb, hb', hx, hy⟩ := h2.mp hbt
    refine ⟨n, m, hne, x, y, w, h, x', y', w', h', hb, hb', ?_, ?_⟩
    · have := (abs_le.mp (step x x' w w')).2
      unfold tol at hx; norm_num at *; linarith
    · have := (abs_le.mp (step y y' h h')).2
      unfold tol at hy; norm_num at *; linarith

/-- Distance of two points of the plane. -/
noncomputable def distance (x y x' y' : ℝ) : ℝ := Real.sqrt ((x - x') ^ 2 + (y - y') ^ 2)

/-- **C38** (round window): circles whose diameters are the first dimensions and that overlap by more than
11 nm are reported, and only circles overlapping by more than 9 nm are. -/
theorem round_collision_sound_complete (dims coords : SMap N (List ℝ)) (hc : Complete dims coords) :
    ∃ b, checkCollisions Real.sqrt dims coords true = some b ∧
      ((∃ n m, n ≠ m ∧ ∃ x y w h x' y' w' h', IsBox dims coords n x y w h ∧ IsBox dims coords m x' y' w' h' ∧
        distance x y x' y' + 11 / 10 ^ 9 < (w + w') / 2) → b = true) ∧
      (b = true → ∃ n m, n ≠ m ∧ ∃ x y w h x' y' w' h', IsBox dims coords n x y w h ∧
        IsBox dims coords m x' y' w' h' ∧ distance x y x' y' + 9 / 10 ^ 9 < (w + w') / 2) := by
  obtain ⟨b, h1, h2⟩ := outerLoop_iff Real.sqrt true coords dims dims
    (fun l hl r hr => pair_defined Real.sqrt true dims coords hc l r hl hr)
  have sq : ∀ a c : ℝ, |a - c| ^ 2 = (a - c) ^ 2 := fun a c => sq_abs _
  refine ⟨b, h1, ?_, ?_⟩
  · rintro ⟨n, m, hne, x, y, w, h, x', y', w', h', ⟨⟨u, hu⟩, t, ht⟩, ⟨⟨u', hu'⟩, t', ht'⟩, hd⟩
    refine h2.mpr ⟨_, hu, _, hu', hne.symm, ?_⟩
    simp only [coordsOf, ht, ht', Option.getD_some, pairCollides, List.getElem?_cons_zero,
      List.getElem?_cons_succ, if_true, sq]
    refine congrArg some (decide_eq_true ?_)
    have e1 := abs_le.mp (near (w / 2 + w' / 2))
    have e2 := abs_le.mp (near (Real.sqrt ((x - x') ^ 2 + (y - y') ^ 2)))
    unfold distance at hd
    unfold tol; norm_num at *; linarith [e1.1, e1.2, e2.1, e2.2]
  · intro hbt
    obtain ⟨l, hl, r, hr, hne, hp⟩ := h2.mp hbt
    obtain ⟨x, y, w, h, ⟨hm, t, ht⟩, u, hu⟩ := hc l.1 l.2 hl
    obtain ⟨x', y', w', h', ⟨hm', t', ht'⟩, u', hu'⟩ := hc r.1 r.2 hr
    refine ⟨l.1, r.1, hne.symm, x, y, w, h, x', y', w', h', ⟨hm, t, ht⟩, ⟨hm', t', ht'⟩, ?_⟩
    simp only [coordsOf, ht, ht', hu, hu', Option.getD_some, pairCollides, List.getElem?_cons_zero,
      List.getElem?_cons_succ, if_true, sq] at hp
    have hp' := of_decide_eq_true (Option.some.inj hp)
    have e1 := abs_le.mp (near (w / 2 + w' / 2))
    have e2 := abs_le.mp (near (Real.sqrt ((x - x') ^ 2 + (y - y') ^ 2)))
    unfold distance
    unfold tol at hp'; norm_num at *; linarith [e1.1, e1.2, e2.1, e2.2]

/-- Three boxes, the first two overlapping. -/
def boxes3 : SMap Nat (List ℚ) := [(0, [2, 2]), (1, [2, 2]), (2, [2, 2])]
def centres3 : SMap Nat (List ℚ) := [(0, [0, 0]), (1, [1, 1]), (2, [5, 0])]

example : checkCollisions id boxes3 centres3 false = some true := by decide +kernel

example : Complete boxes3 centres3 := by
  intro n d hm
  simp only [boxes3, List.mem_cons, Prod.mk.injEq, List.not_mem_nil, or_false] at hm
  rcases hm with ⟨rfl, rfl⟩ | ⟨rfl, rfl⟩ | ⟨rfl, rfl⟩
  · exact ⟨0, 0, 2, 2, ⟨⟨[], by simp [boxes3]⟩, [], by simp [centres3, SMap.find?]⟩, [], rfl⟩
  · exact ⟨1, 1, 2, 2, ⟨⟨[], by simp [boxes3]⟩, [], by simp [centres3, SMap.find?]⟩, [], rfl⟩
  · exact ⟨5, 0, 2, 2, ⟨⟨[], by simp [boxes3]⟩, [], by simp [centres3, SMap.find?]⟩, [], rfl⟩

/-- Disagreement: a box without coordinates is undefined behaviour, not an error. -/
theorem missing_coordinates_ub : checkCollisions id boxes3 [(0, [0, 0])] false = none := by decide +kernel

end Verif.Collisions
