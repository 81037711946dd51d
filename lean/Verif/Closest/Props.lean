import Verif.Closest.Model
import Mathlib.Algebra.Order.Group.Abs
import Mathlib.Data.Rat.Floor
import Mathlib.Tactic.Linarith
import Mathlib.Tactic.NormNum

/-! # Property C17: closest index -/

namespace Verif.Closest

set_option linter.unusedSectionVars false

variable {K : Type} [Field K] [LinearOrder K] [IsStrictOrderedRing K]

/-- Specification: `r` is an index of an element at least as close to `x` as any other. -/
def IsClosest (v : List K) (x : K) (r : Nat) : Prop :=
  ∃ y, v[r]? = some y ∧ ∀ z ∈ v, |y - x| ≤ |z - x|

/-- Specification: the element at `r` is the nearest one on its own side of `x`: no other element is between
them, and it is an exact hit when there is one. -/
def IsNeighbour (v : List K) (x : K) (r : Nat) : Prop :=
  ∃ y, v[r]? = some y ∧ ∀ z ∈ v, ¬ (y < z ∧ z ≤ x) ∧ ¬ (x ≤ z ∧ z < y)

/-- The loop stays inside the vector, for every vector (sorted or not). -/
theorem search_index (v : List K) (x : K) (i j mid : Nat) (hj : j ≤ v.length) (hm : mid < v.length) :
    ∃ r, search v x i j mid = .index r ∧ r < v.length := by
  fun_induction search v x i j mid with
  | case1 i j mid h m hn => 
    have : m < v.length := by simp only [m]; omega
    rw [List.getElem?_eq_none_iff] at hn; omega
  | case2 i j mid h m hv => exact ⟨m, rfl, by simp only [m]; omega⟩
  | case3 i j mid h m vm hv h1 h2 h3 hn =>
    have : m - 1 < v.length := by simp only [m]; omega
    rw [List.getElem?_eq_none_iff] at hn; omega
  | case4 i j mid h m vm hv h1 h2 h3 vp hp h4 => exact ⟨m, rfl, by simp only [m]; omega⟩
  | case5 i j mid h m vm hv h1 h2 h3 vp hp h4 ih => exact ih (by simp only [m]; omega) (by simp only [m]; omega)
  | case6 i j mid h m vm hv h1 h2 h3 ih => exact ih (by simp only [m]; omega) (by simp only [m]; omega)
  | case7 i j mid h m vm hv h1 h2 h3 hn => 
    rw [List.getElem?_eq_none_iff] at hn; omega
  | case8 i j mid h m vm hv h1 h2 h3 vn hp h4 => exact ⟨m + 1, rfl, by omega⟩
  | case9 i j mid h m vm hv h1 h2 h3 vn hp h4 ih => exact ih hj (by omega)
  | case10 i j mid h m vm hv h1 h2 h3 ih => exact ih hj (by simp only [m]; omega)
  | case11 i j mid h => exact ⟨mid, rfl, hm⟩

/-- **C17**: for every vector, sorted or not, the call has a defined result exactly when the vector is not
empty, and then the result is an index of the vector. -/
theorem closest_valid (v : List K) (x : K) :
    (findClosestIndex v x = .ub ↔ v = []) ∧ ∀ r, findClosestIndex v x = .index r → r < v.length := by
  cases v with
  | nil => simp [findClosestIndex]
  | cons a t =>
    obtain ⟨b, hb⟩ : ∃ b, (a :: t).getLast? = some b := ⟨_, List.getLast?_cons⟩
    obtain ⟨r, hr, hlt⟩ := search_index (a :: t) x 0 (a :: t).length 0 (le_refl _) (by simp)
    simp only [findClosestIndex, List.head?_cons, hb]
    split
    · simp
    · split
      · simp
      · rw [hr]; simpa using hlt

/-- What the loop guarantees on a sorted vector: the result is a neighbour, and a neighbour below the
target is strictly closer than everything above. -/
theorem search_neighbour (v : List K) (x : K) (hs : v.Pairwise (· ≤ ·)) (i j mid : Nat)
    (hj : j ≤ v.length) (hij : i ≤ j)
    (hlo : ∀ k y, k < i → v[k]? = some y → y < x) (hhi : ∀ k y, j ≤ k → v[k]? = some y → x < y)
    (hlast : ∀ y, v[v.length - 1]? = some y → x < y)
    (hmid : i < j ∨ (mid = j ∧ ∃ y, v[mid]? = some y ∧ x < y) ∨
      (mid + 1 = i ∧ ∃ y, v[mid]? = some y ∧ y < x ∧ ∀ k z, i ≤ k → v[k]? = some z → x < z → x - y < z - x))
    : ∃ r y, search v x i j mid = .index r ∧ v[r]? = some y ∧
      (∀ z ∈ v, ¬ (y < z ∧ z ≤ x) ∧ ¬ (x ≤ z ∧ z < y)) ∧
      (y < x → ∀ z ∈ v, x < z → x - y < z - x) := by
  have mono : ∀ (p q : Nat) (a b : K), p ≤ q → v[p]? = some a → v[q]? = some b → a ≤ b := by
    intro p q a b hpq ha hb
    rcases Nat.lt_or_eq_of_le hpq with h | h
    · obtain ⟨h1, rfl⟩ := List.getElem?_eq_some_iff.mp ha
      obtain ⟨h2, rfl⟩ := List.getElem?_eq_some_iff.mp hb
      exact List.pairwise_iff_getElem.mp hs p q h1 h2 h
    · subst h; rw [ha] at hb; cases hb; exact le_refl _
  fun_induction search v x i j mid with
  | case1 i j mid h m hn =>
    have : m < v.length := by simp only [m]; omega
    rw [List.getElem?_eq_none_iff] at hn; omega
  | case2 i j mid h m hv =>
    refine ⟨m, x, rfl, hv, ?_, fun h => absurd h (lt_irrefl _)⟩
    intro z _
    exact ⟨fun h => absurd h.1 (not_lt.mpr h.2), fun h => absurd h.2 (not_lt.mpr h.1)⟩
  | case3 i j mid h m vm hv h1 h2 h3 hn =>
    have : m - 1 < v.length := by simp only [m]; omega
    rw [List.getElem?_eq_none_iff] at hn; omega
  | case4 i j mid h m vm hv h1 h2 h3 vp hp h4 =>
    refine ⟨m, vm, rfl, hv, ?_, fun h => absurd h (not_lt.mpr h2.le)⟩
    intro z hz
    obtain ⟨k, hk⟩ := List.getElem?_of_mem hz
    refine ⟨fun h => absurd (lt_of_lt_of_le (lt_trans h2 h.1) h.2) (lt_irrefl _), fun h => ?_⟩
    rcases Nat.lt_or_ge k m with hkm | hkm
    · have := mono k (m - 1) z vp (by omega) hk hp
      exact absurd (lt_of_le_of_lt (le_trans h.1 this) h4.1) (lt_irrefl _)
    · exact absurd h.2 (not_lt.mpr (mono m k vm z hkm hv hk))
  | case5 i j mid h m vm hv h1 h2 h3 vp hp h4 ih =>
    refine ih (by simp only [m]; omega) (by simp only [m]; omega) hlo ?_ ?_
    · intro k y hk hy; exact lt_of_lt_of_le h2 (mono m k vm y hk hv hy)
    · rcases Nat.lt_or_ge i m with h | h
      · exact Or.inl h
      · exact Or.inr (Or.inl ⟨rfl, vm, hv, h2⟩)
  | case6 i j mid h m vm hv h1 h2 h3 ih =>
    refine ih (by simp only [m]; omega) (by simp only [m]; omega) hlo ?_ ?_
    · intro k y hk hy; exact lt_of_lt_of_le h2 (mono m k vm y hk hv hy)
    · rcases Nat.lt_or_ge i m with h | h
      · exact Or.inl h
      · exact Or.inr (Or.inl ⟨rfl, vm, hv, h2⟩)
  | case7 i j mid h m vm hv h1 h2 h3 hn =>
    rw [List.getElem?_eq_none_iff] at hn; omega
  | case8 i j mid h m vm hv h1 h2 h3 vn hp h4 =>
    have h2' : vm < x := lt_of_le_of_ne (not_lt.mp h2) h1
    refine ⟨m + 1, vn, rfl, hp, ?_, fun h => absurd h (not_lt.mpr h4.1.le)⟩
    intro z hz
    obtain ⟨k, hk⟩ := List.getElem?_of_mem hz
    refine ⟨fun h => absurd (lt_of_lt_of_le (lt_trans h4.1 h.1) h.2) (lt_irrefl _), fun h => ?_⟩
    rcases Nat.lt_or_ge m k with hkm | hkm
    · exact absurd h.2 (not_lt.mpr (mono (m + 1) k vn z hkm hp hk))
    · have := mono k m z vm hkm hk hv
      exact absurd (lt_of_le_of_lt (le_trans h.1 this) h2') (lt_irrefl _)
  | case9 i j mid h m vm hv h1 h2 h3 vn hp h4 ih =>
    have h2' : vm < x := lt_of_le_of_ne (not_lt.mp h2) h1
    refine ih hj (by simp only [m]; omega) ?_ hhi ?_
    · intro k y hk hy; exact lt_of_le_of_lt (mono k m y vm (by omega) hy hv) h2'
    · rcases Nat.lt_or_ge (m + 1) j with h | h
      · exact Or.inl h
      · refine Or.inr (Or.inr ⟨rfl, vm, hv, h2', ?_⟩)
        intro k z hk hz hxz
        have hle := mono (m + 1) k vn z hk hp hz
        have hxn : x < vn := hhi (m + 1) vn h hp
        have : ¬ (vn - x ≤ x - vm) := fun hh => h4 ⟨hxn, hh⟩
        linarith [not_le.mp this]
  | case10 i j mid h m vm hv h1 h2 h3 ih =>
    have hm : m = v.length - 1 := by simp only [m] at h3 ⊢; omega
    have := hlast vm (by rw [← hm]; exact hv)
    exact absurd this h2
  | case11 i j mid h =>
    have hij' : i = j := by omega
    subst hij'
    rcases hmid with h' | ⟨h1, y, h2, h3⟩ | ⟨h1, y, h2, h3, h4⟩
    · exact absurd h' (lt_irrefl _)
    · refine ⟨mid, y, rfl, h2, ?_, fun h => absurd h (not_lt.mpr h3.le)⟩
      intro z hz
      obtain ⟨k, hk⟩ := List.getElem?_of_mem hz
      refine ⟨fun h => absurd (lt_of_lt_of_le (lt_trans h3 h.1) h.2) (lt_irrefl _), fun h => ?_⟩
      rcases Nat.lt_or_ge k i with hki | hki
      · exact absurd (hlo k z hki hk) (not_lt.mpr h.1)
      · exact absurd h.2 (not_lt.mpr (mono mid k y z (by omega) h2 hk))
    · refine ⟨mid, y, rfl, h2, ?_, ?_⟩
      · intro z hz
        obtain ⟨k, hk⟩ := List.getElem?_of_mem hz
        refine ⟨fun h => ?_, fun h => absurd (lt_of_le_of_lt h.1 (lt_trans h.2 h3)) (lt_irrefl _)⟩
        rcases Nat.lt_or_ge k i with hki | hki
        · exact absurd h.1 (not_lt.mpr (mono k mid z y (by omega) hk h2))
        · exact absurd (hhi k z hki hk) (not_lt.mpr h.2)
      · intro _ z hz hxz
        obtain ⟨k, hk⟩ := List.getElem?_of_mem hz
        refine h4 k z ?_ hk hxz
        by_contra hlt
        exact absurd (hlo k z (by omega) hk) (not_lt.mpr hxz.le)

/-- Neighbour plus "nothing above is closer" for the whole function. -/
theorem find_neighbour (v : List K) (x : K) (hs : v.Pairwise (· ≤ ·)) (r : Nat)
    (h : findClosestIndex v x = .index r) :
    ∃ y, v[r]? = some y ∧ (∀ z ∈ v, ¬ (y < z ∧ z ≤ x) ∧ ¬ (x ≤ z ∧ z < y)) ∧
      (y < x → ∀ z ∈ v, x < z → x - y < z - x) := by
  cases v with
  | nil => simp [findClosestIndex] at h
  | cons a t =>
    have hmin : ∀ z ∈ a :: t, a ≤ z := by
      intro z hz
      rcases List.mem_cons.mp hz with rfl | hz
      · exact le_refl _
      · exact (List.pairwise_cons.mp hs).1 z hz
    have hlast : (a :: t).getLast? = (a :: t)[(a :: t).length - 1]? := List.getLast?_eq_getElem?
    obtain ⟨b, hb⟩ : ∃ b, (a :: t).getLast? = some b := ⟨_, List.getLast?_cons⟩
    have hmax : ∀ z ∈ a :: t, z ≤ b := by
      intro z hz
      obtain ⟨k, hk⟩ := List.getElem?_of_mem hz
      obtain ⟨h1, rfl⟩ := List.getElem?_eq_some_iff.mp hk
      rw [hlast] at hb
      obtain ⟨h2, rfl⟩ := List.getElem?_eq_some_iff.mp hb
      rcases Nat.lt_or_ge k ((a :: t).length - 1) with h3 | h3
      · exact List.pairwise_iff_getElem.mp hs _ _ h1 h2 h3
      · have : k = (a :: t).length - 1 := by omega
        subst this; exact le_refl _
    simp only [findClosestIndex, List.head?_cons, hb] at h
    split at h
    · rename_i hx
      cases h
      refine ⟨a, rfl, fun z hz => ⟨fun h => ?_, fun h => ?_⟩, fun h => absurd h (not_lt.mpr hx)⟩
      · exact absurd (lt_of_lt_of_le h.1 (le_trans h.2 hx)) (lt_irrefl _)
      · exact absurd h.2 (not_lt.mpr (hmin z hz))
    · split at h
      · rename_i hx' hx
        cases h
        refine ⟨b, by rw [← hlast, hb], fun z hz => ⟨fun h => ?_, fun h => ?_⟩, fun _ z hz hz' => ?_⟩
        · exact absurd h.1 (not_lt.mpr (hmax z hz))
        · exact absurd (lt_of_le_of_lt (le_trans hx h.1) h.2) (lt_irrefl _)
        · exact absurd (lt_of_le_of_lt hx hz') (not_lt.mpr (hmax z hz))
      · rename_i hx' hx
        obtain ⟨r', y, e1, e2, e3, e4⟩ := search_neighbour (a :: t) x hs 0 (a :: t).length 0 (le_refl _)
          (by simp) (fun k y hk => absurd hk (by omega))
          (fun k y hk hy => by rw [List.getElem?_eq_none_iff.mpr hk] at hy; cases hy)
          (fun y hy => by rw [← hlast, hb] at hy; cases hy; exact not_le.mp hx)
          (Or.inl (by simp))
        rw [h] at e1
        cases e1
        exact ⟨y, e2, e3, e4⟩

/-- **C17** (neighbour): on every sorted vector the result is the nearest element on its side of the target,
and an exact hit when there is one. -/
theorem closest_is_neighbour (v : List K) (x : K) (hs : v.Pairwise (· ≤ ·)) (r : Nat)
    (h : findClosestIndex v x = .index r) : IsNeighbour v x r := by
  obtain ⟨y, h1, h2, _⟩ := find_neighbour v x hs r h
  exact ⟨y, h1, h2⟩

/-- **C17**, partial: the result is a closest element whenever it is not above the target, and whenever some
element not below the target is a closest one. What is missing: when only elements below the target are
closest, the next element above may be returned instead (`closest_wrong`). -/
theorem closest_partial (v : List K) (x : K) (hs : v.Pairwise (· ≤ ·)) (r : Nat)
    (h : findClosestIndex v x = .index r)
    (hc : (∃ y, v[r]? = some y ∧ y ≤ x) ∨ ∃ u ∈ v, x ≤ u ∧ ∀ z ∈ v, |u - x| ≤ |z - x|) :
    IsClosest v x r := by
  obtain ⟨y, h1, h2, h3⟩ := find_neighbour v x hs r h
  refine ⟨y, h1, fun z hz => ?_⟩
  have hy : y ∈ v := List.mem_of_getElem? h1
  rcases lt_or_ge x y with hxy | hxy
  · -- result above the target
    rcases hc with ⟨y', hy', hle⟩ | ⟨u, hu, hxu, hcl⟩
    · rw [h1] at hy'; cases hy'; exact absurd hxy (not_lt.mpr hle)
    · have hyu : y ≤ u := not_lt.mp (fun hlt => (h2 u hu).2 ⟨hxu, hlt⟩)
      calc |y - x| = y - x := abs_of_pos (by linarith)
        _ ≤ u - x := by linarith
        _ = |u - x| := (abs_of_nonneg (by linarith)).symm
        _ ≤ |z - x| := hcl z hz
  · rcases lt_or_ge x z with hxz | hxz
    · rcases eq_or_lt_of_le hxy with he | hlt
      · rw [he]; simp
      · have := h3 hlt z hz hxz
        rw [abs_of_nonpos (by linarith), abs_of_pos (by linarith)]; linarith
    · have : z ≤ y := not_lt.mp (fun hlt => (h2 z hz).1 ⟨hlt, hxz⟩)
      rw [abs_of_nonpos (by linarith), abs_of_nonpos (by linarith)]; linarith

/-- The hypotheses are met by a concrete vector, with both alternatives. -/
example : ([0, 10, 20, 30] : List ℚ).Pairwise (· ≤ ·) ∧
    findClosestIndex ([0, 10, 20, 30] : List ℚ) 19 = .index 2 ∧
    findClosestIndex ([0, 10, 20, 30] : List ℚ) 1 = .index 0 := by
  refine ⟨by norm_num, by decide +kernel, by decide +kernel⟩

/-- Disagreement with **C17**: on a sorted vector an element nine times farther than the closest one is
returned. -/
theorem closest_wrong : ∃ (v : List ℚ) (x : ℚ) (r : Nat), v.Pairwise (· ≤ ·) ∧
    findClosestIndex v x = .index r ∧ ¬ IsClosest v x r := by
  refine ⟨[0, 10, 20, 30], 21, 3, by norm_num, by decide +kernel, ?_⟩
  rintro ⟨y, hy, h⟩
  have : y = 30 := by simpa using hy.symm
  subst this
  have := h 20 (by simp)
  norm_num at this

/-- **C17**: of the two values bracketing the target, `get_closest` returns a closest one. -/
theorem getClosest_correct (a b x : K) (ha : a ≤ x) (hb : x ≤ b) :
    (getClosest a b x = a ∨ getClosest a b x = b) ∧
      |getClosest a b x - x| ≤ |a - x| ∧ |getClosest a b x - x| ≤ |b - x| := by
  unfold getClosest
  split
  · rename_i h
    refine ⟨Or.inr rfl, ?_, le_refl _⟩
    rw [abs_of_nonneg (by linarith : (0:K) ≤ b - x), abs_of_nonpos (by linarith : a - x ≤ 0)]; linarith
  · rename_i h
    refine ⟨Or.inl rfl, le_refl _, ?_⟩
    rw [abs_of_nonneg (by linarith : (0:K) ≤ b - x), abs_of_nonpos (by linarith : a - x ≤ 0)]
    linarith [not_le.mp h]

example : getClosest (1 : ℚ) 3 2 = 3 := by decide +kernel

end Verif.Closest
