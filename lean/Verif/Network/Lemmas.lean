import Verif.Network.Model
import Mathlib.Algebra.Order.BigOperators.Group.Finset
import Mathlib.Algebra.BigOperators.Ring.Finset
import Mathlib.Tactic.Linarith
import Mathlib.Tactic.Ring
import Mathlib.Tactic.FieldSimp

/-! # Lemmas on the network of reluctances -/

namespace Verif.Network

open Finset

set_option linter.unusedSimpArgs false

/-! ## Elimination -/

/-- A row times a vector. -/
def dot (n : Nat) (a x : Vec) : ℚ := ∑ j ∈ range n, a j * x j

/-- A solution. -/
def Sol (n : Nat) (a : Mat) (b x : Vec) : Prop := ∀ i, i < n → dot n (a i) x = b i

/-- Nothing below the diagonal in the first columns. -/
def Upper (n p : Nat) (a : Mat) : Prop := ∀ c, c < p → ∀ r, c < r → r < n → a r c = 0

/-- No zero on the diagonal in the first columns. -/
def Diag (p : Nat) (a : Mat) : Prop := ∀ c, c < p → a c c ≠ 0

theorem bestRow_spec (a : Mat) (p : Nat) : ∀ (l : List Nat) (best : Nat),
    (bestRow a p l best = best ∨ bestRow a p l best ∈ l) ∧
    |a best p| ≤ |a (bestRow a p l best) p| ∧ ∀ r ∈ l, |a r p| ≤ |a (bestRow a p l best) p| := by
  intro l
  induction l with
  | nil => intro best; simp [bestRow]
  | cons r rest ih =>
    intro best
    simp only [bestRow]
    by_cases h : |a r p| > |a best p|
    · rw [if_pos h]
      obtain ⟨h1, h2, h3⟩ := ih r
      refine ⟨Or.inr ?_, le_trans h.le h2, ?_⟩
      · rcases h1 with h1 | h1
        · rw [h1]; simp
        · exact List.mem_cons_of_mem _ h1
      · intro x hx
        rcases List.mem_cons.mp hx with rfl | hx
        · exact h2
        · exact h3 x hx
    · rw [if_neg h]
      obtain ⟨h1, h2, h3⟩ := ih best
      refine ⟨?_, h2, ?_⟩
      · rcases h1 with h1 | h1
        · exact Or.inl h1
        · exact Or.inr (List.mem_cons_of_mem _ h1)
      · intro x hx
        rcases List.mem_cons.mp hx with rfl | hx
        · exact le_trans (not_lt.mp h) h2
        · exact h3 x hx

theorem pivotRow_range (n p : Nat) (a : Mat) (hp : p < n) : p ≤ pivotRow n p a ∧ pivotRow n p a < n := by
  obtain ⟨h, _⟩ := bestRow_spec a p (List.range' (p + 1) (n - (p + 1))) p
  rcases h with h | h
  · unfold pivotRow; omega
  · unfold pivotRow
    rw [List.mem_range'_1] at h
    omega

theorem pivotRow_best (n p : Nat) (a : Mat) (r : Nat) (h1 : p ≤ r) (h2 : r < n) : |a r p| ≤ |a (pivotRow n p a) p| := by
  obtain ⟨_, h3, h4⟩ := bestRow_spec a p (List.range' (p + 1) (n - (p + 1))) p
  by_cases h : r = p
  · subst h; exact h3
  · exact h4 r (by rw [List.mem_range'_1]; omega)

theorem sol_swap {n p q : Nat} (hp : p < n) (hq : q < n) (a : Mat) (b x : Vec) :
    Sol n (swapAt a p q) (swapAt b p q) x ↔ Sol n a b x := by
  constructor
  · intro h i hi
    by_cases h1 : i = p
    · have := h q hq
      unfold swapAt at this
      by_cases h2 : q = p
      · subst h1; subst h2; simpa using this
      · simpa [h2, h1] using this
    · by_cases h2 : i = q
      · have := h p hp
        unfold swapAt at this
        simpa [h2] using this
      · have := h i hi
        unfold swapAt at this
        simpa [h1, h2] using this
  · intro h i hi
    unfold swapAt
    by_cases h1 : i = p
    · simpa [h1] using h q hq
    · by_cases h2 : i = q
      · rw [if_neg h1, if_neg h1, if_pos h2, if_pos h2]; exact h p hp
      · rw [if_neg h1, if_neg h1, if_neg h2, if_neg h2]; exact h i hi

theorem upper_swap {n p q : Nat} (hp : p < n) (hpq : p ≤ q) (hq : q < n) {a : Mat} (h : Upper n p a) : Upper n p (swapAt a p q) := by
  intro c hc r hr hrn
  unfold swapAt
  by_cases h1 : r = p
  · rw [if_pos h1]; exact h c hc q (by omega) hq
  · rw [if_neg h1]
    by_cases h2 : r = q
    · rw [if_pos h2]; exact h c hc p hc hp
    · rw [if_neg h2]; exact h c hc r hr hrn

theorem diag_swap {p q : Nat} (hpq : p ≤ q) {a : Mat} (h : Diag p a) : Diag p (swapAt a p q) := by
  intro c hc
  unfold swapAt
  rw [if_neg (by omega), if_neg (by omega)]
  exact h c hc

theorem clear_row {n p : Nat} {a : Mat} (h : Upper n p a) (hp : p < n) {i : Nat} (h1 : p < i) (h2 : i < n) {j : Nat}
    (hj : j < n) : clearMatrix n p a i j = a i j - a i p / a p p * a p j := by
  unfold clearMatrix
  by_cases h3 : p ≤ j
  · rw [if_pos ⟨h1, h2, h3, hj⟩]
  · rw [if_neg (by omega), h j (by omega) p (by omega) hp]
    ring

theorem clear_keep {n p : Nat} (a : Mat) {i : Nat} (h : ¬ (p < i ∧ i < n)) (j : Nat) : clearMatrix n p a i j = a i j := by
  unfold clearMatrix
  rw [if_neg (by tauto)]

theorem dot_clear {n p : Nat} {a : Mat} (h : Upper n p a) (hp : p < n) {i : Nat} (h1 : p < i) (h2 : i < n) (x : Vec) :
    dot n (clearMatrix n p a i) x = dot n (a i) x - a i p / a p p * dot n (a p) x := by
  unfold dot
  rw [Finset.mul_sum, ← Finset.sum_sub_distrib]
  apply Finset.sum_congr rfl
  intro j hj
  rw [clear_row h hp h1 h2 (Finset.mem_range.mp hj)]
  ring

theorem dot_keep {n p : Nat} (a : Mat) {i : Nat} (h : ¬ (p < i ∧ i < n)) (x : Vec) :
    dot n (clearMatrix n p a i) x = dot n (a i) x := by
  unfold dot
  apply Finset.sum_congr rfl
  intro j _
  rw [clear_keep a h]

theorem sol_clear {n p : Nat} {a : Mat} (h : Upper n p a) (hp : p < n) (b x : Vec) :
    Sol n (clearMatrix n p a) (clearSide n p a b) x ↔ Sol n a b x := by
  have hpp : ∀ y : Vec, Sol n (clearMatrix n p a) (clearSide n p a b) y → dot n (a p) y = b p := by
    intro y hy
    have := hy p hp
    rw [dot_keep a (by omega)] at this
    unfold clearSide at this
    rw [if_neg (by omega)] at this
    exact this
  constructor
  · intro hs i hi
    have h0 := hpp x hs
    have := hs i hi
    by_cases h1 : p < i ∧ i < n
    · rw [dot_clear h hp h1.1 h1.2] at this
      unfold clearSide at this
      rw [if_pos h1, h0] at this
      linarith
    · rw [dot_keep a h1] at this
      unfold clearSide at this
      rw [if_neg h1] at this
      exact this
  · intro hs i hi
    have h0 := hs p hp
    unfold clearSide
    by_cases h1 : p < i ∧ i < n
    · rw [dot_clear h hp h1.1 h1.2, if_pos h1, h0, hs i hi]
    · rw [dot_keep a h1, if_neg h1, hs i hi]

theorem upper_clear {n p : Nat} {a : Mat} (h : Upper n p a) (hp : p < n) (hz : a p p ≠ 0) : Upper n (p + 1) (clearMatrix n p a) := by
  intro c hc r hr hrn
  by_cases h1 : c = p
  · subst h1
    rw [clear_row h hp hr hrn hp]
    field_simp
    ring
  · unfold clearMatrix
    rw [if_neg (by omega)]
    exact h c (by omega) r hr hrn

theorem diag_clear {n p : Nat} {a : Mat} (h : Diag p a) (hz : a p p ≠ 0) : Diag (p + 1) (clearMatrix n p a) := by
  intro c hc
  rw [clear_keep a (by omega)]
  by_cases h1 : c = p
  · subst h1; exact hz
  · exact h c (by omega)

theorem pivot_sol {n p : Nat} {a : Mat} (h : Upper n p a) (hp : p < n) (b x : Vec) :
    Sol n (pivotMatrix n p a) (pivotSide n p a b) x ↔ Sol n a b x := by
  obtain ⟨h1, h2⟩ := pivotRow_range n p a hp
  unfold pivotMatrix pivotSide
  rw [sol_clear (upper_swap hp h1 h2 h) hp, sol_swap hp h2]

theorem pivotSide_zero (n p : Nat) (a : Mat) : pivotSide n p a (fun _ => 0) = fun _ => 0 := by
  funext i
  unfold pivotSide clearSide swapAt
  split <;> simp

/-- What holds after some pivots. -/
theorem eliminate_inv {n : Nat} (a : Mat) (b : Vec) : ∀ (k : Nat), k ≤ n → ∀ (a' : Mat) (b' : Vec),
    eliminate n a b k = some (a', b') →
    Upper n k a' ∧ Diag k a' ∧ (∀ x, Sol n a' b' x ↔ Sol n a b x) ∧ (∀ x, Sol n a' (fun _ => 0) x ↔ Sol n a (fun _ => 0) x) := by
  intro k
  induction k with
  | zero =>
    intro _ a' b' h
    simp only [eliminate, Option.some.injEq, Prod.mk.injEq] at h
    obtain ⟨rfl, rfl⟩ := h
    refine ⟨?_, ?_, ?_, ?_⟩
    · intro c hc; omega
    · intro c hc; omega
    · intro x; rfl
    · intro x; rfl
  | succ p ih =>
    intro hk a' b' h
    simp only [eliminate] at h
    cases he : eliminate n a b p with
    | none => rw [he] at h; simp at h
    | some ab =>
      obtain ⟨a1, b1⟩ := ab
      rw [he] at h
      simp only at h
      obtain ⟨hu, hd, hs, hz⟩ := ih (by omega) a1 b1 he
      obtain ⟨hr1, hr2⟩ := pivotRow_range n p a1 (by omega)
      by_cases hp : swapAt a1 p (pivotRow n p a1) p p = 0
      · rw [if_pos hp] at h; simp at h
      · rw [if_neg hp] at h
        simp only [Option.some.injEq, Prod.mk.injEq] at h
        obtain ⟨rfl, rfl⟩ := h
        refine ⟨?_, ?_, ?_, ?_⟩
        · exact upper_clear (upper_swap (by omega) hr1 hr2 hu) (by omega) hp
        · exact diag_clear (diag_swap hr1 hd) hp
        · intro x
          rw [pivot_sol hu (by omega), hs]
        · intro x
          have := pivot_sol hu (by omega : p < n) (fun _ => 0) x
          rw [pivotSide_zero] at this
          rw [this, hz]

theorem back_stays (n : Nat) (a : Mat) (b : Vec) (k i : Nat) (h : i ≠ n - (k + 1)) : back n a b (k + 1) i = back n a b k i := by
  simp [back, h]

/-- The rows solved so far hold. -/
theorem back_rows {n : Nat} {a : Mat} (b : Vec) (hu : Upper n n a) (hd : Diag n a) : ∀ (k : Nat), k ≤ n →
    ∀ i, n - k ≤ i → i < n → dot n (a i) (back n a b k) = b i := by
  intro k
  induction k with
  | zero => intro _ i h1 h2; omega
  | succ k ih =>
    intro hk i h1 h2
    have hsplit : ∀ (r : Nat) (x : Vec), r < n → dot n (a r) x = a r r * x r + ∑ j ∈ Ico (r + 1) n, a r j * x j := by
      intro r x hr
      unfold dot
      rw [Finset.range_eq_Ico, ← Finset.sum_Ico_consecutive _ (Nat.zero_le r) hr.le, Finset.sum_eq_sum_Ico_succ_bot hr]
      rw [Finset.sum_eq_zero, zero_add]
      intro j hj
      rw [Finset.mem_Ico] at hj
      rw [hu j (by omega) r hj.2 hr, zero_mul]
    have hcongr : ∀ r, n - (k + 1) ≤ r → ∑ j ∈ Ico (r + 1) n, a r j * back n a b (k + 1) j =
        ∑ j ∈ Ico (r + 1) n, a r j * back n a b k j := by
      intro r hr
      apply Finset.sum_congr rfl
      intro j hj
      rw [Finset.mem_Ico] at hj
      rw [back_stays n a b k j (by omega)]
    rw [hsplit i _ h2, hcongr i h1]
    by_cases h : i = n - (k + 1)
    · subst h
      have hz := hd _ h2
      have : back n a b (k + 1) (n - (k + 1)) =
        (b (n - (k + 1)) - ∑ j ∈ Finset.Ico (n - (k + 1) + 1) n, a (n - (k + 1)) j * back n a b k j) / a (n - (k + 1)) (n - (k + 1)) := by
        simp [back]
      rw [this]
      field_simp
      ring
    · rw [back_stays n a b k i h, ← hsplit i _ h2]
      exact ih (by omega) i (by omega) h2

/-- What is solved is a solution. -/
theorem solve_sol {n : Nat} {a : Mat} {b x : Vec} (h : solve n a b = some x) : Sol n a b x := by
  unfold solve at h
  cases he : eliminate n a b n with
  | none => rw [he] at h; simp at h
  | some ab =>
    obtain ⟨a1, b1⟩ := ab
    rw [he] at h
    simp only [Option.some.injEq] at h
    subst h
    obtain ⟨hu, hd, hs, _⟩ := eliminate_inv a b n (le_refl _) a1 b1 he
    rw [← hs]
    intro i hi
    exact back_rows b1 hu hd n (le_refl _) i (by omega) hi

/-- If only zero is sent to zero, no pivot is zero. -/
theorem solve_total {n : Nat} {a : Mat} (hk : ∀ x, Sol n a (fun _ => 0) x → ∀ i, i < n → x i = 0) (b : Vec) :
    (solve n a b).isSome := by
  have key : ∀ k, k ≤ n → (eliminate n a b k).isSome := by
    intro k
    induction k with
    | zero => intro _; simp [eliminate]
    | succ p ih =>
      intro hp
      have hi := ih (by omega)
      simp only [eliminate]
      cases he : eliminate n a b p with
      | none => rw [he] at hi; simp at hi
      | some ab =>
        obtain ⟨a1, b1⟩ := ab
        simp only
        obtain ⟨hu, hd, hs, hz⟩ := eliminate_inv a b p (by omega) a1 b1 he
        by_cases hpp : swapAt a1 p (pivotRow n p a1) p p = 0
        · exfalso
          have hcol : ∀ r, p ≤ r → r < n → a1 r p = 0 := by
            intro r h1 h2
            have := pivotRow_best n p a1 r h1 h2
            have h3 : a1 (pivotRow n p a1) p = 0 := by
              have := hpp
              unfold swapAt at this
              simpa using this
            rw [h3, abs_zero] at this
            exact abs_eq_zero.mp (le_antisymm this (abs_nonneg _))
          let y : Vec := fun j => if j < p then back p a1 (fun i => -a1 i p) p j else if j = p then 1 else 0
          have hy : Sol n a1 (fun _ => 0) y := by
            intro i hin
            have hsum : dot n (a1 i) y = dot p (a1 i) (back p a1 (fun i => -a1 i p) p) + a1 i p := by
              unfold dot
              rw [← Finset.sum_range_add_sum_Ico _ (by omega : p ≤ n)]
              rw [Finset.sum_eq_sum_Ico_succ_bot (by omega : p < n)]
              rw [Finset.sum_eq_zero (s := Ico (p + 1) n), add_zero]
              · congr 1
                · apply Finset.sum_congr rfl
                  intro j hj
                  rw [Finset.mem_range] at hj
                  simp [y, hj]
                · simp [y]
              · intro j hj
                rw [Finset.mem_Ico] at hj
                have : y j = 0 := by
                  simp only [y]
                  rw [if_neg (by omega), if_neg (by omega)]
                rw [this, mul_zero]
            rw [hsum]
            by_cases h : i < p
            · have hu' : Upper p p a1 := fun c hc r hr hrp => hu c hc r hr (by omega)
              rw [back_rows (fun i => -a1 i p) hu' hd p (le_refl _) i (by omega) h]
              ring
            · rw [hcol i (by omega) hin, add_zero]
              unfold dot
              apply Finset.sum_eq_zero
              intro j hj
              rw [Finset.mem_range] at hj
              rw [hu j hj i (by omega) hin, zero_mul]
          have := hk y ((hz y).mp hy) p (by omega)
          simp [y] at this
        · rw [if_neg hpp]; simp
  have := key n (le_refl _)
  unfold solve
  cases he : eliminate n a b n with
  | none => rw [he] at this; simp at this
  | some ab => simp

/-! ## Loops -/

theorem legFlux_sum (m : Nat) (x : Vec) : ∀ k, k < m → ∑ i ∈ range (k + 1), legFlux m x i = x k := by
  intro k
  induction k with
  | zero => intro h; simp [legFlux, h]
  | succ k ih =>
    intro h
    rw [Finset.sum_range_succ, ih (by omega)]
    unfold legFlux
    rw [if_pos h, if_pos (by omega)]
    simp

theorem legFlux_total (m : Nat) (x : Vec) : ∑ i ∈ range (m + 1), legFlux m x i = 0 := by
  cases m with
  | zero => simp [legFlux]
  | succ m =>
    rw [Finset.sum_range_succ, legFlux_sum (m + 1) x m (by omega)]
    unfold legFlux
    rw [if_neg (by omega), if_pos (by omega)]
    simp

/-- A row of the loops in terms of fluxes of legs. -/
theorem mesh_row {m : Nat} (r y x : Vec) {i : Nat} (hi : i < m) :
    dot m (meshMatrix m r y i) x = r i * legFlux m x i - r (i + 1) * legFlux m x (i + 1) + y i * x i := by
  have hterm : ∀ j ∈ range m, meshMatrix m r y i j * x j =
      (if j = i then (r i + r (i + 1) + y i) * x j else 0) + (if j + 1 = i then -r i * x j else 0) +
      (if j = i + 1 then -r (i + 1) * x j else 0) := by
    intro j hj
    rw [Finset.mem_range] at hj
    unfold meshMatrix
    by_cases h1 : j = i
    · rw [if_pos h1, if_pos h1, if_neg (by omega), if_neg (by omega)]; ring
    · rw [if_neg h1, if_neg h1]
      by_cases h2 : j + 1 = i
      · rw [if_pos h2, if_pos h2, if_neg (by omega)]; ring
      · rw [if_neg h2, if_neg h2]
        by_cases h3 : j = i + 1
        · rw [if_pos ⟨h3, hj⟩, if_pos h3]; ring
        · rw [if_neg (by tauto), if_neg h3]; ring
  unfold dot
  rw [Finset.sum_congr rfl hterm, Finset.sum_add_distrib, Finset.sum_add_distrib]
  have s1 : ∑ j ∈ range m, (if j = i then (r i + r (i + 1) + y i) * x j else 0) = (r i + r (i + 1) + y i) * x i := by
    rw [Finset.sum_eq_single i]
    · simp
    · intro j _ h; simp [h]
    · intro h; exact absurd (Finset.mem_range.mpr hi) h
  have s2 : ∑ j ∈ range m, (if j + 1 = i then -r i * x j else 0) = if 0 < i then -r i * x (i - 1) else 0 := by
    by_cases h : 0 < i
    · rw [if_pos h, Finset.sum_eq_single (i - 1)]
      · rw [if_pos (by omega)]
      · intro j _ hj; rw [if_neg (by omega)]
      · intro h'; exact absurd (Finset.mem_range.mpr (by omega)) h'
    · rw [if_neg h]
      apply Finset.sum_eq_zero
      intro j _
      rw [if_neg (by omega)]
  have s3 : ∑ j ∈ range m, (if j = i + 1 then -r (i + 1) * x j else 0) = if i + 1 < m then -r (i + 1) * x (i + 1) else 0 := by
    by_cases h : i + 1 < m
    · rw [if_pos h, Finset.sum_eq_single (i + 1)]
      · simp
      · intro j _ hj; rw [if_neg hj]
      · intro h'; exact absurd (Finset.mem_range.mpr h) h'
    · rw [if_neg h]
      apply Finset.sum_eq_zero
      intro j hj
      rw [Finset.mem_range] at hj
      rw [if_neg (by omega)]
  rw [s1, s2, s3]
  unfold legFlux
  rw [if_pos hi, if_pos (by omega : 0 < i + 1)]
  simp only [Nat.add_sub_cancel]
  split <;> split <;> ring

/-- Summation by parts. -/
theorem by_parts (m : Nat) (u : Vec) (g : Vec) (hg : ∑ i ∈ range (m + 1), g i = 0) :
    ∑ k ∈ range m, (∑ i ∈ range (k + 1), g i) * (u k - u (k + 1)) = ∑ k ∈ range (m + 1), u k * g k := by
  have key : ∀ m : Nat, ∑ k ∈ range m, (∑ i ∈ range (k + 1), g i) * (u k - u (k + 1)) =
      ∑ k ∈ range (m + 1), u k * g k - u m * ∑ i ∈ range (m + 1), g i := by
    intro m
    induction m with
    | zero => simp
    | succ m ih =>
      rw [Finset.sum_range_succ, ih]
      rw [Finset.sum_range_succ (fun k => u k * g k) (m + 1), Finset.sum_range_succ g (m + 1)]
      ring
  rw [key m, hg]
  ring

end Verif.Network
