import Verif.Thermal.Lemmas

/-! # Helper lemmas: flows of heat -/

set_option linter.unusedSectionVars false
set_option linter.unusedSimpArgs false

namespace Verif.Thermal

open Finset

variable {K : Type} [Field K] [LinearOrder K] [IsStrictOrderedRing K] {n : Nat}

theorem entry_mul (t : Vec n K) (v c a b : Fin n) (g : K) :
    (if v = a ∧ c = b then g else 0) * t c = if c = b then (if a = v then g * t b else 0) else 0 := by
  by_cases h1 : v = a
  · subst h1
    by_cases h2 : c = b
    · subst h2; simp
    · simp [h2]
  · simp [h1, Ne.symm h1]

theorem linked_stamp (m : Mat n K) (l : Link n K) (t : Vec n K) (v : Fin n) :
    linked (stamp m l) t v = linked m t v + leaves t v l := by
  unfold linked stamp leaves
  have hterm : ∀ c : Fin n, (m v c + (if v = l.i ∧ c = l.i then l.g else 0) + (if v = l.j ∧ c = l.j then l.g else 0)
      - (if v = l.i ∧ c = l.j then l.g else 0) - (if v = l.j ∧ c = l.i then l.g else 0)) * t c =
      m v c * t c + (if c = l.i then (if l.i = v then l.g * t l.i else 0) else 0) + (if c = l.j then (if l.j = v then l.g * t l.j else 0) else 0)
      - (if c = l.j then (if l.i = v then l.g * t l.j else 0) else 0) - (if c = l.i then (if l.j = v then l.g * t l.i else 0) else 0) := by
    intro c
    rw [sub_mul, sub_mul, add_mul, add_mul, entry_mul, entry_mul, entry_mul, entry_mul]
  rw [Finset.sum_congr rfl fun c _ => hterm c, Finset.sum_sub_distrib, Finset.sum_sub_distrib, Finset.sum_add_distrib,
    Finset.sum_add_distrib]
  simp only [Finset.sum_ite_eq', Finset.mem_univ, if_true]
  by_cases h1 : l.i = v <;> by_cases h2 : l.j = v <;> simp only [h1, h2, if_true, if_false] <;> ring

theorem linked_foldl (ls : List (Link n K)) (m : Mat n K) (t : Vec n K) (v : Fin n) :
    linked (ls.foldl stamp m) t v = linked m t v + outflow ls t v := by
  induction ls generalizing m with
  | nil => simp [outflow]
  | cons l ls ih =>
    rw [List.foldl_cons, ih, linked_stamp]
    simp only [outflow, List.map_cons, List.sum_cons]
    ring

theorem linked_conductances (ls : List (Link n K)) (t : Vec n K) (v : Fin n) : linked (conductances ls) t v = outflow ls t v := by
  unfold conductances
  rw [linked_foldl]
  simp [linked]

theorem linked_lhs (ls : List (Link n K)) (given : Fin n → Option K) (t : Vec n K) (v : Fin n) :
    linked (lhs ls given) t v = if (given v).isSome then t v else outflow ls t v := by
  unfold linked lhs
  split
  · rename_i h
    simp
  · rename_i h
    exact linked_conductances ls t v

theorem balanced_iff (ls : List (Link n K)) (given : Fin n → Option K) (power t : Vec n K) :
    Balanced ls given power t ↔ ∀ v, linked (lhs ls given) t v = rhs given power v := by
  unfold Balanced rhs
  refine forall_congr' fun v => ?_
  rw [linked_lhs]
  cases given v <;> simp

/-- No two temperatures say the same. -/
def Definite (ls : List (Link n K)) (given : Fin n → Option K) : Prop :=
  ∀ y z : Vec n K, (∀ i, linked (lhs ls given) y i = linked (lhs ls given) z i) → y = z

theorem solveOnce_ok {ls : List (Link n K)} {given : Fin n → Option K} {power t : Vec n K} (h : solveOnce ls given power = .ok t) :
    Balanced ls given power t ∧ Definite ls given := by
  unfold solveOnce at h
  split at h
  · simp at h
  cases hs : solve (lhs ls given) (rhs given power) with
  | none => rw [hs] at h; simp at h
  | some x =>
    rw [hs] at h
    simp only [Res.ok.injEq] at h
    subst h
    obtain ⟨h1, h2⟩ := solve_some hs
    exact ⟨(balanced_iff ls given power x).mpr h1, h2⟩

theorem balanced_unique {ls : List (Link n K)} {given : Fin n → Option K} {power t u : Vec n K} (hd : Definite ls given)
    (ht : Balanced ls given power t) (hu : Balanced ls given power u) : t = u :=
  hd t u fun i => by rw [(balanced_iff ls given power t).mp ht i, (balanced_iff ls given power u).mp hu i]

theorem leaves_sub (t u : Vec n K) (v : Fin n) (l : Link n K) : leaves (fun i => t i - u i) v l = leaves t v l - leaves u v l := by
  unfold leaves
  split <;> split <;> ring

theorem outflow_sub (ls : List (Link n K)) (t u : Vec n K) (v : Fin n) :
    outflow ls (fun i => t i - u i) v = outflow ls t v - outflow ls u v := by
  induction ls with
  | nil => simp [outflow]
  | cons l ls ih =>
    simp only [outflow, List.map_cons, List.sum_cons] at ih ⊢
    rw [ih, leaves_sub]; ring

theorem outflow_const (ls : List (Link n K)) (v : Fin n) {z : Vec n K} (h : ∀ l ∈ ls, z l.i = z l.j) : outflow ls z v = 0 := by
  unfold outflow
  refine List.sum_eq_zero fun x hx => ?_
  obtain ⟨l, hl, rfl⟩ := List.mem_map.mp hx
  unfold leaves
  rw [h l hl]
  simp

theorem definite_kernel {ls : List (Link n K)} {given : Fin n → Option K} (hd : Definite ls given) {z : Vec n K}
    (hl : ∀ l ∈ ls, z l.i = z l.j) (hg : ∀ v, (given v).isSome → z v = 0) (v : Fin n) : z v = 0 := by
  have : z = fun _ => 0 := by
    refine hd z _ fun i => ?_
    rw [linked_lhs, linked_lhs, outflow_const ls i hl, outflow_const ls i (z := fun _ => (0 : K)) fun _ _ => rfl]
    split
    · rename_i h; exact hg i h
    · rfl
  rw [this]

theorem list_sum_nonneg_zero {l : List K} (h : ∀ x ∈ l, x ≤ 0) (hs : 0 ≤ l.sum) : ∀ x ∈ l, x = 0 := by
  induction l with
  | nil => simp
  | cons a l ih =>
    simp only [List.sum_cons, List.mem_cons, forall_eq_or_imp] at h hs ⊢
    have hl : l.sum ≤ 0 := by
      have : ∀ l : List K, (∀ x ∈ l, x ≤ 0) → l.sum ≤ 0 := by
        intro l
        induction l with
        | nil => simp
        | cons b l ih =>
          intro h
          simp only [List.sum_cons, List.mem_cons, forall_eq_or_imp] at h ⊢
          have := ih h.2
          linarith [h.1]
      exact this l h.2
    have ha : a = 0 := le_antisymm h.1 (by linarith)
    exact ⟨ha, ih h.2 (by rw [ha] at hs; linarith)⟩

/-- Nothing is below zero if no node takes more than it gives. -/
theorem minimum {ls : List (Link n K)} {given : Fin n → Option K} (hc : Conducting ls) (hd : Definite ls given) {d : Vec n K}
    (hfree : ∀ v, given v = none → 0 ≤ outflow ls d v) (hgiven : ∀ v, (given v).isSome → 0 ≤ d v) (v : Fin n) : 0 ≤ d v := by
  by_contra hneg
  have hneg := not_le.mp hneg
  obtain ⟨m, _, hm⟩ := Finset.exists_min_image (Finset.univ : Finset (Fin n)) d ⟨v, Finset.mem_univ v⟩
  have hm0 : d m < 0 := lt_of_le_of_lt (hm v (Finset.mem_univ v)) hneg
  have hmin : ∀ u, d m ≤ d u := fun u => hm u (Finset.mem_univ u)
  have hfr : ∀ u, d u = d m → given u = none := by
    intro u hu
    cases hg : given u with
    | none => rfl
    | some x =>
      have := hgiven u (by simp [hg])
      rw [hu] at this
      exact absurd hm0 (not_lt.mpr this)
  have hnb : ∀ u, d u = d m → ∀ l ∈ ls, (l.i = u → d l.j = d m) ∧ (l.j = u → d l.i = d m) := by
    intro u hu l hl
    have hz : leaves d u l = 0 := by
      refine list_sum_nonneg_zero (l := ls.map (leaves d u)) ?_ (hfree u (hfr u hu)) _ (List.mem_map_of_mem hl)
      intro x hx
      obtain ⟨l', hl', rfl⟩ := List.mem_map.mp hx
      have hg := hc l' hl'
      unfold leaves
      have h1 : (if l'.i = u then (d l'.i - d l'.j) * l'.g else 0) ≤ 0 := by
        split
        · rename_i e
          rw [e, hu]
          exact mul_nonpos_of_nonpos_of_nonneg (by linarith [hmin l'.j]) hg.le
        · exact le_refl _
      have h2 : (if l'.j = u then (d l'.j - d l'.i) * l'.g else 0) ≤ 0 := by
        split
        · rename_i e
          rw [e, hu]
          exact mul_nonpos_of_nonpos_of_nonneg (by linarith [hmin l'.i]) hg.le
        · exact le_refl _
      linarith
    have hg := hc l hl
    unfold leaves at hz
    by_cases h1 : l.i = u
    · by_cases h2 : l.j = u
      · exact ⟨fun _ => by rw [h2, hu], fun _ => by rw [h1, hu]⟩
      · rw [if_pos h1, if_neg h2, add_zero] at hz
        rcases mul_eq_zero.mp hz with hz | hz
        · exact ⟨fun _ => by rw [h1, hu] at hz; linarith, fun e => absurd e h2⟩
        · exact absurd hz hg.ne'
    · by_cases h2 : l.j = u
      · rw [if_neg h1, if_pos h2, zero_add] at hz
        rcases mul_eq_zero.mp hz with hz | hz
        · exact ⟨fun e => absurd e h1, fun _ => by rw [h2, hu] at hz; linarith⟩
        · exact absurd hz hg.ne'
      · exact ⟨fun e => absurd e h1, fun e => absurd e h2⟩
  have := definite_kernel hd (z := fun u => if d u = d m then 1 else 0) ?_ ?_ m
  · simp at this
  · intro l hl
    by_cases h1 : d l.i = d m
    · rw [if_pos h1, if_pos ((hnb l.i h1 l hl).1 rfl)]
    · rw [if_neg h1, if_neg]
      intro h2
      exact h1 ((hnb l.j h2 l hl).2 rfl)
  · intro u hu
    rw [if_neg]
    intro e
    rw [hfr u e] at hu
    simp at hu

/-- Temperatures with more losses and warmer surroundings are no lower. -/
theorem comparison {ls : List (Link n K)} {given : Fin n → Option K} (hc : Conducting ls) (hd : Definite ls given) {t u : Vec n K}
    (hfree : ∀ v, given v = none → outflow ls t v ≤ outflow ls u v) (hgiven : ∀ v, (given v).isSome → t v ≤ u v) (v : Fin n) :
    t v ≤ u v := by
  have := minimum hc hd (d := fun i => u i - t i) (fun v hv => by rw [outflow_sub]; linarith [hfree v hv])
    (fun v hv => by linarith [hgiven v hv]) v
  linarith

/-! ## Heat kept -/

theorem leaves_total (t : Vec n K) (l : Link n K) : ∑ v, leaves t v l = 0 := by
  unfold leaves
  rw [Finset.sum_add_distrib]
  simp only [Finset.sum_ite_eq, Finset.mem_univ, if_true]
  ring

theorem outflow_total (ls : List (Link n K)) (t : Vec n K) : ∑ v, outflow ls t v = 0 := by
  induction ls with
  | nil => simp [outflow]
  | cons l ls ih =>
    simp only [outflow, List.map_cons, List.sum_cons] at ih ⊢
    rw [Finset.sum_add_distrib, ih, leaves_total, add_zero]

/-! ## Paths -/

theorem sum_outflow_set (ls : List (Link n K)) (x : Vec n K) (s : Finset (Fin n)) :
    ∑ v ∈ s, outflow ls x v =
      (ls.map fun l => (if l.i ∈ s then (x l.i - x l.j) * l.g else 0) + if l.j ∈ s then (x l.j - x l.i) * l.g else 0).sum := by
  induction ls with
  | nil => simp [outflow]
  | cons l ls ih =>
    simp only [outflow, List.map_cons, List.sum_cons] at ih ⊢
    rw [Finset.sum_add_distrib, ih]
    congr 1
    unfold leaves
    rw [Finset.sum_add_distrib]
    simp only [Finset.sum_ite_eq]

theorem le_list_sum {l : List K} (h : ∀ x ∈ l, 0 ≤ x) {x : K} (hx : x ∈ l) : x ≤ l.sum := by
  induction l with
  | nil => simp at hx
  | cons a l ih =>
    simp only [List.sum_cons, List.mem_cons, forall_eq_or_imp] at h hx ⊢
    have hl : 0 ≤ l.sum := List.sum_nonneg h.2
    rcases hx with rfl | hx
    · linarith
    · linarith [ih h.2 hx, h.1]

/-- Between neighbours the step is no more than all the heat through the poorest connection. -/
theorem drop {ls : List (Link n K)} {given : Fin n → Option K} {γ ε : K} (hγ : 0 < γ) (hε : 0 ≤ ε) (hc : ∀ l ∈ ls, γ ≤ l.g) {x : Vec n K}
    (hfree : ∀ v, given v = none → outflow ls x v ≤ ε) (hgiven : ∀ v, (given v).isSome → x v < ε) {u w : Fin n}
    (hj : Joins ls u w) (hu : ε ≤ x u) : x u ≤ x w + (n : K) * ε / γ := by
  by_cases hle : x u ≤ x w
  · have : 0 ≤ (n : K) * ε / γ := by positivity
    linarith
  have hlt := not_le.mp hle
  set s : Finset (Fin n) := Finset.univ.filter fun v => x u ≤ x v with hs
  have hmem : ∀ v, v ∈ s ↔ x u ≤ x v := fun v => by simp [hs]
  have hsum : ∑ v ∈ s, outflow ls x v ≤ (n : K) * ε := by
    have h1 : ∑ v ∈ s, outflow ls x v ≤ ∑ _v ∈ s, ε := by
      refine Finset.sum_le_sum fun v hv => hfree v ?_
      cases hg : given v with
      | none => rfl
      | some y =>
        have := hgiven v (by simp [hg])
        have := (hmem v).mp hv
        linarith
    rw [Finset.sum_const, nsmul_eq_mul] at h1
    have hcard : (s.card : K) ≤ (n : K) := by
      have : s.card ≤ n := by simpa using Finset.card_le_univ s
      exact_mod_cast this
    exact h1.trans (mul_le_mul_of_nonneg_right hcard hε)
  rw [sum_outflow_set] at hsum
  have hnn : ∀ l ∈ ls, 0 ≤ (if l.i ∈ s then (x l.i - x l.j) * l.g else 0) + if l.j ∈ s then (x l.j - x l.i) * l.g else 0 := by
    intro l hl
    have hg : 0 < l.g := lt_of_lt_of_le hγ (hc l hl)
    by_cases h1 : l.i ∈ s
    · by_cases h2 : l.j ∈ s
      · rw [if_pos h1, if_pos h2]; apply le_of_eq; ring
      · rw [if_pos h1, if_neg h2, add_zero]
        have a := (hmem _).mp h1
        have b := not_le.mp (fun h => h2 ((hmem _).mpr h))
        exact mul_nonneg (by linarith) hg.le
    · by_cases h2 : l.j ∈ s
      · rw [if_neg h1, if_pos h2, zero_add]
        have a := (hmem _).mp h2
        have b := not_le.mp (fun h => h1 ((hmem _).mpr h))
        exact mul_nonneg (by linarith) hg.le
      · rw [if_neg h1, if_neg h2, add_zero]
  obtain ⟨l, hl, hlu⟩ := hj
  have hus : u ∈ s := (hmem u).mpr (le_refl _)
  have hws : w ∉ s := fun h => absurd ((hmem w).mp h) (not_le.mpr hlt)
  have hterm : (x u - x w) * γ ≤ (if l.i ∈ s then (x l.i - x l.j) * l.g else 0) + if l.j ∈ s then (x l.j - x l.i) * l.g else 0 := by
    have hg := hc l hl
    rcases hlu with ⟨h1, h2⟩ | ⟨h1, h2⟩
    · rw [h1, h2, if_pos hus, if_neg hws, add_zero]
      exact mul_le_mul_of_nonneg_left hg (by linarith)
    · rw [h1, h2, if_pos hus, if_neg hws, zero_add]
      exact mul_le_mul_of_nonneg_left hg (by linarith)
  have hall := le_list_sum (l := ls.map fun l => (if l.i ∈ s then (x l.i - x l.j) * l.g else 0) + if l.j ∈ s then (x l.j - x l.i) * l.g else 0)
    (by intro y hy; obtain ⟨l', hl', rfl⟩ := List.mem_map.mp hy; exact hnn l' hl') (List.mem_map_of_mem hl)
  have : (x u - x w) * γ ≤ (n : K) * ε := hterm.trans (hall.trans hsum)
  have := (le_div_iff₀ hγ).mpr this
  linarith

theorem climb {ls : List (Link n K)} {given : Fin n → Option K} {γ ε : K} (hγ : 0 < γ) (hε : 0 ≤ ε) (hc : ∀ l ∈ ls, γ ≤ l.g) {x : Vec n K}
    (hfree : ∀ v, given v = none → outflow ls x v ≤ ε) (hgiven : ∀ v, (given v).isSome → x v < ε) {k : Nat} {u : Fin n}
    (hr : Reaches ls given k u) : x u ≤ ε + (k : K) * ((n : K) * ε / γ) := by
  induction hr with
  | here h => have := hgiven _ h; simp; linarith
  | @step k u v h _ ih =>
    by_cases hu : ε ≤ x u
    · have := drop hγ hε hc hfree hgiven h hu
      push_cast
      linarith
    · have : 0 ≤ ((k + 1 : Nat) : K) * ((n : K) * ε / γ) := by positivity
      linarith [not_le.mp hu]

theorem leaves_unit (v : Fin n) (l : Link n K) :
    leaves (fun w => if w = v then (1 : K) else 0) v l = if l.i = l.j then 0 else if l.i = v ∨ l.j = v then l.g else 0 := by
  unfold leaves
  by_cases h : l.i = l.j
  · rw [if_pos h, h]; simp
  · rw [if_neg h]
    by_cases h1 : l.i = v
    · have h2 : l.j ≠ v := fun e => h (h1.trans e.symm)
      simp [h1, h2]
    · by_cases h2 : l.j = v
      · simp [h1, h2]
      · simp [h1, h2]

theorem diagonal_eq (ls : List (Link n K)) (v : Fin n) :
    conductances ls v v = (ls.map fun l => if l.i = l.j then 0 else if l.i = v ∨ l.j = v then l.g else 0).sum := by
  have h := linked_conductances ls (fun w => if w = v then (1 : K) else 0) v
  unfold linked at h
  simp only [mul_ite, mul_one, mul_zero, Finset.sum_ite_eq', Finset.mem_univ, if_true] at h
  rw [h]
  unfold outflow
  congr 1
  refine List.map_congr_left fun l _ => leaves_unit v l

theorem neighbour {ls : List (Link n K)} {given : Fin n → Option K} {k : Nat} {u : Fin n} (hr : Reaches ls given k u)
    (hu : given u = none) : ∃ w, w ≠ u ∧ Joins ls u w := by
  induction hr with
  | here h => rw [hu] at h; simp at h
  | @step k u v h _ ih =>
    by_cases e : v = u
    · subst e; exact ih hu
    · exact ⟨v, e, h⟩

theorem diagonal_ge {ls : List (Link n K)} {γ : K} (hγ : 0 < γ) (hc : ∀ l ∈ ls, γ ≤ l.g) {u w : Fin n} (hw : w ≠ u)
    (hj : Joins ls u w) : γ ≤ conductances ls u u := by
  rw [diagonal_eq]
  obtain ⟨l, hl, h⟩ := hj
  refine le_trans ?_ (le_list_sum ?_ (List.mem_map_of_mem hl))
  · rcases h with ⟨h1, h2⟩ | ⟨h1, h2⟩
    · rw [if_neg (by rw [h1, h2]; exact hw.symm), if_pos (.inl h1)]; exact hc l hl
    · rw [if_neg (by rw [h1, h2]; exact hw), if_pos (.inr h2)]; exact hc l hl
  · intro y hy
    obtain ⟨l', hl', rfl⟩ := List.mem_map.mp hy
    have := hc l' hl'
    split
    · exact le_refl _
    · split
      · linarith
      · exact le_refl _

end Verif.Thermal
