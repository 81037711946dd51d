import Verif.WoundWith.Lemmas
import Mathlib.Data.List.Perm.Basic
import Mathlib.Algebra.BigOperators.Group.List.Lemmas

/-! # Lemmas on the turns given back to windings wound together -/

namespace Verif.WoundWith

set_option linter.unusedSimpArgs false

/-- The search fails only after reading nothing but windings without turns left. -/
theorem nextWinding_none {pattern : List Nat} {remaining : Nat → Nat} : ∀ {fuel k : Nat}, k < pattern.length →
    nextWinding pattern remaining fuel k = none → ∀ j, j < fuel →
      ∃ i, pattern[(k + j) % pattern.length]? = some i ∧ remaining i = 0
  | 0, k, _, _, j, hj => by omega
  | fuel + 1, k, hk, h, j, hj => by
    unfold nextWinding at h
    rw [List.getElem?_eq_getElem hk] at h
    simp only at h
    split at h
    · simp at h
    · rename_i hr
      cases j with
      | zero =>
        refine ⟨pattern[k], ?_, by omega⟩
        rw [Nat.add_zero, Nat.mod_eq_of_lt hk, List.getElem?_eq_getElem hk]
      | succ j =>
        have hpos : 0 < pattern.length := by omega
        obtain ⟨i, h1, h2⟩ := nextWinding_none (Nat.mod_lt (k + 1) hpos) h j (by omega)
        refine ⟨i, ?_, h2⟩
        rw [← h1, Nat.mod_add_mod]
        congr 2
        omega

theorem nextWinding_some {pattern : List Nat} {remaining : Nat → Nat} : ∀ {fuel k i k' : Nat},
    nextWinding pattern remaining fuel k = some (i, k') → i ∈ pattern ∧ 0 < remaining i ∧ k' < pattern.length
  | 0, k, i, k', h => by simp [nextWinding] at h
  | fuel + 1, k, i, k', h => by
    unfold nextWinding at h
    split at h
    · simp at h
    · rename_i x hx
      split at h
      · rename_i hr
        simp only [Option.some.injEq, Prod.mk.injEq] at h
        obtain ⟨rfl, rfl⟩ := h
        have hmem := List.mem_of_getElem? hx
        have hpos : 0 < pattern.length := List.length_pos_of_mem hmem
        exact ⟨hmem, hr, Nat.mod_lt _ hpos⟩
      · exact nextWinding_some h

/-- The search finds a winding when one in the pattern has turns left. -/
theorem nextWinding_finds {pattern : List Nat} {remaining : Nat → Nat} {k i : Nat} (hk : k < pattern.length)
    (hi : i ∈ pattern) (hr : 0 < remaining i) :
    ∃ i' k', nextWinding pattern remaining (pattern.length + 1) k = some (i', k') := by
  cases h : nextWinding pattern remaining (pattern.length + 1) k with
  | some x => exact ⟨x.1, x.2, rfl⟩
  | none =>
    exfalso
    obtain ⟨p, hp, hpe⟩ := List.mem_iff_getElem.mp hi
    have hj : (k + (p + pattern.length - k) % pattern.length) % pattern.length = p := by
      rw [Nat.add_mod_mod, show k + (p + pattern.length - k) = p + pattern.length by omega, Nat.add_mod_right,
        Nat.mod_eq_of_lt hp]
    have hlt : (p + pattern.length - k) % pattern.length < pattern.length + 1 := by
      have := Nat.mod_lt (p + pattern.length - k) (show pattern.length > 0 by omega)
      omega
    obtain ⟨i', h1, h2⟩ := nextWinding_none hk h _ hlt
    rw [hj, List.getElem?_eq_getElem hp, Option.some.injEq, hpe] at h1
    subst h1
    omega

theorem sum_update {group : List Nat} (hn : group.Nodup) {i : Nat} (hi : i ∈ group) (r : Nat → Nat) (hr : 0 < r i) :
    (group.map (Function.update r i (r i - 1))).sum + 1 = (group.map r).sum := by
  induction group with
  | nil => simp at hi
  | cons a rest ih =>
    rw [List.nodup_cons] at hn
    rw [List.map_cons, List.map_cons, List.sum_cons, List.sum_cons]
    rcases List.mem_cons.mp hi with rfl | hi'
    · have : rest.map (Function.update r i (r i - 1)) = rest.map r := by
        apply List.map_congr_left
        intro x hx
        rw [Function.update_of_ne]
        rintro rfl
        exact hn.1 hx
      rw [this, Function.update_self]
      omega
    · have := ih hn.2 hi'
      rw [Function.update_of_ne (by rintro rfl; exact hn.1 hi')]
      omega

theorem exists_pos_of_sum {r : Nat → Nat} : ∀ {group : List Nat}, 0 < (group.map r).sum → ∃ i ∈ group, 0 < r i
  | [], h => by simp at h
  | i :: rest, h => by
    rw [List.map_cons, List.sum_cons] at h
    by_cases hi : 0 < r i
    · exact ⟨i, List.mem_cons_self, hi⟩
    · obtain ⟨j, hj, hr⟩ := exists_pos_of_sum (group := rest) (r := r) (by omega)
      exact ⟨j, List.mem_cons_of_mem _ hj, hr⟩

theorem le_sum_map {r : Nat → Nat} : ∀ {group : List Nat} {i : Nat}, i ∈ group → r i ≤ (group.map r).sum
  | [], i, h => by simp at h
  | j :: rest, i, h => by
    rw [List.map_cons, List.sum_cons]
    rcases List.mem_cons.mp h with rfl | h
    · omega
    · have := le_sum_map (r := r) h
      omega

/-- The parallels of the turns of a winding, in order. -/
def parallelsOf (name : String) (l : List Turn) : List Nat :=
  (l.filter fun t => t.winding == name).map fun t => t.parallel

theorem parallelsOf_append (name : String) (a b : List Turn) :
    parallelsOf name (a ++ b) = parallelsOf name a ++ parallelsOf name b := by
  simp [parallelsOf]

/-- The turns of a virtual winding are given out without failing, each at its place, and each winding of the group gets
as many as it has left, in the order of its parallels. -/
theorem giveTurns_spec {ws : List Winding} (hn : Named ws) {rename : String → String → String} {pattern group : List Nat}
    (hg : group.Nodup) (hlen : ∀ i ∈ group, i < ws.length) (hp : ∀ i, i ∈ pattern ↔ i ∈ group) :
    ∀ {ts : List Turn} {r a : Nat → Nat} {k : Nat}, (ts = [] ∨ k < pattern.length) →
      (group.map r).sum = ts.length →
      ∃ l, giveTurns ws rename pattern ts r a k = .ok l ∧ l.map (fun t => t.rest) = ts.map (fun t => t.rest) ∧
        (∀ t ∈ l, ∃ i ∈ group, ∃ w, ws[i]? = some w ∧ t.winding = w.name) ∧
        ∀ i ∈ group, ∀ w, ws[i]? = some w →
          parallelsOf w.name l = (List.range (r i)).map fun j => parallelFor w (a i + j)
  | [], r, a, k, _, hs => by
    refine ⟨[], rfl, rfl, by simp, ?_⟩
    intro i hi w _
    have : r i = 0 := by
      have := le_sum_map (r := r) hi
      rw [List.length_nil] at hs
      omega
    simp [parallelsOf, this]
  | t :: rest, r, a, k, hk, hs => by
    have hk' : k < pattern.length := by
      rcases hk with h | h
      · simp at h
      · exact h
    obtain ⟨i₀, hi₀, hr₀⟩ := exists_pos_of_sum (group := group) (r := r) (by rw [hs]; simp)
    obtain ⟨i, k', hnext⟩ := nextWinding_finds hk' ((hp i₀).mpr hi₀) hr₀
    obtain ⟨hip, hri, hk''⟩ := nextWinding_some hnext
    have hig := (hp i).mp hip
    have hsum := sum_update hg hig r hri
    have hil := hlen i hig
    have hw := List.getElem?_eq_getElem hil
    obtain ⟨l, h1, h2, h3, h4⟩ := giveTurns_spec hn (rename := rename) hg hlen hp (ts := rest)
      (r := Function.update r i (r i - 1)) (a := Function.update a i (a i + 1)) (k := k') (Or.inr hk'')
      (by rw [List.length_cons] at hs; omega)
    refine ⟨{ t with name := rename t.name ws[i].name, winding := ws[i].name, parallel := parallelFor ws[i] (a i) } :: l,
      ?_, ?_, ?_, ?_⟩
    · unfold giveTurns
      simp only [hnext, hw, h1, Res.bind]
    · simp [h2]
    · intro u hu
      rcases List.mem_cons.mp hu with rfl | hu
      · exact ⟨i, hig, _, hw, rfl⟩
      · exact h3 u hu
    · intro j hj w hjw
      have h4' := h4 j hj w hjw
      unfold parallelsOf at h4' ⊢
      by_cases hji : j = i
      · subst hji
        rw [hw, Option.some.injEq] at hjw
        subst hjw
        rw [List.filter_cons_of_pos (by simp), List.map_cons, h4', Function.update_self, Function.update_self]
        obtain ⟨q, hq⟩ : ∃ q, r j = q + 1 := ⟨r j - 1, by omega⟩
        rw [hq, Nat.add_sub_cancel, List.range_succ_eq_map, List.map_cons, List.map_map, Nat.add_zero]
        congr 1
        apply List.map_congr_left
        intro x _
        simp only [Function.comp]
        congr 1
        omega
      · rw [List.filter_cons_of_neg, h4', Function.update_of_ne hji, Function.update_of_ne hji]
        simp only [beq_iff_eq]
        exact fun he => hji (named_get hn hjw hw he.symm)

/-! ## The pattern of a group -/

theorem foldl_min_le : ∀ (l : List Nat) (a : Nat), l.foldl min a ≤ a ∧ ∀ x ∈ l, l.foldl min a ≤ x
  | [], a => ⟨le_refl _, by simp⟩
  | y :: rest, a => by
    obtain ⟨h1, h2⟩ := foldl_min_le rest (min a y)
    rw [List.foldl_cons]
    have ha : min a y ≤ a := Nat.min_le_left _ _
    have hy : min a y ≤ y := Nat.min_le_right _ _
    refine ⟨le_trans h1 ha, fun x hx => ?_⟩
    rcases List.mem_cons.mp hx with rfl | hx
    · exact le_trans h1 hy
    · exact h2 x hx

theorem foldl_min_pos : ∀ (l : List Nat) (a : Nat), 0 < a → (∀ x ∈ l, 0 < x) → 0 < l.foldl min a
  | [], _, h, _ => h
  | y :: rest, a, h, hl => foldl_min_pos rest (min a y)
      (lt_min h (hl y List.mem_cons_self)) fun x hx => hl x (List.mem_cons_of_mem _ hx)

theorem turnPattern_ok {ws : List Winding} {group : List Nat} (hlen : ∀ i ∈ group, i < ws.length)
    (hpos : ∀ i ∈ group, 0 < wanted ws i) : ∃ p, turnPattern ws group = .ok p ∧ ∀ i, i ∈ p ↔ i ∈ group := by
  unfold turnPattern
  have h1 : (group.all fun i => decide (i < ws.length)) = true := by
    rw [List.all_eq_true]
    intro i hi
    simpa using hlen i hi
  have h2 : ¬ (group.any fun i => wanted ws i == 0) = true := by
    rw [List.any_eq_true]
    rintro ⟨i, hi, h⟩
    have := hpos i hi
    rw [beq_iff_eq] at h
    omega
  have hl : 0 < (group.map (wanted ws)).foldl min (2 ^ 63 - 1) := foldl_min_pos _ _ (by decide) (by
    intro x hx
    obtain ⟨i, hi, rfl⟩ := List.mem_map.mp hx
    exact hpos i hi)
  have ht : ∀ i ∈ group, 0 < timesInPattern (wanted ws i) ((group.map (wanted ws)).foldl min (2 ^ 63 - 1)) := by
    intro i hi
    have hle := (foldl_min_le (group.map (wanted ws)) (2 ^ 63 - 1)).2 _ (List.mem_map_of_mem hi)
    unfold timesInPattern
    apply Nat.div_pos
    · omega
    · omega
  have h3 : ¬ (group.any fun i => timesInPattern (wanted ws i)
      ((group.map (wanted ws)).foldl min (2 ^ 63 - 1)) == 0) = true := by
    rw [List.any_eq_true]
    rintro ⟨i, hi, h⟩
    have := ht i hi
    rw [beq_iff_eq] at h
    omega
  rw [if_pos h1, if_neg h2]
  simp only
  rw [if_neg h3]
  refine ⟨_, rfl, fun i => ?_⟩
  rw [List.mem_flatMap]
  constructor
  · rintro ⟨j, hj, h⟩
    rw [List.mem_replicate] at h
    rw [h.2]
    exact hj
  · intro hi
    exact ⟨i, hi, List.mem_replicate.mpr ⟨by have := ht i hi; omega, rfl⟩⟩

theorem turnPattern_pos {ws : List Winding} {group p : List Nat} (h : turnPattern ws group = .ok p) :
    (∀ i ∈ group, i < ws.length) ∧ ∀ i ∈ group, 0 < wanted ws i := by
  unfold turnPattern at h
  split at h
  · rename_i h1
    split at h
    · simp at h
    · rename_i h2
      refine ⟨fun i hi => by simpa using List.all_eq_true.mp h1 i hi, fun i hi => ?_⟩
      rw [Nat.pos_iff_ne_zero]
      intro h0
      exact h2 (List.any_eq_true.mpr ⟨i, hi, by simp [h0]⟩)
  · simp at h

/-! ## The turns of each parallel -/

theorem parallelFor_eq {w : Winding} {j : Nat} (h : j < w.turns * w.parallels) : parallelFor w j = j / w.turns := by
  unfold parallelFor
  have : j / w.turns < w.parallels := Nat.div_lt_of_lt_mul h
  simp only
  rw [if_neg (by omega)]

theorem count_div {t : Nat} (ht : 0 < t) (p : Nat) : ∀ n, ((List.range (t * n)).map fun j => j / t).count p =
    if p < n then t else 0
  | 0 => by simp
  | n + 1 => by
    rw [Nat.mul_add_one, List.range_add, List.map_append, List.count_append, count_div ht p n, List.map_map]
    have : (List.range t).map ((fun j => j / t) ∘ fun x => t * n + x) = List.replicate t n := by
      rw [List.eq_replicate_iff]
      refine ⟨by simp, fun b hb => ?_⟩
      obtain ⟨x, hx, rfl⟩ := List.mem_map.mp hb
      rw [List.mem_range] at hx
      simp only [Function.comp]
      rw [Nat.mul_add_div ht, Nat.div_eq_of_lt hx, Nat.add_zero]
    rw [this, List.count_replicate]
    by_cases h1 : p < n
    · rw [if_pos h1, if_neg (by simp; omega), if_pos (by omega), Nat.add_zero]
    · by_cases h2 : p = n
      · subst h2; simp
      · rw [if_neg h1, if_neg (by simp; omega), if_neg (by omega)]

end Verif.WoundWith
