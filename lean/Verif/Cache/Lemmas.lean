import Verif.Cache.Model

set_option linter.unusedSimpArgs false
set_option linter.unusedSectionVars false

namespace Verif.Cache

open Verif

variable {K T : Type} [LinearOrder K]

theorem evictMany_sorted {c : SMap K T} (hc : c.Sorted) (rs : List K) : (evictMany c rs).2.Sorted := by
  induction rs generalizing c with
  | nil => exact hc
  | cons r rs ih =>
    simp only [evictMany]
    split
    · exact ih (SMap.sorted_erase hc r)
    · exact ih hc

theorem evictMany_find? {c : SMap K T} (hc : c.Sorted) (rs : List K) (k : K) :
    (evictMany c rs).2.find? k = if k ∈ rs then none else c.find? k := by
  induction rs generalizing c with
  | nil => simp [evictMany]
  | cons r rs ih =>
    simp only [evictMany]
    split
    · simp only [ih (SMap.sorted_erase hc r), SMap.find?_erase hc, List.mem_cons]
      by_cases h1 : k ∈ rs <;> by_cases h2 : k = r <;> simp [h1, h2]
    · rename_i h
      simp only [ih hc, List.mem_cons]
      by_cases h1 : k ∈ rs
      · simp [h1]
      · by_cases h2 : k = r
        · subst h2; simp [h1, h]
        · simp [h1, h2]

theorem step_sorted {c : SMap K T} (hc : c.Sorted) (op : Op K T) : (step c op).1.Sorted := by
  cases op with
  | load r v => exact SMap.sorted_insert hc r v
  | evict r =>
    simp only [step, evict]
    cases h : c.find? r with
    | some v => exact SMap.sorted_erase hc r
    | none => exact hc
  | evictMany rs => exact evictMany_sorted hc rs
  | clear => exact SMap.sorted_nil
  | read r => simp only [step]; split <;> exact hc
  | readMany rs => exact hc
  | readAll => exact hc
  | references => exact hc
  | size => exact hc

theorem run_sorted {c : SMap K T} (hc : c.Sorted) (ops : List (Op K T)) : (run c ops).Sorted := by
  induction ops generalizing c with
  | nil => exact hc
  | cons op ops ih => exact ih (step_sorted hc op)

theorem readMany_eq (c : SMap K T) (rs : List K) : readMany c rs = rs.filterMap c.find? := by
  induction rs with
  | nil => rfl
  | cons r rs ih => simp only [readMany, List.filterMap_cons]; split <;> simp_all

theorem filterMap_filter_ne (c : SMap K T) (hc : c.Sorted) (r : K) (rs : List K) :
    rs.filterMap (c.erase r).find? = (rs.filter (fun b => !b == r)).filterMap c.find? := by
  rw [List.filterMap_filter]
  refine List.filterMap_congr (fun x _ => ?_)
  rw [SMap.find?_erase hc]
  by_cases hx : x = r <;> simp [hx]

theorem filter_eraseDups (p : K → Bool) (l : List K) (n : Nat) (h : l.length ≤ n) :
    (l.filter p).eraseDups = l.eraseDups.filter p := by
  induction n generalizing l with
  | zero => simp only [Nat.le_zero, List.length_eq_zero_iff] at h; subst h; rfl
  | succ n ih =>
    cases l with
    | nil => rfl
    | cons a l =>
      rw [List.eraseDups_cons, List.filter_cons, List.filter_cons]
      have hl : (l.filter (fun b => !b == a)).length ≤ n :=
        Nat.le_trans (List.length_filter_le _ _) (Nat.le_of_succ_le_succ h)
      split
      · rw [List.eraseDups_cons, List.filter_comm, ih _ hl]
      · rename_i hp
        rw [← ih _ hl, ← List.filter_comm]
        congr 1
        rw [List.filter_filter]
        refine List.filter_congr (fun x _ => ?_)
        by_cases hxa : x = a
        · subst hxa; simp [hp]
        · simp [hxa]

theorem evictMany_values {c : SMap K T} (hc : c.Sorted) (rs : List K) :
    (evictMany c rs).1 = rs.eraseDups.filterMap c.find? := by
  induction rs generalizing c with
  | nil => simp [evictMany]
  | cons r rs ih =>
    simp only [evictMany, List.eraseDups_cons, List.filterMap_cons]
    cases h : c.find? r with
    | some v =>
      simp only [ih (SMap.sorted_erase hc r)]
      rw [filterMap_filter_ne c hc, filter_eraseDups _ _ rs.length (Nat.le_refl _)]
    | none =>
      simp only
      rw [ih hc, filter_eraseDups _ _ rs.length (Nat.le_refl _)]
      rw [List.filterMap_filter]
      refine List.filterMap_congr (fun x _ => ?_)
      by_cases hx : x = r
      · subst hx; simp [h]
      · simp [hx]

omit [LinearOrder K] in
theorem foldl_max_ge {E : Type} [LinearOrder E] (l : List (K × E)) (a : K × E) :
    a.2 ≤ (l.foldl (fun best x => if best.2 < x.2 then x else best) a).2 ∧
    (∀ b ∈ l, b.2 ≤ (l.foldl (fun best x => if best.2 < x.2 then x else best) a).2) ∧
    (l.foldl (fun best x => if best.2 < x.2 then x else best) a) ∈ a :: l := by
  induction l generalizing a with
  | nil => simp
  | cons x l ih =>
    simp only [List.foldl_cons]
    by_cases h : a.2 < x.2
    · rw [if_pos h]
      obtain ⟨h1, h2, h3⟩ := ih x
      refine ⟨le_trans (le_of_lt h) h1, ?_, List.mem_cons_of_mem _ h3⟩
      intro b hb
      rcases List.mem_cons.mp hb with hb | hb
      · subst hb; exact h1
      · exact h2 b hb
    · rw [if_neg h]
      obtain ⟨h1, h2, h3⟩ := ih a
      refine ⟨h1, ?_, ?_⟩
      · intro b hb
        rcases List.mem_cons.mp hb with hb | hb
        · subst hb; exact le_trans (not_lt.mp h) h1
        · exact h2 b hb
      · rcases List.mem_cons.mp h3 with h3 | h3
        · rw [h3]; exact List.mem_cons_self
        · exact List.mem_cons_of_mem _ (List.mem_cons_of_mem _ h3)

theorem sorted_map {E : Type} {c : SMap K T} (hc : c.Sorted) (f : T → E) :
    SMap.Sorted (c.map (fun kv => (kv.1, f kv.2))) := by
  unfold SMap.Sorted; rw [List.pairwise_map]; exact hc

theorem find?_map {E : Type} (c : SMap K T) (f : T → E) (k : K) :
    SMap.find? (c.map (fun kv => (kv.1, f kv.2))) k = (c.find? k).map f := by
  induction c with
  | nil => rfl
  | cons a c ih => obtain ⟨k', v⟩ := a; simp only [List.map_cons, SMap.find?]; split <;> simp [ih]

theorem find?_insertAll_nil {E : Type} {l : SMap K E} (hl : l.Sorted) (k : K) :
    SMap.find? (SMap.insertAll [] l) k = SMap.find? l k := by
  rw [SMap.find?_insertAll]
  cases h : l.reverse.find? (fun kv => decide (k = kv.1)) with
  | some kv =>
    have h1 := List.find?_some h
    have h2 : kv ∈ l := List.mem_reverse.mp (List.mem_of_find?_eq_some h)
    simp only [decide_eq_true_eq] at h1
    obtain ⟨a, b⟩ := kv
    simp only at h1; subst h1
    exact (SMap.find?_of_mem hl h2).symm
  | none =>
    simp only [SMap.find?]
    symm
    rw [← Option.not_isSome_iff_eq_none, ← SMap.mem_keys_iff]
    intro hk
    obtain ⟨a, ha, rfl⟩ := List.mem_map.mp hk
    have := List.find?_eq_none.mp h a (List.mem_reverse.mpr ha)
    simp at this

theorem insertAll_nil_eq {E : Type} {l : SMap K E} (hl : l.Sorted) : SMap.insertAll [] l = l :=
  SMap.ext_find? (SMap.sorted_insertAll SMap.sorted_nil l) hl (find?_insertAll_nil hl)

end Verif.Cache
