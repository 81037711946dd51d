import Mathlib.Order.Defs.LinearOrder
import Mathlib.Data.List.Basic
import Mathlib.Order.Nat

/-!
# `std::map` as a key-sorted association list

Many structures of MKF are `std::map<std::string, T>`.  They are modelled by an association list
kept in key order.  The sortedness invariant is a separate theorem (`SMap.Sorted`), not a subtype.
Keys are taken from an arbitrary linear order (for `std::string`: byte-wise lexicographic order).
-/

namespace Verif

/-- Model of `std::map<K, V>`: the list of its entries in iteration order. -/
abbrev SMap (K V : Type) := List (K × V)

namespace SMap

variable {K V : Type} [LinearOrder K]

/-- `std::map::find` / `count` / `contains` followed by a read of the mapped value. -/
def find? : SMap K V → K → Option V
  | [], _ => none
  | (k', v) :: m, k => if k = k' then some v else find? m k

/-- `map[k] = v` (insert or overwrite). -/
def insert : SMap K V → K → V → SMap K V
  | [], k, v => [(k, v)]
  | (k', v') :: m, k, v =>
    if k < k' then (k, v) :: (k', v') :: m
    else if k = k' then (k, v) :: m
    else (k', v') :: insert m k v

/-- `map.erase(k)`. -/
def erase : SMap K V → K → SMap K V
  | [], _ => []
  | (k', v') :: m, k => if k = k' then m else (k', v') :: erase m k

/-- The keys in iteration order. -/
def keys (m : SMap K V) : List K := m.map Prod.fst

/-- The values in iteration order. -/
def values (m : SMap K V) : List V := m.map Prod.snd

/-- Representation invariant of `std::map`: strictly increasing keys. -/
def Sorted (m : SMap K V) : Prop := m.Pairwise (fun a b => a.1 < b.1)

/-- `for (auto& [k, v] : entries) map[k] = v;` -/
def insertAll (m : SMap K V) (l : List (K × V)) : SMap K V :=
  l.foldl (fun m kv => m.insert kv.1 kv.2) m

theorem sorted_nil : Sorted ([] : SMap K V) := List.Pairwise.nil

theorem find?_insert (m : SMap K V) (k k₀ : K) (v : V) :
    find? (insert m k v) k₀ = if k₀ = k then some v else find? m k₀ := by
  induction m with
  | nil => simp [insert, find?]
  | cons a m ih =>
    obtain ⟨k', v'⟩ := a
    simp only [insert]
    split
    · simp [find?]
    · split
      · rename_i h; subst h; simp only [find?]; split <;> rfl
      · rename_i h1 h2
        simp only [find?, ih]
        split
        · rename_i h3; subst h3; rw [if_neg (fun h => h2 h.symm)]
        · rfl

theorem find?_none_of_lt {m : SMap K V} {k : K} (h : ∀ a ∈ m, k < a.1) : find? m k = none := by
  induction m with
  | nil => rfl
  | cons a m ih =>
    obtain ⟨k', v'⟩ := a
    have h1 : k < k' := h _ List.mem_cons_self
    simp only [find?, if_neg (ne_of_lt h1)]
    exact ih (fun a ha => h a (List.mem_cons_of_mem _ ha))

theorem find?_erase {m : SMap K V} (hm : Sorted m) (k k₀ : K) :
    find? (erase m k) k₀ = if k₀ = k then none else find? m k₀ := by
  induction m with
  | nil => simp [erase, find?]
  | cons a m ih =>
    obtain ⟨k', v'⟩ := a
    have hm' := List.pairwise_cons.mp hm
    simp only [erase]
    split
    · rename_i h; subst h
      simp only [find?]
      split
      · rename_i h; subst h; exact find?_none_of_lt (fun a ha => hm'.1 a ha)
      · rfl
    · rename_i h
      simp only [find?, ih hm'.2]
      split
      · rename_i h3; subst h3; rw [if_neg (fun h' => h h'.symm)]
      · rfl

theorem mem_insert {m : SMap K V} {k : K} {v : V} {a : K × V} (h : a ∈ insert m k v) :
    a = (k, v) ∨ a ∈ m := by
  induction m with
  | nil => simpa [insert] using h
  | cons b m ih =>
    obtain ⟨k', v'⟩ := b
    simp only [insert] at h
    split at h
    · simpa using h
    · split at h
      · rcases List.mem_cons.mp h with h | h
        · exact Or.inl h
        · exact Or.inr (List.mem_cons_of_mem _ h)
      · rcases List.mem_cons.mp h with h | h
        · exact Or.inr (h ▸ List.mem_cons_self)
        · rcases ih h with h | h
          · exact Or.inl h
          · exact Or.inr (List.mem_cons_of_mem _ h)

theorem sorted_insert {m : SMap K V} (hm : Sorted m) (k : K) (v : V) : Sorted (insert m k v) := by
  induction m with
  | nil => exact List.pairwise_singleton _ _
  | cons a m ih =>
    obtain ⟨k', v'⟩ := a
    have hm' := List.pairwise_cons.mp hm
    simp only [insert]
    split
    · rename_i h
      refine List.pairwise_cons.mpr ⟨?_, hm⟩
      intro b hb
      rcases List.mem_cons.mp hb with hb | hb
      · subst hb; exact h
      · exact lt_trans h (hm'.1 b hb)
    · split
      · rename_i h; subst h
        exact List.pairwise_cons.mpr ⟨fun b hb => hm'.1 b hb, hm'.2⟩
      · rename_i h1 h2
        refine List.pairwise_cons.mpr ⟨?_, ih hm'.2⟩
        intro b hb
        rcases mem_insert hb with hb | hb
        · subst hb; exact lt_of_le_of_ne (not_lt.mp h1) (fun h => h2 h.symm)
        · exact hm'.1 b hb

theorem erase_sublist (m : SMap K V) (k : K) : (erase m k).Sublist m := by
  induction m with
  | nil => exact List.Sublist.refl _
  | cons a m ih =>
    obtain ⟨k', v'⟩ := a
    simp only [erase]
    split
    · exact List.sublist_cons_self _ _
    · exact ih.cons_cons _

theorem sorted_erase {m : SMap K V} (hm : Sorted m) (k : K) : Sorted (erase m k) :=
  List.Pairwise.sublist (erase_sublist m k) hm

theorem sorted_insertAll {m : SMap K V} (hm : Sorted m) (l : List (K × V)) :
    Sorted (insertAll m l) := by
  induction l generalizing m with
  | nil => exact hm
  | cons a l ih => exact ih (sorted_insert hm a.1 a.2)

theorem mem_of_find? {m : SMap K V} {k : K} {v : V} (h : find? m k = some v) : (k, v) ∈ m := by
  induction m with
  | nil => simp [find?] at h
  | cons a m ih =>
    obtain ⟨k', v'⟩ := a
    simp only [find?] at h
    split at h
    · rename_i hk; subst hk; simp at h; subst h; exact List.mem_cons_self
    · exact List.mem_cons_of_mem _ (ih h)

theorem find?_of_mem {m : SMap K V} (hm : Sorted m) {k : K} {v : V} (h : (k, v) ∈ m) :
    find? m k = some v := by
  induction m with
  | nil => simp at h
  | cons a m ih =>
    obtain ⟨k', v'⟩ := a
    have hm' := List.pairwise_cons.mp hm
    simp only [find?]
    rcases List.mem_cons.mp h with h | h
    · obtain ⟨rfl, rfl⟩ := Prod.mk.inj h; simp
    · have := hm'.1 _ h
      rw [if_neg (ne_of_gt this)]
      exact ih hm'.2 h

theorem find?_iff_mem {m : SMap K V} (hm : Sorted m) {k : K} {v : V} :
    find? m k = some v ↔ (k, v) ∈ m := ⟨mem_of_find?, find?_of_mem hm⟩

theorem mem_keys_iff {m : SMap K V} {k : K} : k ∈ keys m ↔ (find? m k).isSome := by
  induction m with
  | nil => simp [keys, find?]
  | cons a m ih =>
    obtain ⟨k', v'⟩ := a
    simp only [keys, List.map_cons, List.mem_cons, find?]
    split
    · rename_i h; simp [h]
    · rename_i h; simp only [h, false_or]; exact ih

theorem keys_nodup {m : SMap K V} (hm : Sorted m) : (keys m).Nodup := by
  rw [keys, List.nodup_iff_pairwise_ne, List.pairwise_map]
  exact hm.imp (fun h => ne_of_lt h)

theorem keys_sorted {m : SMap K V} (hm : Sorted m) : (keys m).Pairwise (· < ·) := by
  rw [keys, List.pairwise_map]; exact hm

/-- Two sorted maps with the same lookups are the same map. -/
theorem ext_find? {m₁ m₂ : SMap K V} (h₁ : Sorted m₁) (h₂ : Sorted m₂)
    (h : ∀ k, find? m₁ k = find? m₂ k) : m₁ = m₂ := by
  induction m₁ generalizing m₂ with
  | nil =>
    cases m₂ with
    | nil => rfl
    | cons b m₂ => obtain ⟨k, v⟩ := b; have := h k; simp [find?] at this
  | cons a m₁ ih =>
    obtain ⟨k, v⟩ := a
    cases m₂ with
    | nil => have := h k; simp [find?] at this
    | cons b m₂ =>
      obtain ⟨k', v'⟩ := b
      have p₁ := List.pairwise_cons.mp h₁
      have p₂ := List.pairwise_cons.mp h₂
      have hk : k = k' := by
        rcases lt_trichotomy k k' with hlt | heq | hgt
        · have := h k
          simp only [find?, if_true] at this
          rw [if_neg (ne_of_lt hlt), find?_none_of_lt (fun a ha => lt_trans hlt (p₂.1 a ha))] at this
          simp at this
        · exact heq
        · have := h k'
          simp only [find?, if_true] at this
          rw [if_neg (ne_of_lt hgt), find?_none_of_lt (fun a ha => lt_trans hgt (p₁.1 a ha))] at this
          simp at this
      subst hk
      have hv := h k
      simp only [find?, if_true, Option.some.injEq] at hv
      subst hv
      congr 1
      apply ih p₁.2 p₂.2
      intro x
      by_cases hx : x = k
      · subst hx
        rw [find?_none_of_lt (fun a ha => p₁.1 a ha), find?_none_of_lt (fun a ha => p₂.1 a ha)]
      · have := h x
        simpa [find?, hx] using this

/-- Last write wins for a bulk insertion. -/
theorem find?_insertAll (m : SMap K V) (l : List (K × V)) (k : K) :
    find? (insertAll m l) k
      = match (l.reverse.find? (fun kv => decide (k = kv.1))) with
        | some kv => some kv.2
        | none => find? m k := by
  induction l generalizing m with
  | nil => rfl
  | cons a l ih =>
    simp only [insertAll, List.foldl_cons, List.reverse_cons, List.find?_append] at ih ⊢
    rw [ih]
    cases hl : l.reverse.find? (fun kv => decide (k = kv.1)) with
    | some kv => simp
    | none =>
      simp only [Option.none_or, find?_insert]
      by_cases hk : k = a.1
      · simp [hk]
      · simp [hk]

/-- Inserting all entries of a map: the later map wins, otherwise the old content shows. -/
theorem find?_insertAll_sorted (m : SMap K V) {l : SMap K V} (hl : Sorted l) (k : K) :
    find? (insertAll m l) k = (find? l k).or (find? m k) := by
  induction l generalizing m with
  | nil => rfl
  | cons a l ih =>
    obtain ⟨k', v'⟩ := a
    have hl' := List.pairwise_cons.mp hl
    show find? (insertAll (insert m k' v') l) k = _
    rw [ih _ hl'.2, find?_insert]
    simp only [find?]
    by_cases h : k = k'
    · subst h
      have : find? l k = none := find?_none_of_lt (fun a ha => hl'.1 a ha)
      simp [this]
    · simp [h]

end SMap

end Verif
