import Verif.Cache.Lemmas

/-!
# Properties of the caches (C01, C39)

Specification: the value a reference holds after a history of calls is determined by the most recent
relevant call in the history (`latest`), without any reference to the map.
-/

namespace Verif.Cache

open Verif

variable {K T : Type} [LinearOrder K]

/-- Specification. `latest h k`: `h` is the history with the MOST RECENT call first. -/
def latest : List (Op K T) → K → Option T
  | [], _ => none
  | .load r v :: h, k => if k = r then some v else latest h k
  | .evict r :: h, k => if k = r then none else latest h k
  | .evictMany rs :: h, k => if k ∈ rs then none else latest h k
  | .clear :: _, _ => none
  | .read _ :: h, k => latest h k
  | .readMany _ :: h, k => latest h k
  | .readAll :: h, k => latest h k
  | .references :: h, k => latest h k
  | .size :: h, k => latest h k

/-- Specification of the observable result of one call when the live content is `f`. -/
def OutSpec (f : K → Option T) : Op K T → Out K T → Prop
  | .load _ _, o => o = .unit
  | .clear, o => o = .unit
  | .read r, o => o = (match f r with | some v => .value v | none => .threw)
  | .evict r, o => o = (match f r with | some v => .value v | none => .threw)
  | .readMany rs, o => o = .values (rs.filterMap f)
  | .evictMany rs, o => o = .values (rs.eraseDups.filterMap f)
  | .references, o => ∃ ks, o = .refs ks ∧ ks.Pairwise (· < ·) ∧ ∀ k, k ∈ ks ↔ (f k).isSome
  | .readAll, o => ∃ ks : List K, o = .values (ks.filterMap f) ∧ ks.Pairwise (· < ·) ∧
      ∀ k, k ∈ ks ↔ (f k).isSome
  | .size, o => ∃ ks : List K, o = .num ks.length ∧ ks.Nodup ∧ ∀ k, k ∈ ks ↔ (f k).isSome

theorem run_latest_aux (ops : List (Op K T)) (c : SMap K T) (hc : c.Sorted) (h : List (Op K T))
    (hh : ∀ k, c.find? k = latest h k) (k : K) :
    (run c ops).find? k = latest (ops.reverse ++ h) k := by
  induction ops generalizing c h with
  | nil => simpa [run] using hh k
  | cons op ops ih =>
    have := ih (step c op).1 (step_sorted hc op) (op :: h) ?_
    · simpa [run] using this
    · intro k
      cases op with
      | load r v => simp [step, load, SMap.find?_insert, latest, hh]
      | evict r =>
        simp only [step, evict, latest]
        cases hr : c.find? r with
        | some v => simp [SMap.find?_erase hc, hh]
        | none =>
          simp only
          by_cases hk : k = r
          · subst hk; simp [hr]
          · simp [hk, hh]
      | evictMany rs => simp [step, evictMany_find? hc, latest, hh]
      | clear => simp [step, clear, SMap.find?, latest]
      | read r => simp only [step, latest]; split <;> exact hh k
      | readMany rs => exact hh k
      | readAll => exact hh k
      | references => exact hh k
      | size => exact hh k

/-- **C01** (content). After any history of calls on a fresh cache, the value stored under every
reference is the one given by the most recent relevant call. -/
theorem cache_content (ops : List (Op K T)) (k : K) :
    (run [] ops).find? k = latest ops.reverse k := by
  simpa using run_latest_aux ops [] SMap.sorted_nil [] (fun _ => rfl) k

/-- **C01** (observations). After any history of calls, every further call returns exactly what the
history-based specification prescribes: read/evict return the latest loaded value or throw, bulk
read/evict skip missing references and keep the asked order (a repeated reference is evicted once),
`references()` lists every live reference once in key order, `size()` counts them. -/
theorem cache_observations (ops : List (Op K T)) (op : Op K T) :
    OutSpec (latest ops.reverse) op (step (run [] ops) op).2 := by
  have hs : (run [] ops : SMap K T).Sorted := run_sorted SMap.sorted_nil ops
  have hf : (run [] ops : SMap K T).find? = latest ops.reverse := funext (cache_content ops)
  have hkeys : ∀ k, k ∈ SMap.keys (run [] ops : SMap K T) ↔ (latest ops.reverse k).isSome := by
    intro k; rw [SMap.mem_keys_iff, hf]
  cases op with
  | load r v => rfl
  | clear => rfl
  | read r => simp only [OutSpec, step, read, hf]; split <;> simp_all
  | evict r =>
    simp only [OutSpec, step, evict]
    rw [← hf]
    cases h : SMap.find? (run [] ops) r <;> rfl
  | readMany rs => simp only [OutSpec, step, readMany_eq, hf]
  | evictMany rs => simp only [OutSpec, step, evictMany_values hs, hf]
  | references => exact ⟨SMap.keys (run [] ops), rfl, SMap.keys_sorted hs, hkeys⟩
  | readAll =>
    refine ⟨SMap.keys (run [] ops), ?_, SMap.keys_sorted hs, hkeys⟩
    simp only [step, Out.values.injEq, ← hf, readAll, SMap.keys, List.filterMap_map]
    rw [← List.filterMap_eq_map]
    refine List.filterMap_congr (fun a ha => ?_)
    exact (SMap.find?_of_mem hs ha).symm
  | size =>
    refine ⟨SMap.keys (run [] ops), ?_, SMap.keys_nodup hs, hkeys⟩
    simp [step, size, SMap.keys]

/-- A non-trivial history: overwrite, bulk evict with a repeated and a missing reference, reload. -/
example : (step (run [] [Op.load 3 "a", .load 1 "b", .load 3 "c", .evictMany [3, 7, 3], .load 2 "d"])
    (.readMany [2, 3, 1, 2])).2 = Out.values ["d", "b", "d"] := by decide

/-! ## Energy memo -/

variable {E : Type} [LinearOrder E]

/-- **C39** (fresh memo). Right after computing the energies, filtering by energy returns, in key order
and without repetition, exactly the references whose catalogue entry has its energy in the window. -/
theorem energy_filter_correct (f : T → E) (m : MCache K T E) (hs : m.store.Sorted) (lo : E) (hi : Option E) :
    (filterByEnergy (computeEnergy f m) lo hi).Pairwise (· < ·) ∧
    ∀ k, k ∈ filterByEnergy (computeEnergy f m) lo hi ↔
      ∃ v, m.store.find? k = some v ∧ lo ≤ f v ∧ ∀ h ∈ hi, f v ≤ h := by
  have he : (computeEnergy f m).energy = m.store.map (fun kv => (kv.1, f kv.2)) :=
    insertAll_nil_eq (sorted_map hs f)
  constructor
  · unfold filterByEnergy
    rw [he, List.pairwise_map]
    exact List.Pairwise.sublist List.filter_sublist (sorted_map hs f)
  · intro k
    unfold filterByEnergy
    rw [he]
    simp only [List.mem_map, List.mem_filter]
    constructor
    · rintro ⟨a, ⟨⟨⟨k', v⟩, hkv, rfl⟩, hp⟩, rfl⟩
      refine ⟨v, SMap.find?_of_mem hs hkv, ?_⟩
      cases hi with
      | none => simpa using hp
      | some h => simpa using hp
    · rintro ⟨v, hv, hlo, hhi⟩
      refine ⟨(k, f v), ⟨⟨(k, v), SMap.mem_of_find? hv, rfl⟩, ?_⟩, rfl⟩
      cases hi with
      | none => simpa using hlo
      | some h => simpa using ⟨hlo, hhi h rfl⟩

/-- **C39** (maximum). The maximum reported is attained by a catalogue entry and no entry exceeds it;
an empty memo throws. -/
theorem energy_maximum_correct (f : T → E) (m : MCache K T E) (hs : m.store.Sorted) :
    match maximumEnergy (computeEnergy f m) with
    | none => m.store = []
    | some (k, e) => (∃ v, m.store.find? k = some v ∧ f v = e) ∧
        ∀ k' v', m.store.find? k' = some v' → f v' ≤ e := by
  have he : (computeEnergy f m).energy = m.store.map (fun kv => (kv.1, f kv.2)) :=
    insertAll_nil_eq (sorted_map hs f)
  unfold maximumEnergy
  rw [he]
  cases hm : m.store with
  | nil => simp [maxElement]
  | cons a l =>
    have key := foldl_max_ge (l.map (fun kv => (kv.1, f kv.2))) (a.1, f a.2)
    simp only [List.map_cons, maxElement]
    obtain ⟨h1, h2, h3⟩ := key
    generalize hr : List.foldl (fun best x => if best.2 < x.2 then x else best) (a.1, f a.2)
      (List.map (fun kv => (kv.1, f kv.2)) l) = r at h1 h2 h3
    obtain ⟨k, e⟩ := r
    have h3' : (k, e) ∈ (a :: l).map (fun kv => (kv.1, f kv.2)) := h3
    obtain ⟨⟨k₀, v₀⟩, hmem, heq⟩ := List.mem_map.mp h3'
    simp only [Prod.mk.injEq] at heq
    obtain ⟨rfl, rfl⟩ := heq
    rw [hm] at hs
    refine ⟨⟨v₀, SMap.find?_of_mem hs hmem, rfl⟩, ?_⟩
    intro k' v' hk'
    rcases List.mem_cons.mp (SMap.mem_of_find? hk') with h | h
    · rw [← h] at h1; exact h1
    · exact h2 (k', f v') (List.mem_map.mpr ⟨(k', v'), h, rfl⟩)

/-- **C39** (after a clear). Nothing is readable and no window returns a reference. -/
theorem energy_filter_after_clear (m : MCache K T E) (lo : E) (hi : Option E) (ref : K) :
    filterByEnergy (mclear m) lo hi = [] ∧ maximumEnergy (mclear m) = none ∧ readEnergy (mclear m) ref = none ∧
      read (mclear m).store ref = none := ⟨rfl, rfl, rfl, rfl⟩

/-- **C39** (single read). Right after computing the energies, a reference has an energy exactly when the catalogue
can read it, and it is the energy of what the catalogue reads. -/
theorem energy_read_correct (f : T → E) (m : MCache K T E) (hs : m.store.Sorted) (ref : K) :
    readEnergy (computeEnergy f m) ref = (read m.store ref).map f := by
  have he : (computeEnergy f m).energy = m.store.map (fun kv => (kv.1, f kv.2)) :=
    insertAll_nil_eq (sorted_map hs f)
  unfold readEnergy read
  rw [he]
  clear he hs
  induction m.store with
  | nil => rfl
  | cons a l ih =>
    obtain ⟨k, v⟩ := a
    simp only [List.map_cons, SMap.find?]
    split
    · rfl
    · exact ih

/-- **C39**, negation for the code as it is: the memo is not invalidated by `evict`, so the energy filter
can hand out a reference that the catalogue can no longer read. -/
theorem energy_filter_stale_after_evict :
    ∃ (m : MCache Nat Nat Nat), m.store.Sorted ∧
      ∃ k ∈ filterByEnergy (mevict (computeEnergy id m) 1) 0 none,
        read (mevict (computeEnergy id m) 1).store k = none :=
  ⟨⟨[(1, 5), (2, 6)], []⟩, by simp [SMap.Sorted], 1, by decide, by decide⟩

/-- **C39**, negation: a magnetic loaded after the energies were computed is never returned. -/
theorem energy_filter_misses_after_load :
    ∃ (m : MCache Nat Nat Nat), m.store.Sorted ∧
      (∃ v, read (mload (computeEnergy id m) 2 9).store 2 = some v ∧ 0 ≤ v) ∧
      2 ∉ filterByEnergy (mload (computeEnergy id m) 2 9) 0 none :=
  ⟨⟨[(1, 5)], []⟩, by simp [SMap.Sorted], ⟨9, by decide, by decide⟩, by decide⟩

example : filterByEnergy (computeEnergy (fun n : Nat => n * n)
    (⟨[(1, 5), (2, 3), (4, 7)], [(9, 9)]⟩ : MCache Nat Nat Nat)) 20 (some 30) = [1] := by decide

end Verif.Cache
