import Verif.Lookups.Model
import Mathlib.Tactic.Linarith

/-! # Properties C29 and C30: lookups by name and the memoised wire query -/

namespace Verif.Lookups

open Verif

set_option linter.unusedSectionVars false

variable {K I : Type} [LinearOrder K]

/-! ## C30 -/

/-- **C30 (exact catalogues)**: a lookup returns `v` iff the catalogue has the entry `(name, v)`. -/
theorem findExact_iff (db : SMap K I) (hdb : SMap.Sorted db) (name : K) (v : I) :
    findExact db name = some v ↔ (name, v) ∈ db := SMap.find?_iff_mem hdb

/-- **C30 (exact catalogues)**: the lookup throws iff no entry has the name. -/
theorem findExact_none_iff (db : SMap K I) (name : K) :
    findExact db name = none ↔ ∀ kv ∈ db, kv.1 ≠ name := by
  have := SMap.mem_keys_iff (m := db) (k := name)
  unfold findExact
  rw [← Option.not_isSome_iff_eq_none, ← this, SMap.keys]
  simp only [List.mem_map, not_exists, not_and]

/-- **C30 (bobbins)**: a loaded bobbin wins over a sentinel; otherwise only sentinels give the placeholder. -/
theorem findBobbin_spec (sent : List K) (b0 : I) (db : SMap K I) (name : K) :
    (∀ v, findExact db name = some v → findBobbin sent b0 db name = some v) ∧
    ((∀ kv ∈ db, kv.1 ≠ name) →
      findBobbin sent b0 db name = if name ∈ sent then some b0 else none) := by
  refine ⟨fun v hv => ?_, fun h => ?_⟩
  · unfold findExact at hv; simp [findBobbin, hv]
  · have hv := (findExact_none_iff db name).mpr h
    unfold findExact at hv
    simp [findBobbin, hv]

/-- **C30 (cores)**: `find_core_by_name` returns the first core with that name in catalogue order; nameless
cores before it are not an obstacle. -/
theorem findCore_some (nameOf : I → Option K) (cs : List I) (name : K) (c : I)
    (h : findCore nameOf cs name = some c) :
    ∃ pre post, cs = pre ++ c :: post ∧ nameOf c = some name ∧ ∀ c' ∈ pre, nameOf c' ≠ some name := by
  induction cs with
  | nil => simp [findCore] at h
  | cons a cs ih =>
    simp only [findCore] at h
    split at h
    · rename_i hn
      obtain ⟨pre, post, e, h1, h2⟩ := ih h
      refine ⟨a :: pre, post, by rw [e]; rfl, h1, ?_⟩
      intro c' hc'
      rcases List.mem_cons.mp hc' with hc' | hc'
      · rw [hc', hn]; simp
      · exact h2 c' hc'
    · rename_i n hn
      split at h
      · rename_i heq
        simp at h; subst h
        exact ⟨[], cs, rfl, by rw [hn, heq], by simp⟩
      · rename_i hne
        obtain ⟨pre, post, e, h1, h2⟩ := ih h
        refine ⟨a :: pre, post, by rw [e]; rfl, h1, ?_⟩
        intro c' hc'
        rcases List.mem_cons.mp hc' with hc' | hc'
        · rw [hc', hn]; simpa using hne
        · exact h2 c' hc'

/-- **C30 (cores)**: it throws exactly when no core carries the name. -/
theorem findCore_none_iff (nameOf : I → Option K) (cs : List I) (name : K) :
    findCore nameOf cs name = none ↔ ∀ c ∈ cs, nameOf c ≠ some name := by
  induction cs with
  | nil => simp [findCore]
  | cons a cs ih =>
    simp only [findCore, List.mem_cons, forall_eq_or_imp]
    split
    · rename_i hn; rw [ih, hn]; simp
    · rename_i n hn
      split
      · rename_i heq; rw [hn, heq]; simp
      · rename_i hne; rw [ih, hn]; simp [hne]

theorem scanCommercial_some (cn : I → K) (db : SMap K I) (name : K) (m : I)
    (h : scanCommercial cn db name = some m) : ∃ k, (k, m) ∈ db ∧ cn m = name := by
  induction db with
  | nil => simp [scanCommercial] at h
  | cons a db ih =>
    obtain ⟨k, v⟩ := a
    simp only [scanCommercial] at h
    split at h
    · rename_i heq; simp at h; subst h; exact ⟨k, List.mem_cons_self, heq⟩
    · obtain ⟨k', h1, h2⟩ := ih h; exact ⟨k', List.mem_cons_of_mem _ h1, h2⟩

theorem scanCommercial_none_iff (cn : I → K) (db : SMap K I) (name : K) :
    scanCommercial cn db name = none ↔ ∀ kv ∈ db, cn kv.2 ≠ name := by
  induction db with
  | nil => simp [scanCommercial]
  | cons a db ih =>
    obtain ⟨k, v⟩ := a
    simp only [scanCommercial, List.mem_cons, forall_eq_or_imp]
    split
    · rename_i heq; simp [heq]
    · rename_i hne; rw [ih]; simp [hne]

/-- **C30 (core materials)**: the result carries the (normalised) query as its catalogue name; only if no
material has that name, it is one whose commercial name is the query; it throws exactly when neither exists. -/
theorem findMaterial_spec (norm : K → K) (cn : I → K) (db : SMap K I) (hdb : SMap.Sorted db) (q : K) :
    (∀ v, (norm q, v) ∈ db → findMaterial norm cn db q = some v) ∧
    (∀ m, findMaterial norm cn db q = some m → (norm q, m) ∈ db ∨
      ((∀ kv ∈ db, kv.1 ≠ norm q) ∧ ∃ k, (k, m) ∈ db ∧ cn m = norm q)) ∧
    (findMaterial norm cn db q = none ↔ ∀ kv ∈ db, kv.1 ≠ norm q ∧ cn kv.2 ≠ norm q) := by
  refine ⟨fun v hv => ?_, fun m hm => ?_, ?_⟩
  · have := SMap.find?_of_mem hdb hv
    simp [findMaterial, this]
  · unfold findMaterial at hm
    split at hm
    · rename_i v hv
      simp at hm; subst hm
      exact Or.inl (SMap.mem_of_find? hv)
    · rename_i hv
      exact Or.inr ⟨(findExact_none_iff db _).mp hv, scanCommercial_some _ _ _ _ hm⟩
  · unfold findMaterial
    constructor
    · intro h kv hkv
      split at h
      · simp at h
      · rename_i hv
        exact ⟨(findExact_none_iff db _).mp hv kv hkv, (scanCommercial_none_iff _ _ _).mp h kv hkv⟩
    · intro h
      have h1 : db.find? (norm q) = none := (findExact_none_iff db _).mpr (fun kv hkv => (h kv hkv).1)
      rw [h1]
      exact (scanCommercial_none_iff _ _ _).mpr (fun kv hkv => (h kv hkv).2)

theorem scanStripped_some (strip : K → K) (db : SMap K I) (name : K) (v : I)
    (h : scanStripped strip db name = some v) : ∃ k, (k, v) ∈ db ∧ strip k = name := by
  induction db with
  | nil => simp [scanStripped] at h
  | cons a db ih =>
    obtain ⟨k, w⟩ := a
    simp only [scanStripped] at h
    split at h
    · rename_i heq; simp at h; subst h; exact ⟨k, List.mem_cons_self, heq.symm⟩
    · obtain ⟨k', h1, h2⟩ := ih h; exact ⟨k', List.mem_cons_of_mem _ h1, h2⟩

theorem scanStripped_none_iff (strip : K → K) (db : SMap K I) (name : K) :
    scanStripped strip db name = none ↔ ∀ kv ∈ db, strip kv.1 ≠ name := by
  induction db with
  | nil => simp [scanStripped]
  | cons a db ih =>
    obtain ⟨k, w⟩ := a
    simp only [scanStripped, List.mem_cons, forall_eq_or_imp]
    split
    · rename_i heq; simp [heq]
    · rename_i hne; rw [ih]; simp [Ne.symm hne]

/-- **C30 (core shapes)**: an exact name always wins; otherwise the result is a shape whose name without
spaces is the query; it fails exactly when there is neither. -/
theorem tryFindShape_spec (strip : K → K) (db : SMap K I) (hdb : SMap.Sorted db) (q : K) :
    (∀ v, (q, v) ∈ db → tryFindShape strip db q = some v) ∧
    (∀ v, tryFindShape strip db q = some v → (q, v) ∈ db ∨
      ((∀ kv ∈ db, kv.1 ≠ q) ∧ ∃ k, (k, v) ∈ db ∧ strip k = q)) ∧
    (tryFindShape strip db q = none ↔ ∀ kv ∈ db, kv.1 ≠ q ∧ strip kv.1 ≠ q) ∧
    (shapeExists strip db q = true ↔ ∃ kv ∈ db, kv.1 = q ∨ strip kv.1 = q) := by
  have hnone : tryFindShape strip db q = none ↔ ∀ kv ∈ db, kv.1 ≠ q ∧ strip kv.1 ≠ q := by
    unfold tryFindShape
    constructor
    · intro h kv hkv
      split at h
      · simp at h
      · rename_i hv
        exact ⟨(findExact_none_iff db _).mp hv kv hkv, (scanStripped_none_iff _ _ _).mp h kv hkv⟩
    · intro h
      have h1 : db.find? q = none := (findExact_none_iff db _).mpr (fun kv hkv => (h kv hkv).1)
      rw [h1]
      exact (scanStripped_none_iff _ _ _).mpr (fun kv hkv => (h kv hkv).2)
  refine ⟨fun v hv => ?_, fun m hm => ?_, hnone, ?_⟩
  · have := SMap.find?_of_mem hdb hv
    simp [tryFindShape, this]
  · unfold tryFindShape at hm
    split at hm
    · rename_i v hv
      simp at hm; subst hm
      exact Or.inl (SMap.mem_of_find? hv)
    · rename_i hv
      exact Or.inr ⟨(findExact_none_iff db _).mp hv, scanStripped_some _ _ _ _ hm⟩
  · rw [shapeExists, Option.isSome_iff_ne_none, Ne, hnone]
    constructor
    · intro h
      by_contra hc
      refine h fun kv hkv => ⟨fun e => hc ⟨kv, hkv, Or.inl e⟩, fun e => hc ⟨kv, hkv, Or.inr e⟩⟩
    · rintro ⟨kv, hkv, h⟩ hall
      exact h.elim (hall kv hkv).1 (hall kv hkv).2

/-- Non-trivial cases: nameless core skipped, commercial-name fallback, stripped-name fallback. -/
example : findCore (fun c : Nat × Option Nat => c.2) [(1, none), (2, some 7), (3, some 7)] 7
    = some (2, some 7) := by decide
example : findMaterial (fun q : Nat => q) (fun m : Nat => m + 1) [(1, 5), (2, 8)] 9 = some 8 := by decide
example : tryFindShape (fun k : Nat => k / 10) [(45, 1), (72, 2)] 7 = some 2 := by decide

/-! ## C29 -/

section Wires

variable {T S : Type} [DecidableEq T] [DecidableEq S]

/-- Specification: a wire satisfies the query when its type is the asked one (if any) and it declares the
asked standard (if any). -/
def Wanted (typeOf : I → T) (standardOf : I → Option S) (t : Option T) (s : Option S) (w : I) : Bool :=
  (match t with | none => true | some t => decide (typeOf w = t)) &&
  (match s with | none => true | some s => decide (standardOf w = some s))

/-- The loop returns exactly the wanted wires, in catalogue order. -/
theorem filterWires_eq (typeOf : I → T) (standardOf : I → Option S) (t : Option T) (s : Option S)
    (db : SMap K I) :
    filterWires typeOf standardOf t s db = (db.map Prod.snd).filter (Wanted typeOf standardOf t s) := by
  induction db with
  | nil => rfl
  | cons a db ih =>
    obtain ⟨k, w⟩ := a
    simp only [filterWires, List.map_cons, List.filter_cons, ih, Wanted]
    cases s with
    | none =>
      cases t with
      | none => simp
      | some t => by_cases h : typeOf w = t <;> simp [h]
    | some s =>
      obtain hs | ⟨s', hs⟩ : standardOf w = none ∨ ∃ s', standardOf w = some s' := by
        cases standardOf w <;> simp
      · have h0 : standardOf w ≠ some s := by simp [hs]
        simp [hs]
      · by_cases h1 : s' = s
        · subst h1
          cases t with
          | none => simp [hs]
          | some t => by_cases h : typeOf w = t <;> simp [h, hs]
        · have h0 : standardOf w ≠ some s := by simp [hs, h1]
          simp [hs, h1, h0]

/-- In a history of queries, a catalogue of the same size as at the previous query is the same catalogue. -/
def SizeTells : List (SMap K I × Option T × Option S) → Prop
  | [] => True
  | [_] => True
  | (db, _) :: (db', x) :: qs => (db.length = db'.length → db = db') ∧ SizeTells ((db', x) :: qs)

theorem getWires_inv (typeOf : I → T) (standardOf : I → Option S) (m : Memo I T S) (db : SMap K I)
    (t : Option T) (s : Option S)
    (hm : m.size = db.length → ∀ t s ws, m.get (t, s) = some ws →
      ws = (db.map Prod.snd).filter (Wanted typeOf standardOf t s)) :
    let r := getWires typeOf standardOf m db t s
    r.1 = (db.map Prod.snd).filter (Wanted typeOf standardOf t s) ∧ r.2.size = db.length ∧
    ∀ t s ws, r.2.get (t, s) = some ws → ws = (db.map Prod.snd).filter (Wanted typeOf standardOf t s) := by
  have aux : ∀ m' : Memo I T S, m'.size = db.length →
      (∀ t s ws, m'.get (t, s) = some ws →
        ws = (db.map Prod.snd).filter (Wanted typeOf standardOf t s)) →
      let r : List I × Memo I T S := match m'.get (t, s) with
        | some ws => (ws, m')
        | none => (filterWires typeOf standardOf t s db,
            { m' with entries := ((t, s), filterWires typeOf standardOf t s db) :: m'.entries })
      r.1 = (db.map Prod.snd).filter (Wanted typeOf standardOf t s) ∧ r.2.size = db.length ∧
      ∀ t s ws, r.2.get (t, s) = some ws →
        ws = (db.map Prod.snd).filter (Wanted typeOf standardOf t s) := by
    intro m' hsz hok
    cases hg : m'.get (t, s) with
    | some ws => exact ⟨hok t s ws hg, hsz, hok⟩
    | none =>
      refine ⟨filterWires_eq _ _ _ _ _, hsz, ?_⟩
      intro t' s' ws hws
      simp only [Memo.get, List.find?_cons] at hws
      by_cases hkey : ((t, s) : Option T × Option S) = (t', s')
      · simp only [hkey, decide_true] at hws
        simp at hws
        simp only [Prod.mk.injEq] at hkey
        rw [← hws, filterWires_eq, hkey.1, hkey.2]
      · simp only [hkey, decide_false] at hws
        exact hok t' s' ws hws
  by_cases hsz : m.size = db.length
  · have hif : (if m.size ≠ db.length then (⟨[], db.length⟩ : Memo I T S) else m) = m := by simp [hsz]
    simp only [getWires, hif]
    exact aux m hsz (hm hsz)
  · have hif : (if m.size ≠ db.length then (⟨[], db.length⟩ : Memo I T S) else m) = ⟨[], db.length⟩ := by
      simp [hsz]
    simp only [getWires, hif]
    refine aux ⟨[], db.length⟩ rfl ?_
    intro t s ws h; simp [Memo.get] at h

/-- **C29 (partial)**: if a catalogue seen at two consecutive queries of a thread with the same number of
wires is the same catalogue, every query returns exactly the wanted wires of the current catalogue.
Missing: replacements that keep the number of wires, see `get_wires_stale`. -/
theorem get_wires_correct_partial (typeOf : I → T) (standardOf : I → Option S)
    (qs : List (SMap K I × Option T × Option S)) (h : SizeTells qs) :
    runQueries typeOf standardOf Memo.empty qs
      = qs.map (fun q => (q.1.map Prod.snd).filter (Wanted typeOf standardOf q.2.1 q.2.2)) := by
  suffices H : ∀ m : Memo I T S, (∀ q ∈ qs.head?, m.size = q.1.length → ∀ t s ws, m.get (t, s) = some ws →
      ws = (q.1.map Prod.snd).filter (Wanted typeOf standardOf t s)) →
      runQueries typeOf standardOf m qs
      = qs.map (fun q => (q.1.map Prod.snd).filter (Wanted typeOf standardOf q.2.1 q.2.2)) by
    refine H Memo.empty ?_
    intro q _ _ t s ws h; simp [Memo.get, Memo.empty] at h
  induction qs with
  | nil => intro m _; rfl
  | cons q qs ih =>
    obtain ⟨db, t, s⟩ := q
    intro m hm
    have hi := getWires_inv typeOf standardOf m db t s (hm _ rfl)
    simp only [runQueries, List.map_cons]
    rw [hi.1, ih]
    · cases qs with
      | nil => trivial
      | cons q' qs => exact h.2
    · intro q' hq' hsz
      cases qs with
      | nil => simp at hq'
      | cons q'' qs =>
        simp at hq'; subst hq'
        have : db = q''.1 := h.1 (hi.2.1.symm.trans hsz)
        rw [← this]
        exact hi.2.2

/-- **C29 is false as stated**: after the wire catalogue is replaced by another one with the same number of
wires (for instance in a Replace scope), `get_wires` still answers from the old one. -/
theorem get_wires_stale :
    runQueries (K := Nat) (I := Nat) (T := Nat) (S := Nat) (fun w => w % 2) (fun _ => some 0) Memo.empty
      [([(1, 10)], none, none), ([(2, 20)], none, none)] = [[10], [10]] := by decide

/-- A history that meets `SizeTells`: growth, repetition, shrinking. -/
example : SizeTells (K := Nat) (I := Nat) (T := Nat) (S := Nat)
    [([(1, 10)], none, none), ([(1, 10)], some 0, none), ([(1, 10), (2, 20)], none, some 0), ([], none, none)] := by
  simp [SizeTells]

end Wires

end Verif.Lookups
