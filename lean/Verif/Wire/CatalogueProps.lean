import Mathlib.Data.Rat.Floor
import Mathlib.Tactic.Linarith
import Mathlib.Tactic.FieldSimp
import Mathlib.Tactic.Ring
import Mathlib.Tactic.NormNum
import Verif.Wire.Catalogue

/-!
# Properties of the diameters and filling factors read off the catalogue

Specification: a spline passes through its points when there are three or more of them, in increasing order; the wire a catalogue has of a
diameter is the first one listed with it that meets what is asked.
-/

namespace Verif.Wire

open Verif.WireByDim (WireType)

set_option linter.unusedSectionVars false

variable {K : Type} [Field K] [LinearOrder K] [IsStrictOrderedRing K]

/-! ## Lemmas on lists -/

section lists

variable {α : Type} (key : α → K)

theorem find_orderedInsert (a : α) (x : K) : ∀ l : List α,
    (l.orderedInsert (fun a b => key a ≤ key b) a).find? (fun r => decide (key r = x)) =
      if key a = x then some a else l.find? (fun r => decide (key r = x))
  | [] => by
    by_cases h : key a = x <;> simp [h]
  | b :: l => by
    rw [List.orderedInsert]
    split_ifs with h1 h2 h2
    · simp [h2]
    · simp [h2]
    · have : key b ≠ x := by
        intro h
        rw [h2, h] at h1
        exact h1 (le_refl _)
      rw [List.find?_cons_of_neg (by simpa using this), find_orderedInsert a x l, if_pos h2]
    · by_cases hb : key b = x
      · rw [List.find?_cons_of_pos (by simpa using hb), List.find?_cons_of_pos (by simpa using hb)]
      · rw [List.find?_cons_of_neg (by simpa using hb), List.find?_cons_of_neg (by simpa using hb), find_orderedInsert a x l, if_neg h2]

/-- The sort is stable: the first with an abscissa is the first it was. -/
theorem find_sortBy (x : K) : ∀ l : List α, (sortBy key l).find? (fun r => decide (key r = x)) = l.find? (fun r => decide (key r = x))
  | [] => rfl
  | a :: l => by
    unfold sortBy
    rw [List.insertionSort_cons, find_orderedInsert]
    have ih := find_sortBy x l
    unfold sortBy at ih
    rw [ih]
    split_ifs with h
    · rw [List.find?_cons_of_pos (by simpa using h)]
    · rw [List.find?_cons_of_neg (by simpa using h)]

theorem find_firsts (x : K) : ∀ (last : Option K) (l : List α), last ≠ some x →
    (firsts key last l).find? (fun r => decide (key r = x)) = l.find? (fun r => decide (key r = x))
  | _, [], _ => rfl
  | last, r :: rs, h => by
    rw [firsts]
    split_ifs with h1
    · have : key r ≠ x := fun e => h (by rw [h1, e])
      rw [List.find?_cons_of_neg (by simpa using this)]
      exact find_firsts x last rs h
    · by_cases hr : key r = x
      · rw [List.find?_cons_of_pos (by simpa using hr), List.find?_cons_of_pos (by simpa using hr)]
      · rw [List.find?_cons_of_neg (by simpa using hr), List.find?_cons_of_neg (by simpa using hr)]
        exact find_firsts x _ rs (by simpa using hr)

theorem sorted_sortBy (l : List α) : (sortBy key l).Pairwise (fun a b => key a ≤ key b) := by
  unfold sortBy
  haveI : IsTrans α (fun a b => key a ≤ key b) := ⟨fun _ _ _ h h' => le_trans h h'⟩
  haveI : Std.Total (α := α) (fun a b => key a ≤ key b) := ⟨fun a b => le_total _ _⟩
  exact List.pairwise_insertionSort _ _

theorem firsts_sub : ∀ (last : Option K) (l : List α), ∀ r ∈ firsts key last l, r ∈ l
  | _, [], r, h => by simp [firsts] at h
  | last, a :: l, r, h => by
    rw [firsts] at h
    split_ifs at h
    · exact List.mem_cons_of_mem _ (firsts_sub last l r h)
    · rcases List.mem_cons.mp h with h | h
      · exact h ▸ List.mem_cons_self
      · exact List.mem_cons_of_mem _ (firsts_sub _ l r h)

theorem firsts_increasing : ∀ (last : Option K) (l : List α), l.Pairwise (fun a b => key a ≤ key b) →
    (∀ x, last = some x → ∀ r ∈ l, x ≤ key r) →
    (firsts key last l).Pairwise (fun a b => key a < key b) ∧ ∀ x, last = some x → ∀ r ∈ firsts key last l, x < key r
  | _, [], _, _ => by simp [firsts]
  | last, a :: l, hs, hl => by
    rw [List.pairwise_cons] at hs
    rw [firsts]
    split_ifs with h
    · exact firsts_increasing last l hs.2 fun x hx r hr => hl x hx r (List.mem_cons_of_mem _ hr)
    · have ih := firsts_increasing (some (key a)) l hs.2 fun x hx r hr => by
        simp only [Option.some.injEq] at hx
        exact hx ▸ hs.1 r hr
      refine ⟨List.pairwise_cons.mpr ⟨fun r hr => ih.2 _ rfl r hr, ih.1⟩, fun x hx r hr => ?_⟩
      have hxa : x < key a := lt_of_le_of_ne (hl x hx a List.mem_cons_self) fun e => h (by rw [hx, e])
      rcases List.mem_cons.mp hr with e | e
      · exact e ▸ hxa
      · exact hxa.trans (ih.2 _ rfl r e)

end lists

/-! ## C172 -/

/-- A spline that passes through its points. -/
def Passes (spline : List (K × K) → K → K) : Prop :=
  ∀ points : List (K × K), points.Pairwise (fun a b => a.1 < b.1) → 3 ≤ points.length → ∀ p ∈ points, spline points p.1 = p.2

/-- A wire that is all that is asked of it: of the type, the standard and the kind of coating; with the grade, layers and thickness that are asked, if they
are; and with several conductors if several are asked. -/
def Meets (q : Query K) (r : Row K) : Prop :=
  r.type = q.type ∧ r.standard = some q.standard ∧ (1 < q.conductors → 1 < r.conductors) ∧ ∃ c, r.coating = some c ∧ c.kind = q.kind ∧
    (∀ g, q.grade = some g → c.grade = some g) ∧ (∀ n, q.layers = some n → c.layers = some n) ∧ ∀ t, q.thickness = some t → c.thickness = some t

/-- C172: the wires of the catalogue that are used are those that are all that is asked. -/
theorem matching_iff (q : Query K) (r : Row K) : matching q r = true ↔ Meets q r := by
  have hm : ∀ {α : Type} [DecidableEq α] (a g : Option α), meets a g = true ↔ ∀ x, a = some x → g = some x := by
    intro α _ a g
    cases a <;> simp [meets]
  unfold matching Meets
  cases hc : r.coating with
  | none => simp
  | some c =>
    simp only [Bool.and_eq_true, Bool.or_eq_true, decide_eq_true_eq, hm, Option.some.injEq, exists_eq_left']
    constructor
    · rintro ⟨h1, ⟨⟨⟨⟨h2, h3⟩, h4⟩, h5⟩, h6⟩, h7⟩
      exact ⟨h1, h7, fun h => h3.resolve_left (by omega), h5, h2, h4, h6⟩
    · rintro ⟨h1, h7, h3, h5, h2, h4, h6⟩
      refine ⟨h1, ⟨⟨⟨⟨h2, ?_⟩, h4⟩, h5⟩, h6⟩, h7⟩
      by_cases h : q.conductors ≤ 1
      · exact Or.inl h
      · exact Or.inr (h3 (by omega))

/-- The wire a catalogue has of a diameter for what is asked. -/
def listed (catalogue : List (Row K)) (q : Query K) (d : K) : Option (Row K) :=
  (catalogue.filter (matching q)).find? fun r => decide (r.conducting = d)

/-- The catalogue has three or more diameters for what is asked. -/
def Three (catalogue : List (Row K)) (q : Query K) : Prop :=
  ∃ a b c : Row K, a ∈ catalogue.filter (matching q) ∧ b ∈ catalogue.filter (matching q) ∧ c ∈ catalogue.filter (matching q) ∧
    a.conducting < b.conducting ∧ b.conducting < c.conducting

/-- The rows of the table built: in increasing order of different diameters, with the wire listed of each, and all within the limits. -/
theorem build_spec {π : K} {catalogue : List (Row K)} {q : Query K} {air : Bool} {t : Table K} (h : build π catalogue q air = some t) :
    ∃ rows : List (Row K), rows.Pairwise (fun a b => a.conducting < b.conducting) ∧
      (∀ d : K, rows.find? (fun r => decide (r.conducting = d)) = listed catalogue q d) ∧
      t.filling = rows.map (fun r => (r.conducting, fillingOf π air r)) ∧ t.proportion = rows.map (fun r => (r.conducting, proportionOf r)) ∧
      (∀ r ∈ catalogue.filter (matching q), t.lowest ≤ r.conducting ∧ r.conducting ≤ t.highest) ∧
      (∃ r ∈ catalogue.filter (matching q), r.conducting = t.lowest) ∧ ∃ r ∈ catalogue.filter (matching q), r.conducting = t.highest := by
  unfold build at h
  set sorted := sortBy Row.conducting (catalogue.filter (matching q)) with hsorted
  have hs : sorted.Pairwise (fun a b => a.conducting ≤ b.conducting) := sorted_sortBy Row.conducting _
  have hperm : sorted.Perm (catalogue.filter (matching q)) := List.perm_insertionSort _ _
  simp only at h
  cases hhead : sorted.head? with
  | none => rw [hhead] at h; simp at h
  | some lo =>
    cases hlast : sorted.getLast? with
    | none => rw [hhead, hlast] at h; simp at h
    | some hi =>
      rw [hhead, hlast] at h
      simp only [Option.some.injEq] at h
      subst h
      obtain ⟨tail, htail⟩ : ∃ tail, sorted = lo :: tail := by
        cases hl : sorted with
        | nil => rw [hl] at hhead; simp at hhead
        | cons x xs => rw [hl] at hhead; simp at hhead; exact ⟨xs, by rw [hhead]⟩
      obtain ⟨front, hfront⟩ : ∃ front, sorted = front ++ [hi] := by
        rw [List.getLast?_eq_some_iff] at hlast
        exact hlast
      refine ⟨firsts Row.conducting none sorted, (firsts_increasing Row.conducting none sorted hs (by simp)).1, fun d => ?_, rfl, rfl,
        fun r hr => ?_, ⟨lo, hperm.mem_iff.mp (htail ▸ List.mem_cons_self), rfl⟩,
        ⟨hi, hperm.mem_iff.mp (hfront ▸ List.mem_append_right _ List.mem_cons_self), rfl⟩⟩
      · rw [find_firsts Row.conducting d none sorted (by simp), hsorted, find_sortBy]
        rfl
      · have hr' : r ∈ sorted := hperm.mem_iff.mpr hr
        constructor
        · rw [htail] at hr' hs
          rcases List.mem_cons.mp hr' with e | e
          · exact e ▸ le_refl _
          · exact (List.pairwise_cons.mp hs).1 r e
        · rw [hfront] at hr' hs
          rcases List.mem_append.mp hr' with e | e
          · exact (List.pairwise_append.mp hs).2.2 r e hi (by simp)
          · simp only [List.mem_singleton] at e
            exact e ▸ le_refl _

theorem rows_three {catalogue : List (Row K)} {q : Query K} {rows : List (Row K)}
    (hf : ∀ d : K, rows.find? (fun r => decide (r.conducting = d)) = listed catalogue q d) (h3 : Three catalogue q) : 3 ≤ rows.length := by
  obtain ⟨a, b, c, ha, hb, hc, hab, hbc⟩ := h3
  have get : ∀ r ∈ catalogue.filter (matching q), ∃ r' ∈ rows, r'.conducting = r.conducting := by
    intro r hr
    have : (listed catalogue q r.conducting).isSome := by
      unfold listed
      rw [List.find?_isSome]
      exact ⟨r, hr, by simp⟩
    rw [← hf] at this
    rw [List.find?_isSome] at this
    obtain ⟨r', h', e⟩ := this
    exact ⟨r', h', by simpa using e⟩
  obtain ⟨a', ha', ea⟩ := get a ha
  obtain ⟨b', hb', eb⟩ := get b hb
  obtain ⟨c', hc', ec⟩ := get c hc
  rw [← ea, ← eb] at hab
  rw [← eb, ← ec] at hbc
  rcases rows with _ | ⟨x, _ | ⟨y, _ | ⟨z, l⟩⟩⟩
  · simp at ha'
  · simp only [List.mem_singleton] at ha' hb'
    rw [ha', hb'] at hab
    exact absurd hab (lt_irrefl _)
  · simp only [List.mem_cons, List.not_mem_nil, or_false] at ha' hb' hc'
    rcases ha' with rfl | rfl <;> rcases hb' with rfl | rfl <;> rcases hc' with rfl | rfl <;>
      first | exact absurd hab (lt_irrefl _) | exact absurd hbc (lt_irrefl _) | exact absurd (hab.trans hbc) (lt_irrefl _)
  · simp

/-- The table of a catalogue with three diameters gives the wire listed its proportion and filling. -/
theorem table_listed {π : K} {spline : List (K × K) → K → K} (hp : Passes spline) {catalogue : List (Row K)} {q : Query K} {air : Bool}
    {t : Table K} (h : build π catalogue q air = some t) (h3 : Three catalogue q) {d : K} {r : Row K} (hr : listed catalogue q d = some r) :
    spline t.proportion (min (max d t.lowest) t.highest) = proportionOf r ∧
      spline t.filling (min (max d t.lowest) t.highest) = fillingOf π air r ∧ r.conducting = d := by
  obtain ⟨rows, h1, h2, hfill, hprop, h4, -, -⟩ := build_spec h
  have hlen := rows_three h2 h3
  have hmem : r ∈ catalogue.filter (matching q) := List.mem_of_find?_eq_some hr
  have hd : r.conducting = d := by
    have := List.find?_some hr
    simpa using this
  have hin := h4 r hmem
  rw [hd] at hin
  have hrow : r ∈ rows := List.mem_of_find?_eq_some ((h2 d).trans hr)
  rw [max_eq_left hin.1, min_eq_left hin.2]
  refine ⟨?_, ?_, hd⟩
  · have := hp t.proportion (by rw [hprop, List.pairwise_map]; exact h1) (by rw [hprop]; simpa using hlen) (r.conducting, proportionOf r)
      (by rw [hprop]; exact List.mem_map_of_mem hrow)
    rw [hd] at this
    exact this
  · have := hp t.filling (by rw [hfill, List.pairwise_map]; exact h1) (by rw [hfill]; simpa using hlen) (r.conducting, fillingOf π air r)
      (by rw [hfill]; exact List.mem_map_of_mem hrow)
    rw [hd] at this
    exact this

theorem build_some {π : K} {catalogue : List (Row K)} {q : Query K} {air : Bool} {r : Row K} (hr : r ∈ catalogue.filter (matching q)) :
    ∃ t, build π catalogue q air = some t := by
  have hperm : (sortBy Row.conducting (catalogue.filter (matching q))).Perm (catalogue.filter (matching q)) := List.perm_insertionSort _ _
  have hr' := hperm.mem_iff.mpr hr
  unfold build
  cases hl : sortBy Row.conducting (catalogue.filter (matching q)) with
  | nil => rw [hl] at hr'; simp at hr'
  | cons x xs =>
    simp only [List.head?_cons]
    cases hlast : (x :: xs).getLast? with
    | none => simp at hlast
    | some y => exact ⟨_, rfl⟩

/-- The proportions and limits of a table do not depend on counting the air. -/
theorem build_air {π : K} {catalogue : List (Row K)} {q : Query K} {air air' : Bool} {t t' : Table K}
    (h : build π catalogue q air = some t) (h' : build π catalogue q air' = some t') :
    t.proportion = t'.proportion ∧ t.lowest = t'.lowest ∧ t.highest = t'.highest := by
  unfold build at h h'
  simp only at h h'
  cases hh : (sortBy Row.conducting (catalogue.filter (matching q))).head? with
  | none => rw [hh] at h; simp at h
  | some lo =>
    cases hl : (sortBy Row.conducting (catalogue.filter (matching q))).getLast? with
    | none => rw [hh, hl] at h; simp at h
    | some hi =>
      rw [hh, hl] at h h'
      simp only [Option.some.injEq] at h h'
      subst h h'
      exact ⟨rfl, rfl, rfl⟩

theorem build_none_air {π : K} {catalogue : List (Row K)} {q : Query K} {air : Bool} (air' : Bool) (h : build π catalogue q air = none) :
    build π catalogue q air' = none := by
  unfold build at h ⊢
  simp only at h ⊢
  cases hh : (sortBy Row.conducting (catalogue.filter (matching q))).head? with
  | none => simp
  | some lo =>
    cases hl : (sortBy Row.conducting (catalogue.filter (matching q))).getLast? with
    | none => simp
    | some hi => rw [hh, hl] at h; simp at h

section memo

variable [FloorRing K]

theorem microns_injective {a b : K} (la lb : ℤ) (ha : supported la a = true) (hb : supported lb b = true) (h : microns a = microns b) : a = b := by
  have value : ∀ (n : ℤ) (x : K), x * 10 ^ 12 = n → microns x = n := by
    intro n x hx
    unfold microns
    rw [hx, Int.floor_eq_iff]
    constructor <;> linarith
  have e1 : microns (508 / 10 ^ 7 : K) = 50800000 := value _ _ (by push_cast; norm_num)
  have e2 : microns (762 / 10 ^ 7 : K) = 76200000 := value _ _ (by push_cast; norm_num)
  have e3 : microns (381 / 10 ^ 7 : K) = 38100000 := value _ _ (by push_cast; norm_num)
  have e4 : microns (254 / 10 ^ 7 : K) = 25400000 := value _ _ (by push_cast; norm_num)
  have e5 : microns (127 / 10 ^ 6 : K) = 127000000 := value _ _ (by push_cast; norm_num)
  simp only [supported, Bool.and_eq_true, decide_eq_true_eq, List.mem_cons, List.not_mem_nil, or_false] at ha hb
  rcases ha.2 with rfl | rfl | rfl | rfl | rfl <;> rcases hb.2 with rfl | rfl | rfl | rfl | rfl <;>
    first | rfl | (exfalso; simp only [e1, e2, e3, e4, e5] at h; revert h; decide)

/-- What the maps hold for round wires was built from the catalogue for what their key says. -/
def Faithful (π : K) (catalogue : List (Row K)) (m : Memo K) : Prop :=
  (∀ grade standard t, m.tables (.enamelled .round grade standard) = some t →
    ∃ air, build π catalogue (roundQuery grade standard) air = some t) ∧
  ∀ layers n standard t, m.tables (.insulated .round layers n standard) = some t →
    ∃ thickness air, supported layers thickness = true ∧ microns thickness = n ∧ build π catalogue (insulatedQuery layers thickness standard) air = some t

theorem faithful_demand {π : K} {catalogue : List (Row K)} {m : Memo K} {key : Key} {q : Query K} {air : Bool} (h : Faithful π catalogue m)
    (h1 : ∀ grade standard, key = .enamelled .round grade standard → q = roundQuery grade standard)
    (h2 : ∀ layers n standard, key = .insulated .round layers n standard → ∃ thickness, supported layers thickness = true ∧
      microns thickness = n ∧ q = insulatedQuery layers thickness standard) : Faithful π catalogue (demand π catalogue m key q air).1 := by
  unfold demand
  cases hm : m.tables key with
  | some t => exact h
  | none =>
    simp only
    cases hb : build π catalogue q air with
    | none => exact h
    | some t =>
      refine ⟨fun grade standard t' ht => ?_, fun layers n standard t' ht => ?_⟩
      · simp only at ht
        split_ifs at ht with e
        · simp only [Option.some.injEq] at ht
          rw [← h1 grade standard e.symm, ← ht]
          exact ⟨air, hb⟩
        · exact h.1 _ _ _ ht
      · simp only at ht
        split_ifs at ht with e
        · simp only [Option.some.injEq] at ht
          obtain ⟨thickness, a, b, c⟩ := h2 layers n standard e.symm
          exact ⟨thickness, air, a, b, by rw [← c, ← ht]; exact hb⟩
        · exact h.2 _ _ _ _ ht

theorem faithful_call {π : K} {sqrt : K → K} {spline : List (K × K) → K → K} {catalogue : List (Row K)} {m : Memo K} (c : Call K)
    (h : Faithful π catalogue m) : Faithful π catalogue (call π sqrt spline catalogue m c).1 := by
  cases c with
  | fillingRound d grade standard air =>
    exact faithful_demand h (fun g s e => by cases e; rfl) (fun _ _ _ e => by cases e)
  | outerRound d grade standard =>
    exact faithful_demand h (fun g s e => by cases e; rfl) (fun _ _ _ e => by cases e)
  | fillingInsulated d layers thickness standard air =>
    simp only [call]
    by_cases hs : supported layers thickness = true
    · rw [if_pos hs]
      exact faithful_demand h (fun _ _ e => by cases e) (fun l n s e => by cases e; exact ⟨thickness, hs, rfl, rfl⟩)
    · rw [if_neg hs]
      exact h
  | outerInsulated d layers thickness standard =>
    simp only [call]
    by_cases hs : supported layers thickness = true
    · rw [if_pos hs]
      exact faithful_demand h (fun _ _ e => by cases e) (fun l n s e => by cases e; exact ⟨thickness, hs, rfl, rfl⟩)
    · rw [if_neg hs]
      exact h
  | fillingServedLitz d conductors grade layers standard air =>
    exact faithful_demand h (fun _ _ e => by cases e) (fun _ _ _ e => by cases e)
  | fillingInsulatedLitz d conductors layers thickness grade standard air =>
    exact faithful_demand h (fun _ _ e => by cases e) (fun _ _ _ e => by cases e)
  | packingInsulatedLitz conductors layers thickness grade standard =>
    simp only [call]
    split
    · exact h
    · split
      · exact h
      · exact h

theorem faithful_after {π : K} {sqrt : K → K} {spline : List (K × K) → K → K} {catalogue : List (Row K)} (history : List (Call K)) :
    Faithful π catalogue (after π sqrt spline (history.map fun c => (catalogue, c))) := by
  unfold after
  have key : ∀ (l : List (Call K)) (m : Memo K), Faithful π catalogue m →
      Faithful π catalogue ((l.map fun c => (catalogue, c)).foldl (fun m c => (call π sqrt spline c.1 m c.2).1) m) := by
    intro l
    induction l with
    | nil => intro m h; exact h
    | cons c l ih => intro m h; exact ih _ (faithful_call c h)
  exact key history _ ⟨by simp [Memo.empty], by simp [Memo.empty]⟩

/-- C172: with one catalogue, the outer diameter of enamelled round wires is the same after any history of calls. -/
theorem outer_round_any_history (π : K) (sqrt : K → K) (spline : List (K × K) → K → K) (catalogue : List (Row K)) (history : List (Call K))
    (d : K) (grade : ℤ) (standard : String) :
    (call π sqrt spline catalogue (after π sqrt spline (history.map fun c => (catalogue, c))) (.outerRound d grade standard)).2 =
      outerWith spline d (build π catalogue (roundQuery grade standard) false) := by
  have hf := (faithful_after (π := π) (sqrt := sqrt) (spline := spline) (catalogue := catalogue) history).1 grade standard
  generalize after π sqrt spline (history.map fun c => (catalogue, c)) = m at hf
  simp only [call, demand]
  cases hm : m.tables (.enamelled .round grade standard) with
  | some t =>
    obtain ⟨air, hb⟩ := hf t hm
    cases hb' : build π catalogue (roundQuery grade standard) false with
    | none => rw [build_none_air air hb'] at hb; simp at hb
    | some t' =>
      obtain ⟨a, b, c⟩ := build_air hb hb'
      simp only [outerWith, Option.map_some, a, b, c]
  | none =>
    cases hb : build π catalogue (roundQuery grade standard) false <;> simp [outerWith]

/-- C172: and so is that of insulated round wires. -/
theorem outer_insulated_any_history (π : K) (sqrt : K → K) (spline : List (K × K) → K → K) (catalogue : List (Row K)) (history : List (Call K))
    (d : K) (layers : ℤ) (thickness : K) (standard : String) (hs : supported layers thickness = true) :
    (call π sqrt spline catalogue (after π sqrt spline (history.map fun c => (catalogue, c))) (.outerInsulated d layers thickness standard)).2 =
      outerWith spline d (build π catalogue (insulatedQuery layers thickness standard) false) := by
  have hf := (faithful_after (π := π) (sqrt := sqrt) (spline := spline) (catalogue := catalogue) history).2 layers (microns thickness) standard
  generalize after π sqrt spline (history.map fun c => (catalogue, c)) = m at hf
  simp only [call, hs, if_true, demand]
  cases hm : m.tables (.insulated .round layers (microns thickness) standard) with
  | some t =>
    obtain ⟨thickness', air, a1, a2, hb⟩ := hf t hm
    rw [microns_injective layers layers a1 hs a2] at hb
    cases hb' : build π catalogue (insulatedQuery layers thickness standard) false with
    | none => rw [build_none_air air hb'] at hb; simp at hb
    | some t' =>
      obtain ⟨a, b, c⟩ := build_air hb hb'
      simp only [outerWith, Option.map_some, a, b, c]
  | none =>
    cases hb : build π catalogue (insulatedQuery layers thickness standard) false <;> simp [outerWith]

/-- C172: thicknesses or layers that are not made are refused. -/
theorem outer_insulated_refused (π : K) (sqrt : K → K) (spline : List (K × K) → K → K) (catalogue : List (Row K)) (m : Memo K)
    (d : K) (layers : ℤ) (thickness : K) (standard : String) (hs : supported layers thickness = false) :
    call π sqrt spline catalogue m (.outerInsulated d layers thickness standard) = (m, none) := by
  simp [call, hs]

end memo

/-- C172: the outer diameter of a diameter the catalogue has is that of the wire listed. -/
theorem outer_listed {π : K} {spline : List (K × K) → K → K} (hp : Passes spline) (catalogue : List (Row K)) (q : Query K) (air : Bool)
    (h3 : Three catalogue q) (d : K) (hd : d ≠ 0) (r : Row K) (hr : listed catalogue q d = some r) :
    outerWith spline d (build π catalogue q air) = some r.outer := by
  obtain ⟨t, ht⟩ := build_some (π := π) (air := air) (List.mem_of_find?_eq_some hr)
  obtain ⟨h1, -, h2⟩ := table_listed hp ht h3 hr
  rw [ht]
  simp only [outerWith, Option.map_some, h1, proportionOf, h2, Option.some.injEq]
  field_simp
  ring

/-- C172: and its filling factor that of the wire listed. -/
theorem filling_listed {π : K} {spline : List (K × K) → K → K} (hp : Passes spline) (catalogue : List (Row K)) (q : Query K) (air : Bool)
    (h3 : Three catalogue q) (d : K) (r : Row K) (hr : listed catalogue q d = some r) :
    fillingWith spline d (build π catalogue q air) = some (fillingOf π air r) := by
  obtain ⟨t, ht⟩ := build_some (π := π) (air := air) (List.mem_of_find?_eq_some hr)
  obtain ⟨-, h1, -⟩ := table_listed hp ht h3 hr
  rw [ht]
  simp only [fillingWith, Option.map_some, h1]

/-- C172: wires thinner than any listed have an outer diameter in the proportion of the thinnest. -/
theorem outer_thinner {π : K} {spline : List (K × K) → K → K} (hp : Passes spline) (catalogue : List (Row K)) (q : Query K) (air : Bool)
    (h3 : Three catalogue q) (d x : K) (hx : x ≠ 0) (r : Row K) (hr : listed catalogue q x = some r)
    (hthin : ∀ r' ∈ catalogue.filter (matching q), x ≤ r'.conducting) (hd : d ≤ x) :
    outerWith spline d (build π catalogue q air) = some (d * (r.outer / r.conducting)) := by
  have hmem := List.mem_of_find?_eq_some hr
  obtain ⟨t, ht⟩ := build_some (π := π) (air := air) hmem
  obtain ⟨h1, -, h2⟩ := table_listed hp ht h3 hr
  obtain ⟨-, -, -, -, -, h4, ⟨lo, hlo, elo⟩, -⟩ := build_spec ht
  have elow : t.lowest = x := le_antisymm (h2 ▸ (h4 r hmem).1) (elo ▸ hthin lo hlo)
  have hhigh : x ≤ t.highest := h2 ▸ (h4 r hmem).2
  rw [elow, max_self] at h1
  rw [ht]
  simp only [outerWith, Option.map_some, elow, max_eq_right hd, h1, proportionOf, h2, Option.some.injEq]
  field_simp
  ring

/-- C172: and wires thicker than any, in that of the thickest. -/
theorem outer_thicker {π : K} {spline : List (K × K) → K → K} (hp : Passes spline) (catalogue : List (Row K)) (q : Query K) (air : Bool)
    (h3 : Three catalogue q) (d x : K) (hx : x ≠ 0) (r : Row K) (hr : listed catalogue q x = some r)
    (hthick : ∀ r' ∈ catalogue.filter (matching q), r'.conducting ≤ x) (hd : x ≤ d) :
    outerWith spline d (build π catalogue q air) = some (d * (r.outer / r.conducting)) := by
  have hmem := List.mem_of_find?_eq_some hr
  obtain ⟨t, ht⟩ := build_some (π := π) (air := air) hmem
  obtain ⟨h1, -, h2⟩ := table_listed hp ht h3 hr
  obtain ⟨-, -, -, -, -, h4, -, ⟨hi, hhi, ehi⟩⟩ := build_spec ht
  have ehigh : t.highest = x := le_antisymm (ehi ▸ hthick hi hhi) (h2 ▸ (h4 r hmem).2)
  have hlow : t.lowest ≤ x := h2 ▸ (h4 r hmem).1
  rw [ehigh, max_eq_left hlow, min_self] at h1
  rw [ht]
  simp only [outerWith, Option.map_some, ehigh, max_eq_left (hlow.trans hd), min_eq_right hd, h1, proportionOf, h2, Option.some.injEq]
  field_simp
  ring

/-! ## What depends on the history -/

/-- A table looked up exactly: it passes through its points. -/
def exact (points : List (ℚ × ℚ)) (x : ℚ) : ℚ := ((points.find? fun p => decide (p.1 = x)).map Prod.snd).getD 0

theorem exact_passes : Passes exact := by
  intro points hs _ p hp
  unfold exact
  have : ∀ l : List (ℚ × ℚ), l.Pairwise (fun a b => a.1 < b.1) → p ∈ l → l.find? (fun q => decide (q.1 = p.1)) = some p := by
    intro l
    induction l with
    | nil => intro _ h; simp at h
    | cons a l ih =>
      intro hs hp
      rw [List.pairwise_cons] at hs
      rcases List.mem_cons.mp hp with e | e
      · subst e
        rw [List.find?_cons_of_pos (by simp)]
      · rw [List.find?_cons_of_neg (by simpa using (hs.1 p e).ne)]
        exact ih hs.2 e
  rw [this points hs hp]
  rfl

/-- An enamelled round wire of grade 1. -/
def round (conducting outer : ℚ) : Row ℚ where
  type := .round
  standard := some "IEC 60317"
  coating := some { kind := .enamelled, layers := none, thickness := none, grade := some 1 }
  conducting := conducting
  outer := outer
  strandOuter := 0
  conductors := 1

/-- A litz wire. -/
def litz (kind : CoatingKind) (layers : ℤ) (thickness : Option ℚ) (grade : ℤ) (strand strandOuter outer : ℚ) (n : ℕ) : Row ℚ where
  type := .litz
  standard := some "IEC 60317"
  coating := some { kind := kind, layers := some layers, thickness := thickness, grade := some grade }
  conducting := strand
  outer := outer
  strandOuter := strandOuter
  conductors := n

/-- Three round wires. -/
def rounds : List (Row ℚ) := [round 3 4, round 1 2, round 2 3]

/-- Litz wires served once and twice, of three strands each. -/
def served : List (Row ℚ) :=
  [litz .served 1 none 1 1 2 40 4, litz .served 1 none 1 2 3 40 4, litz .served 1 none 1 3 4 40 4,
   litz .served 2 none 1 1 2 80 4, litz .served 2 none 1 2 3 80 4, litz .served 2 none 1 3 4 80 4]

/-- Insulated litz wires of two grades of strand. -/
def insulated : List (Row ℚ) :=
  [litz .insulated 1 (some 1) 1 1 2 22 4, litz .insulated 1 (some 1) 1 2 3 32 9, litz .insulated 1 (some 1) 1 3 4 42 16,
   litz .insulated 1 (some 1) 2 1 4 22 4, litz .insulated 1 (some 1) 2 2 6 32 9, litz .insulated 1 (some 1) 2 3 8 42 16]

/-- Roots of 4, 9 and 16. -/
def root (x : ℚ) : ℚ := if x = 4 then 2 else if x = 9 then 3 else if x = 16 then 4 else 0

example : Three rounds (roundQuery 1 "IEC 60317") ∧ listed rounds (roundQuery 1 "IEC 60317") 2 = some (round 2 3) ∧
    outerWith exact (1 / 2) (build (22 / 7) rounds (roundQuery 1 "IEC 60317") false) = some 1 := by
  refine ⟨⟨round 1 2, round 2 3, round 3 4, ?_⟩, rfl, by decide +kernel⟩
  have e : rounds.filter (matching (roundQuery 1 "IEC 60317")) = rounds := rfl
  rw [e]
  refine ⟨by simp [rounds], by simp [rounds], by simp [rounds], ?_, ?_⟩ <;> decide +kernel

section memo

variable [FloorRing K]

/-- C172: so after any history of calls with one catalogue, the outer diameter of a diameter it lists is that of the wire listed. -/
theorem outer_round_listed (π : K) (sqrt : K → K) (spline : List (K × K) → K → K) (hp : Passes spline) (catalogue : List (Row K))
    (history : List (Call K)) (d : K) (hd : d ≠ 0) (grade : ℤ) (standard : String) (h3 : Three catalogue (roundQuery grade standard)) (r : Row K)
    (hr : listed catalogue (roundQuery grade standard) d = some r) :
    (call π sqrt spline catalogue (after π sqrt spline (history.map fun c => (catalogue, c))) (.outerRound d grade standard)).2 = some r.outer := by
  rw [outer_round_any_history]
  exact outer_listed hp catalogue _ _ h3 d hd r hr

/-- C172: and that of the insulated ones. -/
theorem outer_insulated_listed (π : K) (sqrt : K → K) (spline : List (K × K) → K → K) (hp : Passes spline) (catalogue : List (Row K))
    (history : List (Call K)) (d : K) (hd : d ≠ 0) (layers : ℤ) (thickness : K) (standard : String) (hs : supported layers thickness = true)
    (h3 : Three catalogue (insulatedQuery layers thickness standard)) (r : Row K)
    (hr : listed catalogue (insulatedQuery layers thickness standard) d = some r) :
    (call π sqrt spline catalogue (after π sqrt spline (history.map fun c => (catalogue, c))) (.outerInsulated d layers thickness standard)).2 =
      some r.outer := by
  rw [outer_insulated_any_history _ _ _ _ _ _ _ _ _ hs]
  exact outer_listed hp catalogue _ _ h3 d hd r hr

end memo

/-- C172 (fails): the filling factor of a round wire counting the air is another one after its outer diameter has been asked. -/
theorem filling_round_history :
    (call (22 / 7) root exact rounds Memo.empty (.fillingRound 2 1 "IEC 60317" true)).2 = some (22 / 63) ∧
    (call (22 / 7) root exact rounds (after (22 / 7) root exact [(rounds, .outerRound 2 1 "IEC 60317")])
      (.fillingRound 2 1 "IEC 60317" true)).2 = some (4 / 9) := by
  decide +kernel

/-- C172 (fails): the filling factor of litz served twice is that of litz served once if it was asked before. -/
theorem filling_served_history :
    (call (22 / 7) root exact served Memo.empty (.fillingServedLitz 2 4 1 2 "IEC 60317" false)).2 = some (1 / 400) ∧
    (call (22 / 7) root exact served (after (22 / 7) root exact [(served, .fillingServedLitz 2 4 1 1 "IEC 60317" false)])
      (.fillingServedLitz 2 4 1 2 "IEC 60317" false)).2 = some (1 / 100) := by
  decide +kernel

/-- C172 (fails): the packing factor of insulated litz, which its outer diameter is multiplied by, is that of the grade asked first. -/
theorem packing_history :
    (call (22 / 7) root exact insulated Memo.empty (.packingInsulatedLitz 4 1 1 2 "IEC 60317")).2 = some (5 / 2) ∧
    (call (22 / 7) root exact insulated (after (22 / 7) root exact [(insulated, .packingInsulatedLitz 4 1 1 1 "IEC 60317")])
      (.packingInsulatedLitz 4 1 1 2 "IEC 60317")).2 = some 5 := by
  decide +kernel

/-- C172 (fails): once asked, an outer diameter stays when the catalogue is replaced. -/
theorem outer_stale :
    (call (22 / 7) root exact [round 1 5, round 2 6, round 3 7] Memo.empty (.outerRound 2 1 "IEC 60317")).2 = some 6 ∧
    (call (22 / 7) root exact [round 1 5, round 2 6, round 3 7] (after (22 / 7) root exact [(rounds, .outerRound 1 1 "IEC 60317")])
      (.outerRound 2 1 "IEC 60317")).2 = some 3 := by
  decide +kernel

end Verif.Wire
