import Verif.CoreData.Model
import Mathlib.Data.List.Permutation
import Mathlib.Data.List.Nodup
import Mathlib.Tactic.Linarith

/-! # Properties of the windows and of the size of a core: C103 and C104 -/

namespace Verif.CoreData

set_option linter.unusedSimpArgs false

/-! ## Specification -/

/-- Columns that can have a window of their own: those beside the main one, not behind it. -/
def beside (columns : List Column) : List Nat :=
  (List.range columns.length).filter fun i =>
    i ≠ mainColumn columns && (match columns[i]? with | some col => col.x ≠ 0 | none => false)

/-- The main column: the first central one, or the first of all when none is central. -/
def IsMain (columns : List Column) (m : Nat) : Prop :=
  (∃ col, columns[m]? = some col ∧ col.central = true ∧
    ∀ (i : Nat) (c : Column), i < m → columns[i]? = some c → c.central = false) ∨
  (m = 0 ∧ ∀ c ∈ columns, c.central = false)

/-- A length within a maximum, if there is one. -/
def within (v : ℚ) : Option ℚ → Prop
  | none => True
  | some m => v ≤ m

/-- The box with the three dimensions in this order is within the maximum. -/
def inside (s : Size) (m : Maximum) : Prop := within s.width m.width ∧ within s.height m.height ∧ within s.depth m.depth

/-- The same box turned. -/
def Turned (s t : Size) : Prop := [t.width, t.height, t.depth].Perm [s.width, s.height, s.depth]

/-! ## Lemmas -/

theorem bind_ok {α β : Type} {s : Res α} {f : α → Res β} {b : β} :
    s.bind f = .ok b ↔ ∃ a, s = .ok a ∧ f a = .ok b := by
  cases s <;> simp [Res.bind]

theorem others_columns (main : Nat) (w : Window) (p : ℚ × ℚ) : ∀ (l : List Column) (i : Nat),
    (others main w p i l).map Window.column =
      ((List.range l.length).filter fun j =>
        i + j ≠ main && (match l[j]? with | some col => decide (col.x ≠ 0) | none => false)).map fun j => some (i + j) := by
  intro l
  induction l with
  | nil => intro i; simp [others]
  | cons col rest ih =>
    intro i
    rw [List.length_cons, List.range_succ_eq_map, List.filter_cons, List.filter_map]
    have e : ∀ j, i + (j + 1) = i + 1 + j := fun j => by omega
    have hrest := ih (i + 1)
    have hcomp : ((fun j => (decide (i + j ≠ main) && (match (col :: rest)[j]? with
          | some col => decide (col.x ≠ 0) | none => false))) ∘ Nat.succ) =
        fun j => (decide (i + 1 + j ≠ main) && (match rest[j]? with
          | some col => decide (col.x ≠ 0) | none => false)) := by
      funext j
      simp only [Function.comp, Nat.succ_eq_add_one, List.getElem?_cons_succ]
      rw [e j]
    rw [hcomp]
    have hmap : ∀ l : List Nat, (l.map Nat.succ).map (fun j => some (i + j)) = l.map fun j => some (i + 1 + j) := by
      intro l
      rw [List.map_map]
      apply List.map_congr_left
      intro j _
      simp only [Function.comp, Nat.succ_eq_add_one]
      rw [e j]
    by_cases h : i = main ∨ col.x = 0
    · simp only [others]
      rw [if_pos h]
      have hb : (decide (i + 0 ≠ main) && (match (col :: rest)[0]? with
          | some col => decide (col.x ≠ 0) | none => false)) = false := by
        rcases h with h | h
        · simp [h]
        · simp [h]
      rw [if_neg (by rw [hb]; simp), hmap, hrest]
    · simp only [others]
      rw [if_neg h]
      push Not at h
      have hb : (decide (i + 0 ≠ main) && (match (col :: rest)[0]? with
          | some col => decide (col.x ≠ 0) | none => false)) = true := by
        simp [h.1, h.2]
      rw [if_pos hb]
      simp only [List.map_cons, hmap, hrest, Nat.add_zero]

theorem others_mem {main : Nat} {w : Window} {p : ℚ × ℚ} : ∀ (l : List Column) (i : Nat) (v : Window),
    v ∈ others main w p i l → ∃ (j : Nat) (col : Column), l[j]? = some col ∧ col.x ≠ 0 ∧ v.column = some (i + j) ∧
      v.geometry = w.geometry ∧ v.order = w.order ∧
      v.coords = some ((if col.x < 0 then -1 else 1) * |p.1|, p.2) := by
  intro l
  induction l with
  | nil => intro i v h; simp [others] at h
  | cons col rest ih =>
    intro i v h
    simp only [others] at h
    have next : v ∈ others main w p (i + 1) rest → ∃ (j : Nat) (col' : Column), (col :: rest)[j]? = some col' ∧ col'.x ≠ 0 ∧
        v.column = some (i + j) ∧ v.geometry = w.geometry ∧ v.order = w.order ∧
        v.coords = some ((if col'.x < 0 then -1 else 1) * |p.1|, p.2) := by
      intro hm
      obtain ⟨j, col', h1, h2, h3, h4⟩ := ih (i + 1) v hm
      exact ⟨j + 1, col', by simpa using h1, h2, by rw [h3]; congr 1; omega, h4⟩
    split at h
    · exact next h
    · rename_i hn
      push Not at hn
      rcases List.mem_cons.mp h with rfl | h
      · exact ⟨0, col, rfl, hn.2, rfl, rfl, rfl, rfl⟩
      · exact next h

theorem others_count (columns : List Column) (w : Window) (p : ℚ × ℚ) :
    (others (mainColumn columns) w p 0 columns).map Window.column = (beside columns).map some := by
  rw [others_columns]
  unfold beside
  simp only [Nat.zero_add]

theorem others_length (columns : List Column) (w : Window) (p : ℚ × ℚ) :
    (others (mainColumn columns) w p 0 columns).length = (beside columns).length := by
  have := congrArg List.length (others_count columns w p)
  simpa using this

theorem append_ok {columns : List Column} {windows out : List Window} (h : append columns windows = .ok out) :
    ∃ (first : Window) (rest : List Window) (p : ℚ × ℚ), windows = first :: rest ∧ first.coords = some p ∧ columns ≠ [] ∧
      out = { first with column := some (mainColumn columns) } :: rest ++ others (mainColumn columns) first p 0 columns := by
  unfold append at h
  by_cases hc : columns = []
  · simp [hc] at h
  · rw [if_neg hc] at h
    cases windows with
    | nil => simp at h
    | cons first rest =>
      simp only at h
      cases hp : first.coords with
      | none => simp [hp] at h
      | some p =>
        simp only [hp, Res.ok.injEq] at h
        exact ⟨first, rest, p, rfl, hp, hc, by rw [← h, hp]⟩

theorem putBack_length : ∀ (ws : List Window) (os : List (Option Nat)), (putBack ws os).length = ws.length := by
  intro ws
  induction ws with
  | nil => intro os; rfl
  | cons w ws ih =>
    intro os
    cases os with
    | nil => rfl
    | cons o os => simp [putBack, ih]

theorem putBack_get : ∀ (ws : List Window) (os : List (Option Nat)) (i : Nat) (w : Window), ws[i]? = some w →
    (putBack ws os)[i]? = some { w with order := ((os[i]?).getD none).or w.order } := by
  intro ws
  induction ws with
  | nil => intro os i w h; simp at h
  | cons a ws ih =>
    intro os i w h
    cases os with
    | nil =>
      simp only [putBack, List.getElem?_nil, Option.getD_none, Option.none_or]
      rw [h]
    | cons o os =>
      cases i with
      | zero =>
        simp only [List.getElem?_cons_zero, Option.some.injEq] at h
        subst h
        simp [putBack]
      | succ i =>
        simp only [List.getElem?_cons_succ] at h
        simp only [putBack, List.getElem?_cons_succ]
        exact ih os i w h

/-- The windows regenerated, before the orders are put back. -/
theorem processWindows_ok {perColumn openShape : Bool} {columns : List Column} {window : Window}
    {incoming out : List Window} (h : processWindows perColumn openShape columns window incoming = .ok out) :
    ∃ windows : List Window, incoming.length ≤ windows.length ∧ out = putBack windows (incoming.map Window.order) ∧
      (windows = [window] ∨
       (∃ p, window.coords = some p ∧ columns ≠ [] ∧
        windows = { window with column := some (mainColumn columns) } :: others (mainColumn columns) window p 0 columns) ∨
       (perColumn = true ∧ ∃ p, window.coords = some p ∧ (beside columns).length + 1 < incoming.length ∧
        windows = { window with column := some (mainColumn columns) } :: others (mainColumn columns) window p 0 columns ++
          others (mainColumn columns) { window with column := some (mainColumn columns) } p 0 columns)) := by
  unfold processWindows at h
  rw [bind_ok] at h
  obtain ⟨regenerated, hr, h⟩ := h
  rw [bind_ok] at h
  obtain ⟨windows, hw, h⟩ := h
  by_cases hl : windows.length < incoming.length
  · rw [if_pos hl] at h; simp at h
  · rw [if_neg hl] at h
    simp only [Res.ok.injEq] at h
    refine ⟨windows, by omega, h.symm, ?_⟩
    cases hpc : (perColumn && !openShape) with
    | false =>
      rw [hpc] at hr
      simp only [Bool.false_eq_true, if_false, Res.ok.injEq] at hr
      subst hr
      by_cases hc : ([window] : List Window).length < incoming.length ∧ 1 < columns.length
      · rw [if_pos hc] at hw
        obtain ⟨first, rest, p, he, hp, hne, rfl⟩ := append_ok hw
        simp only [List.cons.injEq] at he
        obtain ⟨rfl, rfl⟩ := he
        exact Or.inr (Or.inl ⟨p, hp, hne, by simp⟩)
      · rw [if_neg hc] at hw
        simp only [Res.ok.injEq] at hw
        exact Or.inl hw.symm
    | true =>
      rw [hpc] at hr
      simp only [if_true] at hr
      obtain ⟨first, rest, p, he, hp, hne, rfl⟩ := append_ok hr
      simp only [List.cons.injEq] at he
      obtain ⟨rfl, rfl⟩ := he
      by_cases hc : ({ window with column := some (mainColumn columns) } :: ([] : List Window) ++
          others (mainColumn columns) window p 0 columns).length < incoming.length ∧ 1 < columns.length
      · rw [if_pos hc] at hw
        obtain ⟨first, rest, p', he, hp', _, rfl⟩ := append_ok hw
        simp only [List.cons_append, List.nil_append, List.cons.injEq] at he
        obtain ⟨rfl, rfl⟩ := he
        simp only at hp'
        rw [hp] at hp'
        obtain rfl := Option.some.inj hp'
        refine Or.inr (Or.inr ⟨by simp at hpc; exact hpc.1, p, hp, ?_, rfl⟩)
        have := hc.1
        simp only [List.cons_append, List.nil_append, List.length_cons, others_length] at this
        exact this
      · rw [if_neg hc] at hw
        simp only [Res.ok.injEq] at hw
        refine Or.inr (Or.inl ⟨p, hp, hne, ?_⟩)
        rw [← hw]; simp

/-! ## C103: winding windows -/

/-- **C103.** Processing a core again never loses a window it declared, nor the winding order asked for any of them. -/
theorem declared_windows_kept (perColumn openShape : Bool) (columns : List Column) (window : Window)
    (incoming out : List Window) (h : processWindows perColumn openShape columns window incoming = .ok out) :
    incoming.length ≤ out.length ∧
      ∀ (i : Nat) (w : Window) (o : Nat), incoming[i]? = some w → w.order = some o →
        ∃ w', out[i]? = some w' ∧ w'.order = some o := by
  obtain ⟨windows, hl, rfl, _⟩ := processWindows_ok h
  refine ⟨by rw [putBack_length]; exact hl, ?_⟩
  intro i w o hi ho
  have hlt : i < windows.length := lt_of_lt_of_le (List.getElem?_eq_some_iff.mp hi).1 hl
  refine ⟨_, putBack_get windows _ i windows[i] (List.getElem?_eq_getElem hlt), ?_⟩
  simp [List.getElem?_map, hi, ho]

theorem mainColumn_isMain (columns : List Column) : IsMain columns (mainColumn columns) := by
  unfold mainColumn
  cases h : columns.findIdx? Column.central with
  | none =>
    right
    exact ⟨rfl, fun c hc => by simpa using List.findIdx?_eq_none_iff.mp h c hc⟩
  | some m =>
    left
    obtain ⟨hm, hp, hn⟩ := List.findIdx?_eq_some_iff_getElem.mp h
    refine ⟨columns[m], by simp [List.getElem?_eq_getElem hm], hp, ?_⟩
    intro i c hi hc
    simp only [Option.getD_some] at hi
    have hil : i < columns.length := lt_trans hi hm
    rw [List.getElem?_eq_getElem hil] at hc
    obtain rfl := Option.some.inj hc
    simpa using hn i hi

/-- **C103.** With one window per column, the first is that of the main column, each column beside it has one, in order and
on its side, and no column has two. Part of the claim: it is false when a core declares more windows than that and the
setting is on, see `surplus_windows_duplicated`. -/
theorem one_window_per_column_partial (perColumn openShape : Bool) (columns : List Column) (window : Window)
    (incoming out : List Window) (h : processWindows perColumn openShape columns window incoming = .ok out)
    (hfew : incoming.length ≤ (beside columns).length + 1) (hmany : 1 < out.length) :
    IsMain columns (mainColumn columns) ∧ out.map Window.column = (mainColumn columns :: beside columns).map some ∧
      (∀ (w : Window) (p : ℚ × ℚ), window.coords = some p → w ∈ out.tail → ∃ (i : Nat) (col : Column),
        w.column = some i ∧ columns[i]? = some col ∧ w.geometry = window.geometry ∧
        w.coords = some ((if col.x < 0 then -1 else 1) * |p.1|, p.2)) := by
  refine ⟨mainColumn_isMain columns, ?_⟩
  obtain ⟨windows, hl, rfl, hcases⟩ := processWindows_ok h
  have hcol : ∀ (ws : List Window) (os : List (Option Nat)), (putBack ws os).map Window.column = ws.map Window.column := by
    intro ws
    induction ws with
    | nil => intro os; rfl
    | cons w ws ih => intro os; cases os <;> simp [putBack, ih]
  have htail : ∀ (ws : List Window) (os : List (Option Nat)) (v : Window), v ∈ putBack ws os →
      ∃ w ∈ ws, v.column = w.column ∧ v.geometry = w.geometry ∧ v.coords = w.coords := by
    intro ws
    induction ws with
    | nil => intro os v hv; simp [putBack] at hv
    | cons w ws ih =>
      intro os v hv
      cases os with
      | nil => exact ⟨v, hv, rfl, rfl, rfl⟩
      | cons o os =>
        rcases List.mem_cons.mp hv with rfl | hv
        · exact ⟨w, List.mem_cons_self, rfl, rfl, rfl⟩
        · obtain ⟨w', hw', r⟩ := ih os v hv
          exact ⟨w', List.mem_cons_of_mem _ hw', r⟩
  rcases hcases with rfl | ⟨p, hp, _, rfl⟩ | ⟨_, p, _, hlt, _⟩
  · rw [putBack_length] at hmany; simp at hmany
  · constructor
    · rw [hcol]
      simp only [List.map_cons, others_count]
    · intro w p' hp' hw
      rw [hp] at hp'
      obtain rfl := Option.some.inj hp'
      have hw' : ∃ os, w ∈ putBack (others (mainColumn columns) window p 0 columns) os := by
        cases hos : incoming.map Window.order with
        | nil =>
          rw [hos] at hw
          refine ⟨[], ?_⟩
          cases ho : others (mainColumn columns) window p 0 columns with
          | nil => rw [ho] at hw; simp [putBack] at hw
          | cons a l => rw [ho] at hw; simpa [putBack] using hw
        | cons o os =>
          rw [hos] at hw
          exact ⟨os, by simpa [putBack] using hw⟩
      obtain ⟨os, hw'⟩ := hw'
      obtain ⟨v, hv, e1, e2, e3⟩ := htail _ _ _ hw'
      obtain ⟨j, col, h1, _, h3, h4, _, h6⟩ := others_mem columns 0 v hv
      exact ⟨j, col, by rw [e1, h3, Nat.zero_add], h1, by rw [e2, h4], by rw [e3, h6]⟩
  · omega

theorem columns_distinct (columns : List Column) : (mainColumn columns :: beside columns).Nodup := by
  rw [List.nodup_cons]
  constructor
  · intro h
    simp [beside] at h
  · exact List.nodup_range.filter _

/-- An E core: columns in the middle, to the right and to the left. -/
def eColumns : List Column := [⟨true, 0⟩, ⟨false, 14⟩, ⟨false, -14⟩]

/-- Its window, to the right. -/
def eWindow : Window := { geometry := 1, coords := some (9, 0), column := none, order := none }

/-- Another with an order. -/
def ordered (o : Nat) : Window := { eWindow with order := some o }

example : processWindows false false eColumns eWindow [ordered 1, ordered 2] =
    .ok [⟨1, some (9, 0), some 0, some 1⟩, ⟨1, some (9, 0), some 1, some 2⟩, ⟨1, some (-9, 0), some 2, none⟩] := by
  decide +kernel

/-- **C103.** With the setting on, a core that declares more windows than columns gets windows twice on the same columns
instead of the exception it gets with the setting off. -/
theorem surplus_windows_duplicated :
    processWindows false false eColumns eWindow (List.replicate 4 eWindow) = .invalid ∧
    processWindows true false eColumns eWindow (List.replicate 4 eWindow) =
      .ok [⟨1, some (9, 0), some 0, none⟩, ⟨1, some (9, 0), some 1, none⟩, ⟨1, some (-9, 0), some 2, none⟩,
           ⟨1, some (9, 0), some 1, none⟩, ⟨1, some (-9, 0), some 2, none⟩] := by decide +kernel

/-- **C103.** Without the setting, a core is refused exactly when it declares more windows than its columns can have; nothing
is undefined. -/
theorem windows_refused_iff (openShape : Bool) (columns : List Column) (window : Window) (incoming : List Window)
    (p : ℚ × ℚ) (hp : window.coords = some p) :
    processWindows false openShape columns window incoming ≠ .ub ∧
    (processWindows false openShape columns window incoming = .invalid ↔
      (if 1 < columns.length then (beside columns).length + 1 else 1) < incoming.length) := by
  unfold processWindows
  simp only [Bool.false_and, Bool.false_eq_true, if_false, Res.bind, List.length_singleton]
  by_cases h : 1 < incoming.length ∧ 1 < columns.length
  · rw [if_pos h, if_pos h.2]
    have hne : columns ≠ [] := by intro e; rw [e] at h; simp at h
    have ha : append columns [window] = .ok ({ window with column := some (mainColumn columns) } ::
        others (mainColumn columns) window p 0 columns) := by
      simp [append, hne, hp]
    rw [ha]
    simp only [List.length_cons, others_length]
    split <;> simp_all
  · rw [if_neg h]
    simp only [List.length_singleton]
    by_cases h1 : 1 < incoming.length
    · have h2 : ¬ 1 < columns.length := fun e => h ⟨h1, e⟩
      rw [if_pos h1, if_neg h2]
      simp [h1]
    · rw [if_neg h1]
      refine ⟨by simp, by simp only [reduceCtorEq, false_iff]; split <;> omega⟩

/-- **C103.** Processing a core that was processed gives the windows it has. -/
theorem windows_processed_again (perColumn openShape : Bool) (columns : List Column) (window : Window)
    (incoming out : List Window) (h : processWindows perColumn openShape columns window incoming = .ok out) :
    processWindows perColumn openShape columns window out = .ok out := by
  have idem : ∀ (ws : List Window) (os : List (Option Nat)),
      putBack ws ((putBack ws os).map Window.order) = putBack ws os := by
    intro ws
    induction ws with
    | nil => intro os; rfl
    | cons w ws ih =>
      intro os
      cases os with
      | nil =>
        have hself : ∀ l : List Window, putBack l (l.map Window.order) = l := by
          intro l
          induction l with
          | nil => rfl
          | cons a l ih => simp [putBack, ih]
        simp only [putBack]
        exact hself _
      | cons o os =>
        simp only [putBack, List.map_cons, ih]
        congr 1
        cases o <;> simp
  unfold processWindows at h ⊢
  rw [bind_ok] at h
  obtain ⟨regenerated, hr, h⟩ := h
  rw [bind_ok] at h
  obtain ⟨windows, hw, h⟩ := h
  have hne : ¬ windows.length < incoming.length := by
    intro hl; rw [if_pos hl] at h; simp at h
  rw [if_neg hne] at h
  simp only [Res.ok.injEq] at h
  have hlen : out.length = windows.length := by rw [← h, putBack_length]
  rw [hr]
  simp only [Res.bind]
  -- the same branch is taken
  have hsame : (if regenerated.length < out.length ∧ 1 < columns.length then append columns regenerated
      else .ok regenerated) = .ok windows := by
    by_cases hc : regenerated.length < incoming.length ∧ 1 < columns.length
    · rw [if_pos hc] at hw
      rw [if_pos ⟨by omega, hc.2⟩, hw]
    · rw [if_neg hc] at hw
      simp only [Res.ok.injEq] at hw
      rw [hlen, ← hw, if_neg (by omega)]
  rw [hsame]
  simp only
  rw [if_neg (by omega), ← h, idem]

/-! ## C104: the size of a core -/

theorem perm3 {x y z a b c : ℚ} : [x, y, z].Perm [a, b, c] ↔
    (x = a ∧ y = b ∧ z = c) ∨ (x = a ∧ y = c ∧ z = b) ∨ (x = b ∧ y = a ∧ z = c) ∨ (x = b ∧ y = c ∧ z = a) ∨
    (x = c ∧ y = a ∧ z = b) ∨ (x = c ∧ y = b ∧ z = a) := by
  constructor
  · intro h
    have hm : [x, y, z] ∈ ([a, b, c] : List ℚ).permutations := List.mem_permutations.mpr h
    simp [List.permutations, List.permutationsAux, List.permutationsAux.rec, List.permutationsAux2] at hm
    tauto
  · rintro (⟨rfl, rfl, rfl⟩ | ⟨rfl, rfl, rfl⟩ | ⟨rfl, rfl, rfl⟩ | ⟨rfl, rfl, rfl⟩ | ⟨rfl, rfl, rfl⟩ | ⟨rfl, rfl, rfl⟩)
    · exact List.Perm.refl _
    · exact List.Perm.cons _ (List.Perm.swap _ _ _)
    · exact List.Perm.swap _ _ _
    · exact (List.Perm.cons _ (List.Perm.swap _ _ _)).trans (List.Perm.swap _ _ _)
    · exact (List.Perm.swap _ _ _).trans (List.Perm.cons _ (List.Perm.swap _ _ _))
    · exact ((List.Perm.swap _ _ _).trans (List.Perm.cons _ (List.Perm.swap _ _ _))).trans (List.Perm.swap _ _ _)

theorem turned_exists (s : Size) (m : Maximum) : (∃ t, Turned s t ∧ inside t m) ↔
    inside s m ∨ inside ⟨s.width, s.depth, s.height⟩ m ∨ inside ⟨s.height, s.width, s.depth⟩ m ∨
    inside ⟨s.height, s.depth, s.width⟩ m ∨ inside ⟨s.depth, s.width, s.height⟩ m ∨
    inside ⟨s.depth, s.height, s.width⟩ m := by
  constructor
  · rintro ⟨⟨w, h, d⟩, ht, hi⟩
    unfold Turned at ht
    rw [perm3] at ht
    simp only at ht
    rcases ht with ⟨rfl, rfl, rfl⟩ | ⟨rfl, rfl, rfl⟩ | ⟨rfl, rfl, rfl⟩ | ⟨rfl, rfl, rfl⟩ | ⟨rfl, rfl, rfl⟩ | ⟨rfl, rfl, rfl⟩
      <;> tauto
  · intro h
    rcases h with h | h | h | h | h | h
    · exact ⟨_, perm3.mpr (by simp), h⟩
    · exact ⟨_, perm3.mpr (by simp), h⟩
    · exact ⟨_, perm3.mpr (by simp), h⟩
    · exact ⟨_, perm3.mpr (by simp), h⟩
    · exact ⟨_, perm3.mpr (by simp), h⟩
    · exact ⟨_, perm3.mpr (by simp), h⟩

/-- **C104.** A core fits some maximum dimensions, some of which may not be given, exactly when each of its dimensions is
within the one given for it. -/
theorem fits_as_it_is (s : Size) (m : Maximum) : fits s m false = true ↔ inside s m := by
  obtain ⟨w, h, d⟩ := m
  cases w <;> cases h <;> cases d <;> simp [fits, inside, within, and_comm, and_left_comm, and_assoc]

/-- **C104.** And with rotation allowed, exactly when it does once turned, in one of the six ways of turning a box. -/
theorem fits_turned (s : Size) (m : Maximum) : fits s m true = true ↔ ∃ t, Turned s t ∧ inside t m := by
  rw [turned_exists]
  obtain ⟨w, h, d⟩ := m
  cases w <;> cases h <;> cases d <;> simp [fits, fitsOne, fitsTwo, fitsThree, inside, within] <;> grind

/-- **C104.** So a core that fits also fits when it may be turned, and a larger maximum, or one not given, never makes it not
fit. -/
theorem fits_monotone (s : Size) (m m' : Maximum) (r r' : Bool) (hr : r = true → r' = true)
    (hw : ∀ v, within v m.width → within v m'.width) (hh : ∀ v, within v m.height → within v m'.height)
    (hd : ∀ v, within v m.depth → within v m'.depth) (h : fits s m r = true) : fits s m' r' = true := by
  have mono : ∀ t, inside t m → inside t m' := fun t ht => ⟨hw _ ht.1, hh _ ht.2.1, hd _ ht.2.2⟩
  cases r with
  | false =>
    rw [fits_as_it_is] at h
    cases r' with
    | false => exact (fits_as_it_is s m').mpr (mono s h)
    | true => exact (fits_turned s m').mpr ⟨s, List.Perm.refl _, mono s h⟩
  | true =>
    rw [hr rfl]
    obtain ⟨t, ht, hi⟩ := (fits_turned s m).mp h
    exact (fits_turned s m').mpr ⟨t, ht, mono t hi⟩

example : fits ⟨30, 20, 10⟩ ⟨some 10, some 30, none⟩ true = true ∧
    fits ⟨30, 20, 10⟩ ⟨some 10, some 30, none⟩ false = false := by decide +kernel

end Verif.CoreData
