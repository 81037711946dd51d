import Verif.Columns.Model
import Std.Data.String.ToNat
import Mathlib.Data.List.Nodup
import Mathlib.Tactic.Linarith
import Mathlib.Tactic.NormNum
import Mathlib.Tactic.Ring
import Mathlib.Tactic.FieldSimp

/-! # Properties of the placement of windings in several windows -/

namespace Verif.Columns

set_option linter.unusedSimpArgs false
set_option linter.unusedSectionVars false
set_option linter.unusedVariables false

variable {K : Type} [Field K] [LinearOrder K] [IsStrictOrderedRing K]

/-! ## Sharing -/

/-- What sharing does not change. -/
theorem reshape_rest (t : K) (a b : Bool) (g : Group K) :
    (reshape t a b g).name = g.name ∧ (reshape t a b g).window = g.window ∧ (reshape t a b g).y = g.y ∧
      (reshape t a b g).h = g.h ∧ (reshape t a b g).windings = g.windings := ⟨rfl, rfl, rfl, rfl, rfl⟩

theorem side_abs (g : Group K) : side g = 1 ∨ side g = -1 := by
  unfold side; split <;> simp

/-- **C350.** A group is lateral exactly when its window exists and is around some column, which is not that of the first window. -/
theorem lateral_iff (w0 : Window K) (ws : List (Window K)) (g : Group K) :
    isLateral w0 ws g = some true ↔ ∃ (i : Nat) (w : Window K) (c : _), g.window.getD 0 = (i : Int) ∧ (w0 :: ws)[i]? = some w ∧
      w.column = some c ∧ w0.column ≠ some c := by
  unfold isLateral
  by_cases h : g.window.getD 0 < 0
  · simp only [if_pos h]
    refine iff_of_false (by simp) ?_
    rintro ⟨i, w, c, h1, -⟩
    omega
  · simp only [if_neg h]
    have hi : g.window.getD 0 = (((g.window.getD 0).toNat : Nat) : Int) := by omega
    cases hw : (w0 :: ws)[(g.window.getD 0).toNat]? with
    | none =>
      refine iff_of_false (by simp) ?_
      rintro ⟨i, w, c, h1, h2, -⟩
      rw [h1, Int.toNat_natCast, h2] at hw
      cases hw
    | some v =>
      cases hc : v.column with
      | none =>
        simp only [hc]
        refine iff_of_false (by simp) ?_
        rintro ⟨i, w, c, h1, h2, h3, -⟩
        rw [h1, Int.toNat_natCast, h2] at hw
        rw [Option.some.inj hw, hc] at h3
        cases h3
      | some c =>
        simp only [hc, Option.some.injEq, decide_eq_true_eq]
        constructor
        · intro hne
          exact ⟨_, v, c, hi, hw, hc, hne⟩
        · rintro ⟨i, w, c', h1, h2, h3, h4⟩
          rw [h1, Int.toNat_natCast, h2] at hw
          rw [Option.some.inj hw, hc] at h3
          rw [Option.some.inj h3]
          exact h4

/-- **C350.** When main and lateral windings share a region, each gets the same width, half of what the walls of the two
bobbins leave, the main one at the inside and the lateral one at the outside, with nothing between and no overlap. -/
theorem shared_halves (t : K) (g : Group K) :
    let main := reshape t true false g
    let lateral := reshape t true true g
    main.w = (g.w - t) / 2 ∧ lateral.w = (g.w - t) / 2 ∧
    newInner t true false g = innerEdge g ∧ newOuter t true false g = newInner t true true g ∧
    newOuter t true true g = outerEdge g - t := by
  simp only [reshape, newInner, newOuter, midline, innerEdge, outerEdge]
  refine ⟨?_, ?_, rfl, rfl, rfl⟩
  · simp only [Bool.true_and, Bool.not_false, if_true, Bool.and_false, Bool.false_eq_true, if_false]
    ring
  · simp only [Bool.true_and, Bool.not_true, if_true, Bool.and_false, Bool.false_eq_true, if_false]
    ring

theorem reshape_edges (t : K) (a b : Bool) (g : Group K) (hpos : 0 ≤ newInner t a b g + newOuter t a b g) :
    innerEdge (reshape t a b g) = newInner t a b g ∧ outerEdge (reshape t a b g) = newOuter t a b g := by
  have hx : |(reshape t a b g).x| = (newInner t a b g + newOuter t a b g) / 2 := by
    simp only [reshape]
    rcases side_abs g with h | h <;> rw [h]
    · rw [one_mul, abs_of_nonneg (by linarith)]
    · rw [neg_one_mul, neg_div, abs_neg, abs_of_nonneg (by linarith)]
  unfold innerEdge outerEdge
  rw [hx]
  simp only [reshape]
  constructor <;> ring

/-- **C351.** A region shared lies within the region there was, on the same side, if the wall is not thicker than the
region; it has a width exactly when the wall is thinner. -/
theorem shared_inside (t : K) (a b : Bool) (g : Group K) (ht : 0 ≤ t) (htw : t ≤ g.w) (hin : 0 ≤ innerEdge g) :
    innerEdge g ≤ innerEdge (reshape t a b g) ∧ outerEdge (reshape t a b g) ≤ outerEdge g ∧
    0 ≤ (reshape t a b g).w ∧ (a = true ∨ b = true → (0 < (reshape t a b g).w ↔ t < g.w)) := by
  have hw : outerEdge g - innerEdge g = g.w := by unfold outerEdge innerEdge; ring
  have hsum : 0 ≤ newInner t a b g + newOuter t a b g := by
    unfold newInner newOuter midline
    cases a <;> cases b <;> simp <;> linarith
  obtain ⟨e1, e2⟩ := reshape_edges t a b g hsum
  rw [e1, e2]
  have e3 : (reshape t a b g).w = newOuter t a b g - newInner t a b g := rfl
  rw [e3]
  unfold newInner newOuter midline
  cases a <;> cases b <;> simp only [Bool.true_and, Bool.false_and, Bool.and_true, Bool.and_false, Bool.not_true, Bool.not_false,
    if_true, Bool.false_eq_true, if_false, true_or, or_true, or_self, false_implies, true_implies]
  · refine ⟨le_refl _, le_refl _, by linarith, trivial⟩
  · refine ⟨le_refl _, by linarith, by linarith, ⟨fun h => by linarith, fun h => by linarith⟩⟩
  · refine ⟨le_refl _, by linarith, by linarith, ⟨fun h => by linarith, fun h => by linarith⟩⟩
  · refine ⟨by linarith, by linarith, by linarith, ⟨fun h => by linarith, fun h => by linarith⟩⟩

/-- A region of 6 at 10 with a wall of 1. -/
example : (0 : ℚ) ≤ 1 ∧ (1 : ℚ) ≤ (columnGroup 0 0 (⟨none, 10, 0, 6, 20⟩ : Window ℚ) [0]).w ∧
    0 ≤ innerEdge (columnGroup 0 0 (⟨none, 10, 0, 6, 20⟩ : Window ℚ) [0]) ∧
    (reshape 1 true true (columnGroup 0 0 (⟨none, 10, 0, 6, 20⟩ : Window ℚ) [0])).w = 5 / 2 :=
  ⟨by decide +kernel, by decide +kernel, by decide +kernel, by decide +kernel⟩

/-- **C351.** Sharing keeps the number and order of the groups, their names, windows, windings and heights; it changes no
group without windings, and none at all unless a winding is around a lateral column. -/
theorem share_keeps (t : K) (w0 : Window K) (ws : List (Window K)) (groups out : List (Group K))
    (h : share t w0 ws groups = some out) :
    out.length = groups.length ∧ out.map Group.name = groups.map Group.name ∧ out.map Group.window = groups.map Group.window ∧
    out.map Group.windings = groups.map Group.windings ∧ out.map Group.h = groups.map Group.h ∧ out.map Group.y = groups.map Group.y ∧
    (∀ (i : Nat) (g : Group K), groups[i]? = some g → g.windings = [] → out[i]? = some g) ∧
    ((∀ g ∈ groups, g.windings ≠ [] → isLateral w0 ws g = some false) → out = groups) := by
  have hone : ∀ a g, (shareOne t a w0 ws g).name = g.name ∧ (shareOne t a w0 ws g).window = g.window ∧
      (shareOne t a w0 ws g).windings = g.windings ∧ (shareOne t a w0 ws g).h = g.h ∧ (shareOne t a w0 ws g).y = g.y := by
    intro a g
    unfold shareOne
    split <;> simp [reshape]
  unfold share at h
  by_cases h1 : ws = []
  · rw [if_pos h1] at h; cases h; exact ⟨rfl, rfl, rfl, rfl, rfl, rfl, fun i g h _ => h, fun _ => rfl⟩
  rw [if_neg h1] at h
  split at h
  · cases h
  simp only [] at h
  split at h
  · cases h; exact ⟨rfl, rfl, rfl, rfl, rfl, rfl, fun i g h _ => h, fun _ => rfl⟩
  rename_i hlat
  split at h
  · cases h
  cases h
  refine ⟨by simp, ?_, ?_, ?_, ?_, ?_, ?_, ?_⟩
  · simp [List.map_map, Function.comp_def, hone]
  · simp [List.map_map, Function.comp_def, hone]
  · simp [List.map_map, Function.comp_def, hone]
  · simp [List.map_map, Function.comp_def, hone]
  · simp [List.map_map, Function.comp_def, hone]
  · intro i g hg hw
    rw [List.getElem?_map, hg]
    simp [shareOne, isWound, hw]
  · intro hall
    exfalso
    apply hlat
    rw [List.any_eq_false]
    intro g hg
    rw [List.mem_filter] at hg
    have := hall g hg.1 (by have := hg.2; unfold isWound at this; intro e; rw [e] at this; simp at this)
    rw [this]
    simp

/-! ## Groups -/

theorem columnGroups_get (dist : K) (wd : Nat → List Nat) (ws : List (Window K)) : ∀ i j,
    (columnGroups dist wd i ws)[j]? = (ws[j]?).map (fun w => columnGroup dist (i + j) w (wd (i + j))) := by
  induction ws with
  | nil => intro i j; simp [columnGroups]
  | cons w ws ih =>
    intro i j
    cases j with
    | zero => simp [columnGroups]
    | succ j =>
      simp only [columnGroups, List.getElem?_cons_succ, ih]
      have : i + 1 + j = i + (j + 1) := by omega
      rw [this]

theorem columnGroups_length (dist : K) (wd : Nat → List Nat) (ws : List (Window K)) : ∀ i,
    (columnGroups dist wd i ws).length = ws.length := by
  induction ws with
  | nil => intro i; rfl
  | cons w ws ih => intro i; simp [columnGroups, ih]

/-- **C352.** With several windows, each winding is in the group of the window it asks for, the first if it asks for none,
and in no other; there is one group for each window, in their order. -/
theorem default_placement (dist t : K) (w0 : Window K) (ws : List (Window K)) (asks : List (Option Int)) (gs : List (Group K))
    (hws : ws ≠ []) (h : defaultGroups dist t w0 ws asks = some gs) :
    gs.length = ws.length + 1 ∧
    (∀ (i : Nat) (g : Group K), gs[i]? = some g → g.name = "Column " ++ toString i ∧ g.window = some (i : Int)) ∧
    ∀ (k : Nat) (a : Option Int), asks[k]? = some a → ∃ i : Nat, (a = none → i = 0) ∧ (∀ z, a = some z → (i : Int) = z) ∧
      ∃ g : Group K, gs[i]? = some g ∧ k ∈ g.windings ∧ ∀ (j : Nat) (g' : Group K), gs[j]? = some g' → k ∈ g'.windings → j = i := by
  unfold defaultGroups at h
  rw [if_neg hws] at h
  split at h
  · cases h
  rename_i hbad
  obtain ⟨hl, hn, hw, hwd, _⟩ := share_keeps t w0 ws _ gs h
  rw [columnGroups_length] at hl
  have key : ∀ i, i < ws.length + 1 → ∃ g, gs[i]? = some g ∧ g.name = "Column " ++ toString i ∧ g.window = some (i : Int) ∧
      g.windings = windingsOf asks i := by
    intro i hi
    have hi' : i < gs.length := by rw [hl]; simpa using hi
    refine ⟨gs[i], List.getElem?_eq_getElem hi', ?_⟩
    have hw0 : i < (w0 :: ws).length := by simpa using hi
    have e0 := columnGroups_get dist (windingsOf asks) (w0 :: ws) 0 i
    rw [List.getElem?_eq_getElem hw0] at e0
    simp only [Option.map_some, Nat.zero_add] at e0
    have en := congrArg (fun l => l[i]?) hn
    have ew := congrArg (fun l => l[i]?) hw
    have ed := congrArg (fun l => l[i]?) hwd
    simp only [List.getElem?_map, e0, List.getElem?_eq_getElem hi', Option.map_some, Option.some.injEq] at en ew ed
    exact ⟨en, ew, ed⟩
  refine ⟨by simpa using hl, fun i g hg => ?_, fun k a hk => ?_⟩
  · have hi : i < ws.length + 1 := by
      have := (List.getElem?_eq_some_iff.mp hg).1
      rw [hl] at this
      simpa using this
    obtain ⟨g', e, a, b, _⟩ := key i hi
    rw [hg] at e
    cases e
    exact ⟨a, b⟩
  · have hklt : k < asks.length := (List.getElem?_eq_some_iff.mp hk).1
    have hmem : a ∈ asks := List.mem_of_getElem? hk
    have hok : badAsk (ws.length + 1) a = false := by
      cases hb : badAsk (ws.length + 1) a with
      | false => rfl
      | true => exact absurd (List.any_eq_true.mpr ⟨a, hmem, hb⟩) hbad
    have hlt : askedWindow asks k < ws.length + 1 := by
      unfold askedWindow
      rw [hk]
      cases a with
      | none => simp
      | some z =>
        simp only [badAsk, Bool.or_eq_false_iff, decide_eq_false_iff_not, not_lt, not_le] at hok
        simp only
        omega
    refine ⟨askedWindow asks k, ?_, ?_, ?_⟩
    · intro e; subst e; unfold askedWindow; rw [hk]
    · intro z e
      subst e
      unfold askedWindow
      rw [hk]
      simp only [badAsk, Bool.or_eq_false_iff, decide_eq_false_iff_not, not_lt, not_le] at hok
      simp only
      omega
    · obtain ⟨g, e, _, _, d⟩ := key _ hlt
      refine ⟨g, e, ?_, ?_⟩
      · rw [d]; unfold windingsOf; simp [hklt]
      · intro j g' hg' hkm
        have hj : j < ws.length + 1 := by
          have := (List.getElem?_eq_some_iff.mp hg').1
          rw [hl] at this
          simpa using this
        obtain ⟨g'', e', _, _, d'⟩ := key j hj
        rw [hg'] at e'
        cases e'
        rw [d'] at hkm
        unfold windingsOf at hkm
        rw [List.mem_filter] at hkm
        have := hkm.2
        simp at this
        exact this.symm

/-- **C353 (partial).** With several windows a winding that asks for a window that does not exist is refused. -/
theorem bad_window_partial (dist t : K) (w0 : Window K) (ws : List (Window K)) (asks : List (Option Int)) (hws : ws ≠ [])
    (z : Int) (hz : some z ∈ asks) (hbad : z < 0 ∨ (ws.length + 1 : Int) ≤ z) : defaultGroups dist t w0 ws asks = none := by
  unfold defaultGroups
  rw [if_neg hws, if_pos]
  rw [List.any_eq_true]
  refine ⟨some z, hz, ?_⟩
  simp only [badAsk, Bool.or_eq_true, decide_eq_true_eq]
  push_cast
  exact hbad

/-- **C353, negation.** With one window whatever is asked for is ignored. -/
theorem bad_window_ignored (dist t : K) (w0 : Window K) (asks : List (Option Int)) :
    defaultGroups dist t w0 [] asks = some [defaultGroup dist w0 asks.length] := by
  unfold defaultGroups
  rw [if_pos rfl]

/-- **C354 (partial).** Windings assigned to columns are in the groups they are assigned to; as many lists as windows are
needed and the windings must exist. -/
theorem assigned_partial (t : K) (w0 : Window K) (ws : List (Window K)) (n : Nat) (columns : List (List Nat))
    (gs : List (Group K)) (h : assign t w0 ws n columns = some gs) :
    gs.map Group.windings = columns ∧ columns.length = ws.length + 1 ∧ ∀ c ∈ columns, ∀ k ∈ c, k < n := by
  unfold assign at h
  split at h
  · cases h
  rename_i hlen
  have hlen : columns.length = ws.length + 1 := not_not.mp hlen
  split at h
  · cases h
  rename_i hany
  obtain ⟨hl, _, _, hwd, _⟩ := share_keeps t w0 ws _ gs h
  refine ⟨?_, hlen, ?_⟩
  · rw [hwd]
    apply List.ext_getElem?
    intro i
    rw [List.getElem?_map, columnGroups_get]
    by_cases hi : i < columns.length
    · have hi' : i < (w0 :: ws).length := by simpa [hlen] using hi
      rw [List.getElem?_eq_getElem hi', List.getElem?_eq_getElem hi]
      simp [columnGroup, hi]
    · have h1 : (w0 :: ws)[i]? = none := by rw [List.getElem?_eq_none_iff]; simp; omega
      have h2 : columns[i]? = none := by rw [List.getElem?_eq_none_iff]; omega
      rw [h1, h2]
      rfl
  · intro c hc k hk
    by_contra hge
    exact hany (List.any_eq_true.mpr ⟨c, hc, List.any_eq_true.mpr ⟨k, hk, by simpa using hge⟩⟩)

def leftWindow : Window ℚ := ⟨some 2, -10, 0, 6, 20⟩
def rightWindow : Window ℚ := ⟨some 0, 10, 0, 6, 20⟩

/-- **C354, negation.** A winding assigned to two columns is accepted in both, and one assigned to none is left out. -/
theorem assigned_twice :
    (assign (1 : ℚ) rightWindow [leftWindow] 2 [[0], [0]]).map (List.map Group.windings) = some [[0], [0]] := by
  decide +kernel

/-! ## The window of a group -/

/-- Two groups of different names are told apart. -/
theorem find_named (gs : List (Group K)) (hn : (gs.map Group.name).Nodup) : ∀ (i : Nat) (g : Group K), gs[i]? = some g →
    gs.find? (fun x => x.name == g.name) = some g := by
  induction gs with
  | nil => intro i g h; simp at h
  | cons a gs ih =>
    intro i g h
    simp only [List.map_cons, List.nodup_cons] at hn
    cases i with
    | zero => simp at h; subst h; simp
    | succ i =>
      rw [List.getElem?_cons_succ] at h
      have hne : a.name ≠ g.name := by
        intro e
        exact hn.1 (by rw [e]; exact List.mem_map.mpr ⟨g, List.mem_of_getElem? h, rfl⟩)
      rw [List.find?_cons_of_neg (by simpa using hne)]
      exact ih hn.2 i g h

theorem toString_inj {a b : Nat} (h : "Column " ++ toString a = "Column " ++ toString b) : a = b := by
  have h1 := congrArg String.toList h
  rw [String.toList_append, String.toList_append] at h1
  have h2 := List.append_cancel_left h1
  have h3 : toString a = toString b := by
    rw [← String.ofList_toList (s := toString a), ← String.ofList_toList (s := toString b), h2]
  have h4 : (Nat.repr a).toNat? = (Nat.repr b).toNat? := congrArg String.toNat? h3
  rw [Nat.toNat?_repr, Nat.toNat?_repr] at h4
  exact Option.some.inj h4

/-- **C355.** The window found for a group made for a window is that window, whatever the groups share. -/
theorem window_found (t dist : K) (w0 : Window K) (ws : List (Window K)) (asks : List (Option Int)) (gs : List (Group K))
    (hws : ws ≠ []) (h : defaultGroups dist t w0 ws asks = some gs) (i : Nat) (hi : i < ws.length + 1) :
    findWindow (w0 :: ws) (some gs) ("Column " ++ toString i) = some i := by
  obtain ⟨hl, hk, _⟩ := default_placement dist t w0 ws asks gs hws h
  have hnod : (gs.map Group.name).Nodup := by
    rw [List.nodup_iff_injective_get]
    intro a b e
    have ha : a.val < gs.length := by simpa using a.isLt
    have hb : b.val < gs.length := by simpa using b.isLt
    have ea := (hk a.val _ (List.getElem?_eq_getElem ha)).1
    have eb := (hk b.val _ (List.getElem?_eq_getElem hb)).1
    simp only [List.get_eq_getElem, List.getElem_map] at e
    rw [ea, eb] at e
    exact Fin.ext (toString_inj e)
  have hi' : i < gs.length := by omega
  obtain ⟨hn, hw⟩ := hk i _ (List.getElem?_eq_getElem hi')
  have hf := find_named gs hnod i _ (List.getElem?_eq_getElem hi')
  rw [hn] at hf
  unfold findWindow
  have hlen : ¬ (w0 :: ws).length ≤ 1 := by
    have : 0 < ws.length := List.length_pos_iff.mpr hws
    simp; omega
  simp only [hlen, if_false, hf]
  unfold windowOfGroup
  rw [hw]
  simp only
  rw [if_neg]
  · simp
  · push Not
    constructor
    · omega
    · simp; omega

theorem matchWindow_spec (g : Group K) : ∀ (ws : List (Window K)) (k : Nat),
    (∀ n : Nat, matchWindow g k ws = some n → k ≤ n ∧ ∃ w, ws[n - k]? = some w ∧ |g.x - w.x| < 1 / 10 ^ 9 ∧ |g.y - w.y| < 1 / 10 ^ 9) ∧
      (matchWindow g k ws = none ↔ ∀ w ∈ ws, ¬ (|g.x - w.x| < 1 / 10 ^ 9 ∧ |g.y - w.y| < 1 / 10 ^ 9))
  | [], k => by simp [matchWindow]
  | w :: ws, k => by
    obtain ⟨i1, i2⟩ := matchWindow_spec g ws (k + 1)
    by_cases h : |g.x - w.x| < 1 / 10 ^ 9 ∧ |g.y - w.y| < 1 / 10 ^ 9
    · have e : matchWindow g k (w :: ws) = some k := by unfold matchWindow; rw [if_pos h]
      rw [e]
      refine ⟨fun n hn => ?_, ?_⟩
      · rw [← Option.some.inj hn]
        exact ⟨le_refl _, w, by simp, h⟩
      · refine iff_of_false (by simp) (fun hn => hn w (by simp) h)
    · have e : matchWindow g k (w :: ws) = matchWindow g (k + 1) ws := by conv_lhs => unfold matchWindow; rw [if_neg h]
      rw [e]
      refine ⟨fun n hn => ?_, ?_⟩
      · obtain ⟨h1, v, h2, h3⟩ := i1 n hn
        have e2 : n - k = (n - (k + 1)) + 1 := by omega
        exact ⟨by omega, v, by rw [e2, List.getElem?_cons_succ]; exact h2, h3⟩
      · rw [i2, List.forall_mem_cons]
        exact ⟨fun hn => ⟨h, hn⟩, fun hn => hn.2⟩

/-- **C355.** The window found for any group exists: it is the one the group names, and otherwise one at whose place the group is.
There is none exactly if the group names one that does not exist, or names none and is at the place of none. -/
theorem window_exists (windows : List (Window K)) (g : Group K) :
    (∀ n : Nat, windowOfGroup windows g = some n → ∃ w, windows[n]? = some w ∧
      (g.window = some (n : Int) ∨ g.window = none ∧ |g.x - w.x| < 1 / 10 ^ 9 ∧ |g.y - w.y| < 1 / 10 ^ 9)) ∧
      (windowOfGroup windows g = none ↔ (∃ i : Int, g.window = some i ∧ (i < 0 ∨ (windows.length : Int) ≤ i)) ∨
        g.window = none ∧ ∀ w ∈ windows, ¬ (|g.x - w.x| < 1 / 10 ^ 9 ∧ |g.y - w.y| < 1 / 10 ^ 9)) := by
  unfold windowOfGroup
  cases hw : g.window with
  | none =>
    obtain ⟨i1, i2⟩ := matchWindow_spec g windows 0
    refine ⟨fun n hn => ?_, ?_⟩
    · obtain ⟨-, w, h2, h3⟩ := i1 n hn
      exact ⟨w, h2, Or.inr ⟨rfl, h3⟩⟩
    · simp only [i2]
      simp
  | some i =>
    by_cases hc : i < 0 ∨ (windows.length : Int) ≤ i
    · simp only [if_pos hc]
      refine ⟨fun n hn => by simp at hn, iff_of_true trivial (Or.inl ⟨i, rfl, hc⟩)⟩
    · simp only [if_neg hc]
      push Not at hc
      refine ⟨fun n hn => ?_, ?_⟩
      · have hn' : i.toNat = n := Option.some.inj hn
        have hlt : n < windows.length := by omega
        exact ⟨windows[n], List.getElem?_eq_getElem hlt, Or.inl (by congr 1; omega)⟩
      · refine iff_of_false (by simp) ?_
        rintro (⟨j, hj, hj'⟩ | ⟨hj, -⟩)
        · rw [← Option.some.inj hj] at hj'
          omega
        · cases hj

/-! ## Placement -/

theorem moveX_inverse (m : Move K) (x : K) : moveX true m (moveX false m x) = x ∧ moveX false m (moveX true m x) = x := by
  unfold moveX
  obtain ⟨r, c, mi, a⟩ := m
  cases r <;> cases mi <;> simp

theorem moveIn_x (w0 : Window K) (ws : List (Window K)) (s : Sec K) (x : K) :
    moveIn w0 ws { s with x := x } = moveIn w0 ws s := rfl

theorem placeSec_move (w0 : Window K) (ws : List (Window K)) (b : Bool) (f : String → Option (Move K)) (s : Sec K) :
    moveIn w0 ws (placeSec b f s) = moveIn w0 ws s ∧ (placeSec b f s).name = s.name := by
  unfold placeSec
  cases f s.name with
  | none => exact ⟨rfl, rfl⟩
  | some m => exact ⟨rfl, rfl⟩

theorem lookup_placed (w0 : Window K) (ws : List (Window K)) (b : Bool) (f : String → Option (Move K)) (secs : List (Sec K)) :
    lookup w0 ws (secs.map (placeSec b f)) = lookup w0 ws secs := by
  funext n
  unfold lookup
  rw [← List.map_reverse, List.find?_map]
  have e : ((fun s : Sec K => s.name == n) ∘ placeSec b f) = (fun s => s.name == n) := by
    funext s; simp [(placeSec_move w0 ws b f s).2]
  rw [e]
  cases (secs.reverse.find? (fun s => s.name == n)) with
  | none => rfl
  | some s => simp [(placeSec_move w0 ws b f s).1]

/-- A turn without its second crossing. -/
def bare (t : Turn K) : Turn K := { t with crossing := none }

/-- The winder gives a turn around a lateral column the length of a turn at its distance. -/
def Measured (f : String → Option (Move K)) (len : String → K → Option K) (t : Turn K) : Prop :=
  ∀ s m, t.sec = some s → f s = some m → m.reflect = true → len s |t.x| = some t.length

theorem placeTurn_back (emit : Bool) (f : String → Option (Move K)) (len : String → K → Option K) (t u : Turn K)
    (hm : Measured f len t) (h : placeTurn false emit f len t = some u) :
    ∃ v, placeTurn true false f len u = some v ∧ bare v = bare t := by
  unfold placeTurn at h
  cases hs : t.sec with
  | none =>
    rw [hs] at h
    cases h
    exact ⟨t, by unfold placeTurn; rw [hs], rfl⟩
  | some s =>
    rw [hs] at h
    simp only [] at h
    cases hf : f s with
    | none =>
      rw [hf] at h
      cases h
      refine ⟨t, ?_, rfl⟩
      unfold placeTurn
      rw [hs]
      simp only [hf]
    | some m =>
      rw [hf] at h
      simp only [] at h
      have hcw : (if m.mirror = true then (if m.mirror = true then t.clockwise.map not else t.clockwise).map not
          else (if m.mirror = true then t.clockwise.map not else t.clockwise)) = t.clockwise := by
        by_cases hx : m.mirror = true
        · simp only [hx, if_true, Option.map_map]
          cases t.clockwise <;> simp
        · rw [if_neg hx, if_neg hx]
      by_cases hr : m.reflect = true
      · rw [if_pos hr] at h
        rw [Option.map_eq_some_iff] at h
        obtain ⟨l, hl, e⟩ := h
        subst e
        refine ⟨movedTurn true false m t.length (movedTurn false emit m l t), ?_, ?_⟩
        · unfold placeTurn
          have e1 : (movedTurn false emit m l t).sec = some s := hs
          have e2 : moveX true m (movedTurn false emit m l t).x = t.x := (moveX_inverse m t.x).1
          rw [e1]
          simp only [hf]
          rw [if_pos hr, e2, hm s m hs hf hr]
          rfl
        · simp only [bare, movedTurn, (moveX_inverse m t.x).1, hcw]
      · rw [if_neg hr] at h
        cases h
        refine ⟨movedTurn true false m t.length (movedTurn false emit m t.length t), ?_, ?_⟩
        · unfold placeTurn
          have e1 : (movedTurn false emit m t.length t).sec = some s := hs
          rw [e1]
          simp only [hf]
          rw [if_neg hr]
          rfl
        · simp only [bare, movedTurn, (moveX_inverse m t.x).1, hcw]

theorem placeTurns_back (emit : Bool) (f : String → Option (Move K)) (len : String → K → Option K) (ts : List (Turn K)) :
    ∀ us, (∀ t ∈ ts, Measured f len t) → placeTurns false emit f len ts = some us →
    ∃ vs, placeTurns true false f len us = some vs ∧ vs.map bare = ts.map bare := by
  induction ts with
  | nil => intro us _ h; simp only [placeTurns, Option.some.injEq] at h; subst h; exact ⟨[], rfl, rfl⟩
  | cons t r ih =>
    intro us hm h
    simp only [placeTurns] at h
    cases ht : placeTurn false emit f len t with
    | none => rw [ht] at h; simp at h
    | some u =>
      rw [ht] at h
      simp only [Option.map_eq_some_iff] at h
      obtain ⟨us', hu, e⟩ := h
      subst e
      obtain ⟨v, hv, e1⟩ := placeTurn_back emit f len t u (hm t (by simp)) ht
      obtain ⟨vs, hvs, e2⟩ := ih us' (fun x hx => hm x (by simp [hx])) hu
      exact ⟨v :: vs, by simp [placeTurns, hv, hvs], by simp [e1, e2]⟩

theorem placeSec_back (f : String → Option (Move K)) (s : Sec K) : placeSec true f (placeSec false f s) = s := by
  unfold placeSec
  cases hf : f s.name with
  | none => simp only [hf]
  | some m => simp only [hf, (moveX_inverse m s.x).1]

theorem placeLay_back (f : String → Option (Move K)) (l : Lay K) : placeLay true f (placeLay false f l) = l := by
  unfold placeLay
  cases hf : l.sec.bind f with
  | none => simp only [hf]
  | some m => simp only [hf, (moveX_inverse m l.x).1]

/-- **C356.** Undoing the placement of a wound coil restores the sections, the layers and the turns with their lengths and
orientations, but for the second crossings. -/
theorem placement_undone (additional : Bool) (w0 : Window K) (ws : List (Window K)) (len : String → K → Option K) (st st1 : State K)
    (hflag : st.applied = false) (hm : ∀ ts, st.turns = some ts → ∀ t ∈ ts, Measured (lookup w0 ws st.sections) len t)
    (h : apply additional w0 ws len false st = (st1, false)) :
    ∃ st2, apply additional w0 ws len true st1 = (st2, false) ∧ st2.sections = st.sections ∧ st2.layers = st.layers ∧
      st2.turns.map (List.map bare) = st.turns.map (List.map bare) := by
  unfold apply at h
  rw [hflag] at h
  simp only [ne_eq, not_true, if_false] at h
  by_cases h1 : ws = []
  · rw [if_pos h1] at h
    cases h
    exact ⟨st, by unfold apply; simp [hflag], rfl, rfl, rfl⟩
  rw [if_neg h1] at h
  by_cases h2 : st.sections.any (fun s => (moveIn w0 ws s).isNone) = true
  · rw [if_pos h2] at h; simp at h
  rw [if_neg h2] at h
  simp only [Bool.not_false, Bool.and_true] at h
  by_cases h3 : (st.sections.any (isMoved w0 ws) = false && additional = false) = true
  · rw [if_pos (by simpa using h3)] at h
    cases h
    exact ⟨st, by unfold apply; simp [hflag], rfl, rfl, rfl⟩
  rw [if_neg (by simpa using h3)] at h
  have hlk := lookup_placed w0 ws false (lookup w0 ws st.sections) st.sections
  have hany1 : (st.sections.map (placeSec false (lookup w0 ws st.sections))).any (fun s => (moveIn w0 ws s).isNone) =
      st.sections.any (fun s => (moveIn w0 ws s).isNone) := by
    rw [List.any_map]; congr 1; funext s; simp [(placeSec_move w0 ws false (lookup w0 ws st.sections) s).1]
  have hany2 : (st.sections.map (placeSec false (lookup w0 ws st.sections))).any (isMoved w0 ws) = st.sections.any (isMoved w0 ws) := by
    rw [List.any_map]; congr 1; funext s
    simp [isMoved, (placeSec_move w0 ws false (lookup w0 ws st.sections) s).1]
  have hsecs : (st.sections.map (placeSec false (lookup w0 ws st.sections))).map (placeSec true (lookup w0 ws st.sections)) =
      st.sections := by
    rw [List.map_map]
    conv_rhs => rw [← List.map_id st.sections]
    apply List.map_congr_left
    intro s _
    exact placeSec_back _ s
  have hlays : (st.layers.map (List.map (placeLay false (lookup w0 ws st.sections)))).map
      (List.map (placeLay true (lookup w0 ws st.sections))) = st.layers := by
    cases st.layers with
    | none => rfl
    | some l =>
      simp only [Option.map_some, List.map_map]
      congr 1
      conv_rhs => rw [← List.map_id l]
      apply List.map_congr_left
      intro s _
      exact placeLay_back _ s
  -- nothing is moved: the sections are where they were
  have hstill : st.sections.any (isMoved w0 ws) = false →
      st.sections.map (placeSec false (lookup w0 ws st.sections)) = st.sections ∧
      (∀ n m, lookup w0 ws st.sections n = some m → m.reflect = false ∧ m.mirror = false) := by
    intro hno
    have hl : ∀ n m, lookup w0 ws st.sections n = some m → m.reflect = false ∧ m.mirror = false := by
      intro n m hnm
      unfold lookup at hnm
      rw [Option.bind_eq_some_iff] at hnm
      obtain ⟨s, hs1, hs2⟩ := hnm
      have hmem : s ∈ st.sections := by
        have := List.mem_of_find?_eq_some hs1
        simpa using this
      have := List.any_eq_false.mp hno s hmem
      unfold isMoved at this
      rw [hs2] at this
      simp only [Bool.or_eq_true, not_or, Bool.not_eq_true] at this
      exact this
    refine ⟨?_, hl⟩
    conv_rhs => rw [← List.map_id st.sections]
    apply List.map_congr_left
    intro s _
    unfold placeSec
    cases hf : lookup w0 ws st.sections s.name with
    | none => rfl
    | some m =>
      obtain ⟨a, b⟩ := hl _ _ hf
      simp [moveX, a, b]
  cases ht : st.turns with
  | none =>
    rw [ht] at h
    simp only [Prod.mk.injEq, and_true] at h
    subst h
    by_cases h4 : st.sections.any (isMoved w0 ws) = false
    · obtain ⟨hs, hl⟩ := hstill h4
      refine ⟨⟨st.sections.map (placeSec false (lookup w0 ws st.sections)),
        st.layers.map (List.map (placeLay false (lookup w0 ws st.sections))), none, true⟩, ?_, hs, ?_, rfl⟩
      · unfold apply
        simp only [ne_eq, Bool.not_false, not_true, if_false, h1, hany1, h2, hany2, h4, Bool.and_false, Bool.not_true,
          Bool.and_self, if_true, decide_true, Bool.false_eq_true]
      · cases st.layers with
        | none => rfl
        | some l =>
          simp only [Option.map_some]
          congr 1
          conv_rhs => rw [← List.map_id l]
          apply List.map_congr_left
          intro x _
          unfold placeLay
          cases hf : x.sec.bind (lookup w0 ws st.sections) with
          | none => rfl
          | some m =>
            rw [Option.bind_eq_some_iff] at hf
            obtain ⟨n, _, hn⟩ := hf
            obtain ⟨a, b⟩ := hl _ _ hn
            simp [moveX, a, b]
    · have h4' : st.sections.any (isMoved w0 ws) = true := by simpa using h4
      refine ⟨⟨st.sections, st.layers, none, false⟩, ?_, rfl, rfl, rfl⟩
      unfold apply
      simp only [ne_eq, Bool.not_false, not_true, if_false, h1, hany1, h2, hany2, h4', Bool.and_false, Bool.not_true,
        Bool.false_and, decide_false, Bool.false_eq_true, Bool.true_eq_false, hlk, hsecs, hlays]
  | some ts =>
    rw [ht] at h
    simp only [] at h
    cases hp : placeTurns false additional (lookup w0 ws st.sections) len ts with
    | none => rw [hp] at h; simp at h
    | some us =>
      rw [hp] at h
      simp only [Prod.mk.injEq, and_true] at h
      subst h
      obtain ⟨vs, hv, hb⟩ := placeTurns_back additional (lookup w0 ws st.sections) len ts us (hm ts ht) hp
      by_cases h4 : st.sections.any (isMoved w0 ws) = false
      · obtain ⟨hs, hl⟩ := hstill h4
        refine ⟨⟨st.sections.map (placeSec false (lookup w0 ws st.sections)),
          st.layers.map (List.map (placeLay false (lookup w0 ws st.sections))), some us, true⟩, ?_, hs, ?_, ?_⟩
        · unfold apply
          simp only [ne_eq, Bool.not_false, not_true, if_false, h1, hany1, h2, hany2, h4, Bool.and_false, Bool.not_true,
            Bool.and_self, if_true, decide_true, Bool.false_eq_true]
        · cases st.layers with
          | none => rfl
          | some l =>
            simp only [Option.map_some]
            congr 1
            conv_rhs => rw [← List.map_id l]
            apply List.map_congr_left
            intro x _
            unfold placeLay
            cases hf : x.sec.bind (lookup w0 ws st.sections) with
            | none => rfl
            | some m =>
              rw [Option.bind_eq_some_iff] at hf
              obtain ⟨n, _, hn⟩ := hf
              obtain ⟨a, b⟩ := hl _ _ hn
              simp [moveX, a, b]
        · -- turns: unmoved, only the crossings change
          have hus : ∀ (ts us : List (Turn K)), placeTurns false additional (lookup w0 ws st.sections) len ts = some us →
              us.map bare = ts.map bare := by
            intro ts
            induction ts with
            | nil => intro us h; simp only [placeTurns, Option.some.injEq] at h; subst h; rfl
            | cons t r ih =>
              intro us h
              simp only [placeTurns] at h
              have hone : ∃ u, placeTurn false additional (lookup w0 ws st.sections) len t = some u ∧ bare u = bare t := by
                unfold placeTurn
                cases hs' : t.sec with
                | none => exact ⟨t, rfl, rfl⟩
                | some n =>
                  simp only []
                  cases hf : lookup w0 ws st.sections n with
                  | none => exact ⟨t, rfl, rfl⟩
                  | some m =>
                    obtain ⟨a, b⟩ := hl _ _ hf
                    refine ⟨movedTurn false additional m t.length t, by simp [a], ?_⟩
                    simp [bare, movedTurn, moveX, a, b]
              obtain ⟨u, hu, hbu⟩ := hone
              rw [hu] at h
              simp only [Option.map_eq_some_iff] at h
              obtain ⟨us', h', e⟩ := h
              subst e
              simp [hbu, ih us' h']
          simp [hus ts us hp]
      · have h4' : st.sections.any (isMoved w0 ws) = true := by simpa using h4
        refine ⟨⟨st.sections, st.layers, some vs, false⟩, ?_, rfl, rfl, by simp [hb]⟩
        unfold apply
        simp only [ne_eq, Bool.not_false, not_true, if_false, h1, hany1, h2, hany2, h4', Bool.and_false, Bool.not_true,
          Bool.false_and, decide_false, Bool.false_eq_true, Bool.true_eq_false, hlk, hsecs, hlays, hv]

/-- **C357.** Placing twice is placing once. -/
theorem placed_once (additional : Bool) (w0 : Window K) (ws : List (Window K)) (len : String → K → Option K) (st st1 : State K)
    (h : apply additional w0 ws len false st = (st1, false)) : apply additional w0 ws len false st1 = (st1, false) := by
  have h' := h
  have done : st1.applied = true → apply additional w0 ws len false st1 = (st1, false) := by
    intro e; unfold apply; simp [e]
  unfold apply at h
  split at h
  · cases h; exact h'
  split at h
  · cases h; exact h'
  split at h
  · simp at h
  simp only [] at h
  split at h
  · cases h; exact h'
  split at h
  · simp only [Prod.mk.injEq, and_true] at h; subst h; exact done rfl
  · split at h
    · simp at h
    · simp only [Prod.mk.injEq, and_true] at h; subst h; exact done rfl

/-- **C358.** What is wound within a distance of the centre of its region, in the frame of winding, is placed within that
distance of the centre of the region on its side. -/
theorem placed_in_region (w0 w : Window K) (s : Sec K) (g x d : K) (hg : s.groupX = some g) (hside : w.x < 0 ↔ g < 0)
    (hx : |x - (|g|)| ≤ d) : |moveX false (moveOf w0 w s) x - g| ≤ d := by
  have hc : (moveOf w0 w s).centre = |g| := by simp [moveOf, hg]
  have hmi : (moveOf w0 w s).mirror = decide (w.x < 0) := rfl
  unfold moveX
  simp only [Bool.false_eq_true, if_false, hc, hmi]
  by_cases hn : w.x < 0
  · have hgn := hside.mp hn
    have ha : |g| = -g := abs_of_neg hgn
    simp only [hn, decide_true, if_true, ha] at hx ⊢
    rw [abs_le] at hx ⊢
    by_cases hr : (moveOf w0 w s).reflect = true
    · simp only [hr, if_true]; constructor <;> linarith [hx.1, hx.2]
    · simp only [hr, if_false, Bool.false_eq_true]; constructor <;> linarith [hx.1, hx.2]
  · have hgn : 0 ≤ g := not_lt.mp (fun h => hn (hside.mpr h))
    have ha : |g| = g := abs_of_nonneg hgn
    simp only [hn, decide_false, Bool.false_eq_true, if_false, ha] at hx ⊢
    rw [abs_le] at hx ⊢
    by_cases hr : (moveOf w0 w s).reflect = true
    · simp only [hr, if_true]; constructor <;> linarith [hx.1, hx.2]
    · simp only [hr, if_false, Bool.false_eq_true]; constructor <;> linarith [hx.1, hx.2]

/-- **C359 (partial).** When second crossings are asked for, a turn placed for the first time has its second crossing as far
from the axis of its column as the first, on the other side. -/
theorem crossing_opposite_partial (f : String → Option (Move K)) (len : String → K → Option K) (t u : Turn K) (s : String)
    (m : Move K) (hs : t.sec = some s) (hf : f s = some m) (h : placeTurn false true f len t = some u) :
    ∃ cx, u.crossing = some (cx, u.y) ∧ cx - m.axis = -(u.x - m.axis) := by
  unfold placeTurn at h
  rw [hs] at h
  simp only [hf] at h
  have key : ∀ l, ∃ cx, (movedTurn false true m l t).crossing = some (cx, (movedTurn false true m l t).y) ∧
      cx - m.axis = -((movedTurn false true m l t).x - m.axis) := by
    intro l
    refine ⟨2 * m.axis - moveX false m t.x, by simp [movedTurn], ?_⟩
    simp only [movedTurn]
    ring
  split at h
  · rw [Option.map_eq_some_iff] at h
    obtain ⟨l, _, e⟩ := h
    subst e
    exact key l
  · cases h
    exact key _

/-- **C359.** That axis is the middle for sections around the main column, or in windows without one, and for others that of their
column, on the side of their window. -/
theorem axis_of_column (w0 w : Window K) (s : Sec K) :
    (w.column = none ∨ w.column = w0.column → (moveOf w0 w s).axis = 0) ∧
      (w.column ≠ none → w.column ≠ w0.column → (moveOf w0 w s).axis = if w.x < 0 then -s.axis else s.axis) := by
  cases hc : w.column with
  | none => simp [moveOf, hc]
  | some c =>
    constructor
    · rintro (h | h)
      · cases h
      · simp [moveOf, hc, ← h]
    · intro _ h
      simp only [moveOf, hc, decide_eq_true_eq]
      rw [if_pos (fun e => h e.symm)]

/-- **C359, negation.** When no section is mirrored or reflected, undoing the placement of a coil with second crossings does
not mark it as undone, so that turns wound anew get no second crossings when placed again. -/
theorem crossings_lost (w0 : Window K) (ws : List (Window K)) (len : String → K → Option K) (st : State K) (hws : ws ≠ [])
    (hap : st.applied = true) (hin : ∀ s ∈ st.sections, moveIn w0 ws s ≠ none) (hno : st.sections.any (isMoved w0 ws) = false)
    (fresh : List (Turn K)) :
    let undone := (apply true w0 ws len true st).1
    undone.applied = true ∧
    (apply true w0 ws len false { undone with turns := some fresh }).1.turns = some fresh := by
  have hany : st.sections.any (fun s => (moveIn w0 ws s).isNone) = false := by
    rw [List.any_eq_false]
    intro s hs
    have := hin s hs
    cases hm : moveIn w0 ws s with
    | none => exact absurd hm this
    | some m => simp
  have e : apply true w0 ws len true st = (st, false) := by
    unfold apply
    simp [hap, hws, hany, hno]
  simp only [e]
  refine ⟨hap, ?_⟩
  unfold apply
  simp [hap]

/-- A section of the first window of two. -/
def mainSec : Sec ℚ := ⟨"S", 10, 0, some 10, 0⟩
def mainTurn : Turn ℚ := ⟨some "S", 9, 1, 7, some true, none⟩
def mainState : State ℚ := ⟨[mainSec], none, some [mainTurn], false⟩

/-- The first placement gives the turn its second crossing, and placing it again after winding it anew does not. -/
example : (apply true rightWindow [leftWindow] (fun _ _ => none) false mainState).1.turns =
      some [⟨some "S", 9, 1, 7, some true, some (-9, 1)⟩] ∧
    (apply true rightWindow [leftWindow] (fun _ _ => none) false
      { (apply true rightWindow [leftWindow] (fun _ _ => none) true
          (apply true rightWindow [leftWindow] (fun _ _ => none) false mainState).1).1 with turns := some [mainTurn] }).1.turns =
      some [mainTurn] := ⟨by decide +kernel, by decide +kernel⟩

/-- A section around the left leg: reflected and mirrored, and its turns get the length at their new distance. -/
def leftState : State ℚ :=
  ⟨[⟨"L", 10, 1, some (-10), 15⟩], some [⟨some "L", 10⟩], some [⟨some "L", 8, 1, 7, some true, none⟩], false⟩

example : apply true rightWindow [leftWindow] (fun _ x => some |x - 15|) false leftState =
    (⟨[⟨"L", -10, 1, some (-10), 15⟩], some [⟨some "L", -10⟩], some [⟨some "L", -12, 1, 3, some false, some (-18, 1)⟩], true⟩,
      false) ∧ Measured (lookup rightWindow [leftWindow] leftState.sections) (fun _ x => some |x - 15|)
        (⟨some "L", 8, 1, 7, some true, none⟩ : Turn ℚ) := by
  constructor
  · decide +kernel
  · intro s m h _ _
    cases h
    norm_num

/-- Two windings, one around the main column and one around the left leg, in two windows. -/
example : (defaultGroups (0 : ℚ) 1 rightWindow [leftWindow] [none, some 1]).map (List.map (fun g => (g.windings, g.x, g.w))) =
    some [([0], 33 / 4, 5 / 2), ([1], -43 / 4, 5 / 2)] := by decide +kernel

/-! ## Overlaps -/

/-- **C360 (partial).** When every winding is around a lateral column, no two groups with windings are in the same region;
when some is around the main column, a main and a lateral group of one region do not overlap. -/
theorem no_overlap_partial (t : K) (w0 : Window K) (ws : List (Window K)) (groups out : List (Group K)) (hws : ws ≠ [])
    (h : share t w0 ws groups = some out) :
    ((∀ g ∈ groups, g.windings ≠ [] → isLateral w0 ws g = some true) → (∃ g ∈ groups, g.windings ≠ []) →
      anySame (groups.filter isWound) = false) ∧
    (∀ (i j : Nat) (a b : Group K), groups[i]? = some a → groups[j]? = some b → a.windings ≠ [] → b.windings ≠ [] →
      isLateral w0 ws a = some false → isLateral w0 ws b = some true → a.x = b.x → a.w = b.w → 0 ≤ innerEdge a → 0 ≤ t →
      t ≤ a.w → ∃ a' b', out[i]? = some a' ∧ out[j]? = some b' ∧ outerEdge a' ≤ innerEdge b') := by
  have hwound : ∀ g : Group K, g.windings ≠ [] ↔ isWound g = true := by
    intro g; unfold isWound; cases g.windings <;> simp
  unfold share at h
  rw [if_neg hws] at h
  split at h
  · cases h
  simp only [] at h
  constructor
  · intro hall ⟨g, hg, hgw⟩
    have hl : ((groups.filter isWound).any (fun g => isLateral w0 ws g == some true)) = true := by
      rw [List.any_eq_true]
      exact ⟨g, List.mem_filter.mpr ⟨hg, (hwound g).mp hgw⟩, by simp [hall g hg hgw]⟩
    have hm : ((groups.filter isWound).any (fun g => isLateral w0 ws g == some false)) = false := by
      rw [List.any_eq_false]
      intro x hx
      rw [List.mem_filter] at hx
      simp [hall x hx.1 ((hwound x).mpr hx.2)]
    rw [hl, hm] at h
    simp only [Bool.true_eq_false, if_false, decide_true, Bool.true_and] at h
    cases hs : anySame (groups.filter isWound) with
    | false => rfl
    | true => rw [hs] at h; simp at h
  · intro i j a b ha hb hwa hwb hla hlb hx hw hin ht htw
    have hl : ((groups.filter isWound).any (fun g => isLateral w0 ws g == some true)) = true := by
      rw [List.any_eq_true]
      exact ⟨b, List.mem_filter.mpr ⟨List.mem_of_getElem? hb, (hwound b).mp hwb⟩, by simp [hlb]⟩
    have hm : ((groups.filter isWound).any (fun g => isLateral w0 ws g == some false)) = true := by
      rw [List.any_eq_true]
      exact ⟨a, List.mem_filter.mpr ⟨List.mem_of_getElem? ha, (hwound a).mp hwa⟩, by simp [hla]⟩
    rw [hl, hm] at h
    simp only [Bool.true_eq_false, if_false, decide_false, Bool.false_and, Bool.false_eq_true, Bool.and_self] at h
    cases h
    refine ⟨reshape t true false a, reshape t true true b, ?_, ?_, ?_⟩
    · rw [List.getElem?_map, ha]; simp [shareOne, (hwound a).mp hwa, hla]
    · rw [List.getElem?_map, hb]; simp [shareOne, (hwound b).mp hwb, hlb]
    · have e1 : innerEdge b = innerEdge a := by unfold innerEdge; rw [hx, hw]
      have e2 : outerEdge b = outerEdge a := by unfold outerEdge; rw [hx, hw]
      have e3 : outerEdge a - innerEdge a = a.w := by unfold outerEdge innerEdge; ring
      have p1 : 0 ≤ newInner t true false a + newOuter t true false a := by
        simp [newInner, newOuter, midline]; linarith
      have p2 : 0 ≤ newInner t true true b + newOuter t true true b := by
        simp [newInner, newOuter, midline, e1, e2]; linarith
      rw [(reshape_edges t true false a p1).2, (reshape_edges t true true b p2).1]
      simp [newInner, newOuter, midline, e1, e2]

/-- Two windows more at one region, around two lateral columns. -/
def sharedWindows : List (Window ℚ) := [⟨some 1, 10, 0, 6, 20⟩, ⟨some 2, 10, 0, 6, 20⟩]

/-- **C360, negation.** Two windings around lateral columns in one region are placed over each other when there is one around
the main column, and refused when there is not. -/
theorem laterals_overlap :
    (defaultGroups (0 : ℚ) 1 rightWindow sharedWindows [none, some 1, some 2]).map (List.map (fun g => (g.x, g.w))) =
      some [(33 / 4, 5 / 2), (43 / 4, 5 / 2), (43 / 4, 5 / 2)] ∧
    defaultGroups (0 : ℚ) 1 rightWindow sharedWindows [some 1, some 2] = none := ⟨by decide +kernel, by decide +kernel⟩

/-! ## Length of turns -/

/-- **C361.** A turn farther from the axis of its column is no shorter; one as far as the wall and a distance more is the
perimeter of the wall and the turn of that distance; no length is negative. -/
theorem length_grows (pi : K) (hpi : 0 < pi) (f : Frame K) (x y lx ly : K) (h : radius f x ≤ radius f y)
    (hx : turnLength pi f x = some (some lx)) (hy : turnLength pi f y = some (some ly)) :
    lx ≤ ly ∧ 0 ≤ lx ∧ (radius f x < radius f y → lx < ly) ∧
    (∀ d, radius f x = f.width + d → f.shape = .rectangular → lx = 4 * (f.depth + f.width) + 2 * pi * d) ∧
    (∀ d, radius f x = f.width + d → f.shape = .oblong → lx = 2 * pi * f.width + 4 * (f.depth - f.width) + 2 * pi * d) ∧
    (f.shape = .round → lx = 2 * pi * radius f x) := by
  have raw : ∀ z lz, turnLength pi f z = some (some lz) → rawLength pi f z = some lz ∧ 0 ≤ lz := by
    intro z lz hz
    unfold turnLength at hz
    rw [Option.map_eq_some_iff] at hz
    obtain ⟨l, hl, e⟩ := hz
    by_cases hn : l < 0
    · rw [if_pos hn] at e; cases e
    · rw [if_neg hn] at e; cases e; exact ⟨hl, not_lt.mp hn⟩
  obtain ⟨rx, px⟩ := raw x lx hx
  obtain ⟨ry, py⟩ := raw y ly hy
  have hle : 2 * pi * radius f x ≤ 2 * pi * radius f y := mul_le_mul_of_nonneg_left h (by linarith)
  have hlt : radius f x < radius f y → 2 * pi * radius f x < 2 * pi * radius f y := fun h =>
    mul_lt_mul_of_pos_left h (by linarith)
  unfold rawLength at rx ry
  cases hs : f.shape <;> simp only [hs, Option.some.injEq, reduceCtorEq] at rx ry
  all_goals subst rx ry
  all_goals refine ⟨by linarith, px, fun h => by have := hlt h; linarith, fun d hd he => ?_, fun d hd he => ?_, fun he => ?_⟩
  all_goals first | (cases he; done) | skip
  all_goals (try rw [hd]) <;> ring

/-- A rectangular leg at 15, of 2 by 3, and turns at 11 and 10. -/
example : turnLength (3 : ℚ) ⟨.rectangular, 2, 3, 15⟩ 11 = some (some 32) ∧
    turnLength (3 : ℚ) ⟨.rectangular, 2, 3, 15⟩ 10 = some (some 38) ∧
    radius (⟨.rectangular, 2, 3, 15⟩ : Frame ℚ) 11 < radius (⟨.rectangular, 2, 3, 15⟩ : Frame ℚ) 10 :=
  ⟨by decide +kernel, by decide +kernel, by decide +kernel⟩

end Verif.Columns
