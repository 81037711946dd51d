import Verif.Gapping.Lemmas
import Verif.Gapping.Spec

/-! # Properties of gaps: C99 to C102 -/

namespace Verif.Gapping

set_option linter.unusedSimpArgs false

/-! ## From the model to the specification -/

theorem splitColumns_spec (c : Core) : splitColumns c = (windingColumn c).map fun w => (w, returnColumns c) := by
  have place2 : ∀ col : Column, col.place = .central ∨ col.place = .lateral := by
    intro col; cases col.place <;> simp
  unfold splitColumns windingColumn returnColumns columnsOf
  cases hf : c.columns.find? (fun col => decide (col.place = .central)) with
  | none =>
    have hnone : ∀ col ∈ c.columns, ¬ col.place = .central := by
      intro col hm hc
      have := List.find?_eq_none.mp hf col hm
      simp [hc] at this
    have hc0 : c.columns.filter (fun col => decide (col.place = .central)) = [] := by
      rw [List.filter_eq_nil_iff]; intro col hm; simp [hnone col hm]
    have hl0 : c.columns.filter (fun col => decide (col.place = .lateral)) = c.columns := by
      rw [List.filter_eq_self]
      intro col hm
      rcases place2 col with h | h
      · exact absurd h (hnone col hm)
      · simp [h]
    have ha : c.columns.any (fun col => decide (col.place = .central)) = false := by
      rw [List.any_eq_false]; intro col hm; simp [hnone col hm]
    rw [hc0, hl0, ha]
    cases c.columns <;> simp
  | some f =>
    have hfm := List.find?_some hf
    have hmem := List.mem_of_find?_eq_some hf
    have ha : c.columns.any (fun col => decide (col.place = .central)) = true := by
      rw [List.any_eq_true]; exact ⟨f, hmem, hfm⟩
    have hh : (c.columns.filter (fun col => decide (col.place = .central))).head? = some f := by
      rw [List.head?_filter, hf]
    cases hc : c.columns.filter (fun col => decide (col.place = .central)) with
    | nil => rw [hc] at hh; simp at hh
    | cons f' os =>
      rw [hc] at hh
      simp only [List.head?_cons, Option.some.injEq] at hh
      subst hh
      simp [ha]

theorem on_laid {w : Option ℚ} {col : Column} {k : Kind} {len y d : ℚ} (hd : 0 ≤ d) :
    On (laid w col k len (col.x, y, col.z) d) col :=
  ⟨⟨y, rfl⟩, rfl, rfl, rfl, ⟨d, rfl, hd⟩⟩

theorem centred_of_inMiddle {c : Core} {col : Column} {k : Kind} {len : ℚ} {g : Gap} (h : inMiddle c col k len = .ok g) :
    Centred g col ∧ g.says = (k, len) := by
  obtain ⟨hl, w, _, rfl⟩ := inMiddle_ok.mp h
  refine ⟨⟨on_laid (by linarith), rfl, ?_⟩, rfl⟩
  simp only [laid]
  congr 1
  ring

theorem store_ok {gaps : List Gap} {s : Step (List Gap)} {out : List Gap} :
    store gaps s = (.ok, out) ↔ s = .ok out := by
  cases s <;> simp [store]

theorem distribute_ok {c : Core} {gaps out : List Gap} :
    distribute c gaps = (.ok, out) ↔ layout c (trimmed c gaps) = .ok out := store_ok

theorem ofKind_lengths (gaps : List Gap) :
    (ofKind .subtractive gaps).length + (ofKind .additive gaps).length + (ofKind .residual gaps).length =
      gaps.length := by
  induction gaps with
  | nil => rfl
  | cons g rest ih =>
    simp only [ofKind] at ih ⊢
    cases h : g.kind <;> simp [h] <;> omega

theorem all_of_length {k : Kind} {gaps : List Gap} (h : (ofKind k gaps).length = gaps.length) :
    ∀ g ∈ gaps, g.kind = k := by
  intro g hg
  have := List.length_filter_eq_length_iff.mp h g hg
  simpa using this

/-- The four ways of `layout`, with what reached each. -/
theorem layout_cases {c : Core} {gaps out : List Gap} (h : layout c gaps = .ok out) :
    (gaps = [] ∧ Step.each (fun col => inMiddle c col .residual residualLength) c.columns = .ok out) ∨
    (gaps ≠ [] ∧ gaps.length < c.columns.length ∧ (∀ g ∈ gaps, g.kind ≠ .subtractive) ∧ spread c gaps = .ok out) ∨
    (gaps ≠ [] ∧ gaps.length = c.columns.length ∧ ((∀ g ∈ gaps, g.kind = .residual) ∨ ∀ g ∈ gaps, g.kind = .additive) ∧
      Step.each (fun p : Column × Gap => inMiddle c p.1 p.2.kind p.2.length) (c.columns.zip gaps) = .ok out) ∨
    (gaps ≠ [] ∧ overColumns c (ofKind .subtractive gaps ++ ofKind .additive gaps) (ofKind .residual gaps) = .ok out) := by
  unfold layout at h
  simp only at h
  by_cases h0 : gaps.length = 0
  · rw [if_pos h0] at h
    exact Or.inl ⟨List.length_eq_zero_iff.mp h0, h⟩
  · rw [if_neg h0] at h
    have hne : gaps ≠ [] := fun e => h0 (by simp [e])
    by_cases h1 : gaps.length < c.columns.length ∧ (ofKind .subtractive gaps).length = 0
    · rw [if_pos h1] at h
      refine Or.inr (Or.inl ⟨hne, h1.1, ?_, h⟩)
      intro g hg hk
      have : g ∈ ofKind .subtractive gaps := by simp [ofKind, hg, hk]
      rw [List.length_eq_zero_iff.mp h1.2] at this
      simp at this
    · rw [if_neg h1] at h
      by_cases h2 : ((ofKind .residual gaps).length = c.columns.length ∨ (ofKind .additive gaps).length = c.columns.length) ∧
          gaps.length = c.columns.length
      · rw [if_pos h2] at h
        refine Or.inr (Or.inr (Or.inl ⟨hne, h2.2, ?_, h⟩))
        rcases h2.1 with h3 | h3
        · exact Or.inl (all_of_length (by rw [h3, h2.2]))
        · exact Or.inr (all_of_length (by rw [h3, h2.2]))
      · rw [if_neg h2] at h
        exact Or.inr (Or.inr (Or.inr ⟨hne, h⟩))

/-- One gap in the middle of every column. -/
theorem each_columns {c : Core} {gaps out : List Gap}
    (h : gaps = [] ∧ Step.each (fun col => inMiddle c col .residual residualLength) c.columns = .ok out ∨
      gaps ≠ [] ∧ gaps.length ≤ c.columns.length ∧ spread c gaps = .ok out ∨
      gaps ≠ [] ∧ gaps.length = c.columns.length ∧
        Step.each (fun p : Column × Gap => inMiddle c p.1 p.2.kind p.2.length) (c.columns.zip gaps) = .ok out) :
    out.length = c.columns.length ∧ ∀ (i : Nat) (col : Column), c.columns[i]? = some col →
      ∃ g, out[i]? = some g ∧ Centred g col ∧ g.says = intended gaps i := by
  rcases h with ⟨rfl, h⟩ | ⟨hne, hlen, h⟩ | ⟨hne, hlen, h⟩
  · obtain ⟨h1, h2, _⟩ := each_get h
    refine ⟨h1, ?_⟩
    intro i col hc
    obtain ⟨g, hg, e⟩ := h2 i col hc
    obtain ⟨hcen, hs⟩ := centred_of_inMiddle e
    exact ⟨g, hg, hcen, by rw [hs]; rfl⟩
  · obtain ⟨h1, h2, _⟩ := each_get h
    refine ⟨by simpa using h1, ?_⟩
    intro i col hc
    obtain ⟨g, hg, e⟩ := h2 i (col, i) (by simp [List.getElem?_zipIdx, hc])
    simp only at e
    have hlast : gaps.getLast? = some (gaps.getLast hne) := List.getLast?_eq_some_getLast hne
    have hpos : 0 < gaps.length := List.length_pos_iff.mpr hne
    cases hk : gaps[min i (gaps.length - 1)]? with
    | none => rw [hk] at e; simp at e
    | some r =>
      rw [hk] at e
      obtain ⟨hcen, hs⟩ := centred_of_inMiddle e
      refine ⟨g, hg, hcen, ?_⟩
      rw [hs]
      unfold intended
      rw [hlast]
      simp only
      by_cases hi : i < gaps.length
      · have hm : min i (gaps.length - 1) = i := by omega
        rw [hm] at hk
        rw [hk]; rfl
      · have hm : min i (gaps.length - 1) = gaps.length - 1 := by omega
        rw [hm] at hk
        have hn : gaps[i]? = none := List.getElem?_eq_none (by omega)
        rw [hn]
        have : gaps.getLast? = some r := by rw [List.getLast?_eq_getElem?, hk]
        rw [hlast] at this
        rw [Option.some.inj this]; rfl
  · obtain ⟨h1, h2, _⟩ := each_get h
    refine ⟨by rw [h1]; simp [hlen], ?_⟩
    intro i col hc
    have hi : i < gaps.length := by rw [hlen]; exact (List.getElem?_eq_some_iff.mp hc).1
    have hgi : gaps[i]? = some gaps[i] := List.getElem?_eq_getElem hi
    obtain ⟨g, hg, e⟩ := h2 i (col, gaps[i]) (by rw [List.getElem?_zip_eq_some]; exact ⟨hc, hgi⟩)
    obtain ⟨hcen, hs⟩ := centred_of_inMiddle e
    refine ⟨g, hg, hcen, ?_⟩
    rw [hs]
    unfold intended
    rw [List.getLast?_eq_some_getLast hne, hgi]; rfl

theorem mem_of_columns {c : Core} {out : List Gap} {P : Gap → Column → Prop} (hlen : out.length = c.columns.length)
    (h : ∀ (i : Nat) (col : Column), c.columns[i]? = some col → ∃ g, out[i]? = some g ∧ P g col) :
    (∀ g ∈ out, ∃ col ∈ c.columns, P g col) ∧ ∀ col ∈ c.columns, ∃ g ∈ out, P g col := by
  constructor
  · intro g hg
    obtain ⟨i, hi, rfl⟩ := List.getElem_of_mem hg
    have hc : c.columns[i]? = some (c.columns[i]'(hlen ▸ hi)) := List.getElem?_eq_getElem _
    obtain ⟨g', hg', hp⟩ := h i _ hc
    rw [List.getElem?_eq_getElem hi] at hg'
    exact ⟨_, List.getElem_mem _, (Option.some.inj hg') ▸ hp⟩
  · intro col hc
    obtain ⟨i, hi, rfl⟩ := List.getElem_of_mem hc
    obtain ⟨g, hg, hp⟩ := h i _ (List.getElem?_eq_getElem hi)
    exact ⟨g, List.mem_of_getElem? hg, hp⟩

/-- What is laid down the winding column and in the others. -/
theorem over_spec {c : Core} {nr residuals out : List Gap} (h : overColumns c nr residuals = .ok out) :
    ∃ (wind : Column) (down others : List Gap), windingColumn c = some wind ∧ out = down ++ others ∧
      down.map Gap.says = nr.map Gap.says ∧ (∀ g ∈ down, On g wind) ∧ down ≠ [] ∧
      others.length = (returnColumns c).length ∧
      ∀ (i : Nat) (col : Column), (returnColumns c)[i]? = some col → ∃ g, others[i]? = some g ∧ Centred g col ∧
        ((residuals.length < (returnColumns c).length ∧ g.says = (.residual, residualLength)) ∨
         ((returnColumns c).length ≤ residuals.length ∧ ∃ r, residuals[i]? = some r ∧ g.says = r.says)) := by
  obtain ⟨wind, returns, g, w, others, hs, hg, hw, hpos, hret, rfl⟩ := overColumns_ok h
  rw [splitColumns_spec] at hs
  simp only [Option.map_eq_some_iff, Prod.mk.injEq] at hs
  obtain ⟨wind', hwind, rfl, rfl⟩ := hs
  refine ⟨wind', _, others, hwind, rfl, ?_, ?_, ?_, ?_⟩
  · apply List.ext_getElem?
    intro i
    simp only [List.getElem?_map]
    cases hgi : nr[i]? with
    | none =>
      have : i ≥ nr.length := by simpa using hgi
      rw [List.getElem?_eq_none (by rw [downList_length]; exact this)]
    | some r => rw [downList_get hgi]; rfl
  · intro g' hm
    obtain ⟨i, hi, rfl⟩ := List.getElem_of_mem hm
    rw [downList_length] at hi
    have hgi : nr[i]? = some nr[i] := List.getElem?_eq_getElem hi
    have e := downList_get (w := w) (col := wind') (total := nr.length) (chunk := (startOf wind' nr g.length).1)
      (rise := rd (wind'.height / ((nr.length : ℚ) + 1))) (o := (startOf wind' nr g.length).2.1)
      (d := (startOf wind' nr g.length).2.2) hgi
    rw [List.getElem?_eq_getElem (by rw [downList_length]; exact hi)] at e
    rw [Option.some.inj e]
    exact on_laid (hpos i hi)
  · intro he
    have hl := downList_length w wind' nr.length (startOf wind' nr g.length).1
      (rd (wind'.height / ((nr.length : ℚ) + 1))) (startOf wind' nr g.length).2.1 (startOf wind' nr g.length).2.2 0 nr
    rw [he] at hl
    have : nr = [] := List.length_eq_zero_iff.mp (by simpa using hl.symm)
    rw [this] at hg
    simp at hg
  · obtain ⟨hl, hall⟩ := inReturns_ok hret
    refine ⟨hl, ?_⟩
    intro i col hc
    obtain ⟨g', hg', k, len, e, hk⟩ := hall i col hc
    obtain ⟨hcen, hsays⟩ := centred_of_inMiddle e
    refine ⟨g', hg', hcen, ?_⟩
    rcases hk with ⟨h1, rfl, rfl⟩ | ⟨h1, r, hr, rfl, rfl⟩
    · exact Or.inl ⟨h1, hsays⟩
    · exact Or.inr ⟨h1, r, hr, hsays⟩

theorem returnColumns_mem {c : Core} {col : Column} (h : col ∈ returnColumns c) : col ∈ c.columns := by
  unfold returnColumns at h
  split at h
  · exact List.mem_of_mem_filter h
  · exact List.mem_of_mem_tail h

theorem windingColumn_mem {c : Core} {col : Column} (h : windingColumn c = some col) : col ∈ c.columns := by
  unfold windingColumn at h
  rcases Option.or_eq_some_iff.mp h with h | ⟨_, h⟩
  · exact List.mem_of_find?_eq_some h
  · exact List.mem_of_mem_head? h

/-! ## C99: where gaps are -/

/-- **C99.** After the gaps of a core are distributed, every gap is on one of its columns: at its x and z, with its shape,
its area and its section, and with no negative room left. -/
theorem gaps_on_columns (c : Core) (gaps out : List Gap) (h : distribute c gaps = (.ok, out)) :
    ∀ g ∈ out, ∃ col ∈ c.columns, On g col := by
  rw [distribute_ok] at h
  rcases layout_cases h with ⟨e, h⟩ | ⟨e, hl, _, h⟩ | ⟨e, hl, _, h⟩ | ⟨_, h⟩
  · obtain ⟨h1, h2⟩ := each_columns (Or.inl ⟨e, h⟩)
    exact (mem_of_columns (P := On) h1 fun i col hc => by
      obtain ⟨g, hg, hcen, _⟩ := h2 i col hc; exact ⟨g, hg, hcen.on⟩).1
  · obtain ⟨h1, h2⟩ := each_columns (Or.inr (Or.inl ⟨e, hl.le, h⟩))
    exact (mem_of_columns (P := On) h1 fun i col hc => by
      obtain ⟨g, hg, hcen, _⟩ := h2 i col hc; exact ⟨g, hg, hcen.on⟩).1
  · obtain ⟨h1, h2⟩ := each_columns (Or.inr (Or.inr ⟨e, hl, h⟩))
    exact (mem_of_columns (P := On) h1 fun i col hc => by
      obtain ⟨g, hg, hcen, _⟩ := h2 i col hc; exact ⟨g, hg, hcen.on⟩).1
  · obtain ⟨wind, down, others, hw, rfl, _, hd, _, hlo, ho⟩ := over_spec h
    intro g hg
    rcases List.mem_append.mp hg with hg | hg
    · exact ⟨wind, windingColumn_mem hw, hd g hg⟩
    · obtain ⟨i, hi, rfl⟩ := List.getElem_of_mem hg
      have hc : (returnColumns c)[i]? = some ((returnColumns c)[i]'(hlo ▸ hi)) := List.getElem?_eq_getElem _
      obtain ⟨g', hg', hcen, _⟩ := ho i _ hc
      rw [List.getElem?_eq_getElem hi] at hg'
      rw [Option.some.inj hg']
      exact ⟨_, returnColumns_mem (List.getElem_mem _), hcen.on⟩

/-- **C99.** And every column has at least one gap, in a core with at most one central column. -/
theorem every_column_gapped (c : Core) (gaps out : List Gap)
    (hone : (c.columns.filter fun col => col.place = .central).length ≤ 1) (h : distribute c gaps = (.ok, out)) :
    ∀ col ∈ c.columns, ∃ g ∈ out, On g col := by
  rw [distribute_ok] at h
  rcases layout_cases h with ⟨e, h⟩ | ⟨e, hl, _, h⟩ | ⟨e, hl, _, h⟩ | ⟨_, h⟩
  · obtain ⟨h1, h2⟩ := each_columns (Or.inl ⟨e, h⟩)
    exact (mem_of_columns (P := On) h1 fun i col hc => by
      obtain ⟨g, hg, hcen, _⟩ := h2 i col hc; exact ⟨g, hg, hcen.on⟩).2
  · obtain ⟨h1, h2⟩ := each_columns (Or.inr (Or.inl ⟨e, hl.le, h⟩))
    exact (mem_of_columns (P := On) h1 fun i col hc => by
      obtain ⟨g, hg, hcen, _⟩ := h2 i col hc; exact ⟨g, hg, hcen.on⟩).2
  · obtain ⟨h1, h2⟩ := each_columns (Or.inr (Or.inr ⟨e, hl, h⟩))
    exact (mem_of_columns (P := On) h1 fun i col hc => by
      obtain ⟨g, hg, hcen, _⟩ := h2 i col hc; exact ⟨g, hg, hcen.on⟩).2
  · obtain ⟨wind, down, others, hw, rfl, _, hd, hne, _, ho⟩ := over_spec h
    intro col hcol
    have hsplit : col = wind ∨ col ∈ returnColumns c := by
      unfold windingColumn at hw
      unfold returnColumns
      by_cases ha : c.columns.any (fun col => decide (col.place = .central)) = true
      · rw [if_pos ha]
        obtain ⟨x, hx, hxc⟩ := List.any_eq_true.mp ha
        cases hf : c.columns.find? (fun col => decide (col.place = .central)) with
        | none => exact absurd hxc (List.find?_eq_none.mp hf x hx)
        | some f =>
          rw [hf] at hw
          simp only [Option.some_or, Option.some.injEq] at hw
          subst hw
          cases hp : col.place with
          | lateral => exact Or.inr (List.mem_filter.mpr ⟨hcol, by simp [hp]⟩)
          | central =>
            left
            have hff := List.find?_some hf
            have m1 : col ∈ c.columns.filter fun col => decide (col.place = .central) :=
              List.mem_filter.mpr ⟨hcol, by simp [hp]⟩
            have m2 : f ∈ c.columns.filter fun col => decide (col.place = .central) :=
              List.mem_filter.mpr ⟨List.mem_of_find?_eq_some hf, hff⟩
            match hl : c.columns.filter fun col => decide (col.place = .central) with
            | [] => rw [hl] at m1; simp at m1
            | [y] => rw [hl] at m1 m2; simp at m1 m2; rw [m1, m2]
            | y :: z :: r => rw [hl] at hone; simp at hone
      · rw [if_neg ha]
        have hf : c.columns.find? (fun col => decide (col.place = .central)) = none := by
          rw [List.find?_eq_none]
          intro x hx hxc
          exact ha (List.any_eq_true.mpr ⟨x, hx, hxc⟩)
        rw [hf] at hw
        simp only [Option.none_or] at hw
        cases hcs : c.columns with
        | nil => rw [hcs] at hcol; simp at hcol
        | cons a rest =>
          rw [hcs] at hw hcol
          simp only [List.head?_cons, Option.some.injEq] at hw
          subst hw
          simpa using hcol
    rcases hsplit with rfl | hr
    · obtain ⟨g, hg⟩ := List.exists_mem_of_ne_nil down hne
      exact ⟨g, List.mem_append_left _ hg, hd g hg⟩
    · obtain ⟨i, hi, rfl⟩ := List.getElem_of_mem hr
      obtain ⟨g, hg, hcen, _⟩ := ho i _ (List.getElem?_eq_getElem hi)
      exact ⟨g, List.mem_append_right _ (List.mem_of_getElem? hg), hcen.on⟩

/-- **C99.** Gaps ground into a core go to the column the windings go around, all of them, with their lengths, before the
spacers that came with them; and every return column has one residual gap in its middle, those of the caller when there
are enough of them, default ones otherwise. -/
theorem ground_gaps_on_winding_column (c : Core) (gaps out : List Gap) (hsub : ∃ g ∈ gaps, g.kind = .subtractive)
    (h : distribute c gaps = (.ok, out)) :
    ∃ (wind : Column) (down others : List Gap), windingColumn c = some wind ∧ out = down ++ others ∧
      (∀ g ∈ down, On g wind) ∧
      down.map Gap.says = ((gaps.filter fun g => g.kind = .subtractive) ++
        (gaps.filter fun g => g.kind = .additive)).map Gap.says ∧
      others.length = (returnColumns c).length ∧
      ∀ (i : Nat) (col : Column), (returnColumns c)[i]? = some col → ∃ g, others[i]? = some g ∧ Centred g col ∧
        g.kind = .residual ∧
        (((gaps.filter fun g => g.kind = .residual).length < (returnColumns c).length ∧ g.length = residualLength) ∨
         ((returnColumns c).length ≤ (gaps.filter fun g => g.kind = .residual).length ∧
          ((gaps.filter fun g => g.kind = .residual)[i]?).map Gap.length = some g.length)) := by
  rw [distribute_ok] at h
  obtain ⟨s, hs, hk⟩ := hsub
  have ht : trimmed c gaps = gaps := by
    unfold trimmed
    rw [if_neg]
    rintro ⟨hall, _⟩
    have := List.all_eq_true.mp hall s hs
    simp [hk] at this
  rw [ht] at h
  rcases layout_cases h with ⟨e, _⟩ | ⟨_, _, hn, _⟩ | ⟨_, _, hn | hn, _⟩ | ⟨_, h⟩
  · rw [e] at hs; simp at hs
  · exact absurd hk (hn s hs)
  · rw [hn s hs] at hk; simp at hk
  · rw [hn s hs] at hk; simp at hk
  · obtain ⟨wind, down, others, hw, rfl, hsays, hd, _, hlo, ho⟩ := over_spec h
    refine ⟨wind, down, others, hw, rfl, hd, hsays, hlo, ?_⟩
    intro i col hc
    obtain ⟨g, hg, hcen, hor⟩ := ho i col hc
    rcases hor with ⟨h1, h2⟩ | ⟨h1, r, hr, h2⟩
    · simp only [Gap.says, Prod.mk.injEq] at h2
      exact ⟨g, hg, hcen, h2.1, Or.inl ⟨h1, h2.2⟩⟩
    · simp only [Gap.says, Prod.mk.injEq] at h2
      have hrk : r.kind = .residual := by
        have := List.mem_of_getElem? hr
        simp only [ofKind, List.mem_filter, decide_eq_true_iff] at this
        exact this.2
      refine ⟨g, hg, hcen, by rw [h2.1, hrk], Or.inr ⟨h1, ?_⟩⟩
      unfold ofKind at hr
      rw [hr, h2.2]; rfl

/-- **C99.** Every column gets one gap in its middle, of the kind and the length written for it (the last ones again when
the list is short, a residual gap without a list), when none is ground and there are fewer gaps than columns, or there are
as many and all are spacers, or all are residual. -/
theorem one_gap_per_column (c : Core) (gaps out : List Gap)
    (hno : (gaps.length < c.columns.length ∧ ∀ g ∈ gaps, g.kind ≠ .subtractive) ∨
      (gaps.length = c.columns.length ∧ ∀ g ∈ gaps, g.kind = .additive) ∨ ∀ g ∈ gaps, g.kind = .residual)
    (h : distribute c gaps = (.ok, out)) :
    out.length = c.columns.length ∧ ∀ (i : Nat) (col : Column), c.columns[i]? = some col →
      ∃ g, out[i]? = some g ∧ Centred g col ∧ g.says = intended gaps i := by
  rw [distribute_ok] at h
  -- nothing goes down the winding column
  have hover : ∀ l : List Gap, l ≠ [] → (l.length < c.columns.length ∧ ∀ g ∈ l, g.kind ≠ .subtractive) ∨
      (l.length = c.columns.length ∧ ∀ g ∈ l, g.kind = .additive) ∨
      (l.length ≤ c.columns.length ∧ ∀ g ∈ l, g.kind = .residual) →
      layout c l = .ok out → out.length = c.columns.length ∧ ∀ (i : Nat) (col : Column), c.columns[i]? = some col →
        ∃ g, out[i]? = some g ∧ Centred g col ∧ g.says = intended l i := by
    intro l hne hl hlay
    have len0 : l.length ≠ 0 := fun e => hne (List.length_eq_zero_iff.mp e)
    unfold layout at hlay
    simp only at hlay
    rw [if_neg len0] at hlay
    have nosub : (∀ g ∈ l, g.kind ≠ .subtractive) → (ofKind .subtractive l).length = 0 := by
      intro hk
      rw [List.length_eq_zero_iff, ofKind, List.filter_eq_nil_iff]
      intro g hg; simp [hk g hg]
    by_cases h1 : l.length < c.columns.length ∧ (ofKind .subtractive l).length = 0
    · rw [if_pos h1] at hlay
      exact each_columns (Or.inr (Or.inl ⟨hne, h1.1.le, hlay⟩))
    · rw [if_neg h1] at hlay
      have heq : l.length = c.columns.length ∧ ((∀ g ∈ l, g.kind = .additive) ∨ ∀ g ∈ l, g.kind = .residual) := by
        rcases hl with ⟨a, b⟩ | ⟨a, b⟩ | ⟨a, b⟩
        · exact absurd ⟨a, nosub b⟩ h1
        · exact ⟨a, Or.inl b⟩
        · rcases Nat.lt_or_eq_of_le a with a | a
          · exact absurd ⟨a, nosub fun g hg => by rw [b g hg]; decide⟩ h1
          · exact ⟨a, Or.inr b⟩
      have full : ∀ k : Kind, (∀ g ∈ l, g.kind = k) → (ofKind k l).length = l.length := by
        intro k hk
        rw [ofKind, List.length_filter_eq_length_iff]
        intro g hg; simp [hk g hg]
      have h2 : ((ofKind .residual l).length = c.columns.length ∨ (ofKind .additive l).length = c.columns.length) ∧
          l.length = c.columns.length := by
        refine ⟨?_, heq.1⟩
        rcases heq.2 with a | a
        · exact Or.inr (by rw [full _ a, heq.1])
        · exact Or.inl (by rw [full _ a, heq.1])
      rw [if_pos h2] at hlay
      exact each_columns (Or.inr (Or.inr ⟨hne, heq.1, hlay⟩))
  by_cases hempty : trimmed c gaps = []
  · rw [hempty] at h
    have h' : Step.each (fun col => inMiddle c col .residual residualLength) c.columns = .ok out := by
      simpa [layout] using h
    obtain ⟨h1, h2⟩ := each_columns (gaps := []) (Or.inl ⟨rfl, h'⟩)
    refine ⟨h1, ?_⟩
    intro i col hc
    have hi : i < c.columns.length := (List.getElem?_eq_some_iff.mp hc).1
    have hg : gaps = [] := by
      unfold trimmed at hempty
      split at hempty
      · rename_i ht
        rcases List.take_eq_nil_iff.mp hempty with h0 | h0
        · omega
        · exact h0
      · exact hempty
    rw [hg]
    exact h2 i col hc
  · by_cases ht : (gaps.all fun g => decide (g.kind = .residual)) = true ∧ c.columns.length < gaps.length
    · have e : trimmed c gaps = gaps.take c.columns.length := by unfold trimmed; rw [if_pos ht]
      rw [e] at h hempty
      have hl : (gaps.take c.columns.length).length = c.columns.length := by simp; omega
      have := hover _ hempty (Or.inr (Or.inr ⟨hl.le, fun g hg => by
        have := List.all_eq_true.mp ht.1 g (List.mem_of_mem_take hg); simpa using this⟩)) h
      refine ⟨this.1, ?_⟩
      intro i col hc
      obtain ⟨g, hg, hcen, hs⟩ := this.2 i col hc
      refine ⟨g, hg, hcen, ?_⟩
      rw [hs]
      have hi : i < c.columns.length := (List.getElem?_eq_some_iff.mp hc).1
      have hgne : gaps ≠ [] := fun e => hempty (by simp [e])
      unfold intended
      rw [List.getLast?_eq_some_getLast hempty, List.getLast?_eq_some_getLast hgne,
        List.getElem?_take_of_lt hi, List.getElem?_eq_getElem (by omega : i < gaps.length)]
    · have e : trimmed c gaps = gaps := by unfold trimmed; rw [if_neg ht]
      rw [e] at h hempty
      refine hover gaps hempty ?_ h
      rcases hno with a | a | a
      · exact Or.inl a
      · exact Or.inr (Or.inl a)
      · refine Or.inr (Or.inr ⟨?_, a⟩)
        by_contra hlt
        refine ht ⟨List.all_eq_true.mpr fun g hg => by simp [a g hg], by omega⟩

/-! A core with a central column and two lateral ones, in millimetres over a thousand, and one with two lateral columns. -/

/-- An E core: the central column first. -/
def eCore : Core :=
  { columns := [⟨.central, 1, 0, 0, 0, 16 / 1000, 12 / 1000, 12 / 1000, 113 / 1000000⟩,
                ⟨.lateral, 2, 14 / 1000, 0, 0, 16 / 1000, 4 / 1000, 12 / 1000, 48 / 1000000⟩,
                ⟨.lateral, 2, -14 / 1000, 0, 0, 16 / 1000, 4 / 1000, 12 / 1000, 48 / 1000000⟩],
    windows := [some (6 / 1000)] }

/-- A U core: the column the windings go around is the first. -/
def uCore : Core :=
  { columns := [⟨.lateral, 1, 0, 0, 0, 20 / 1000, 10 / 1000, 10 / 1000, 100 / 1000000⟩,
                ⟨.lateral, 1, 30 / 1000, 0, 0, 20 / 1000, 10 / 1000, 10 / 1000, 100 / 1000000⟩],
    windows := [some (20 / 1000)] }

/-- What a gap is and where, for examples. -/
structure Row where
  kind : Kind
  length : ℚ
  coords : Option (ℚ × ℚ × ℚ)
  normal : Option ℚ
  deriving DecidableEq

/-- The gaps of a result: kind, length, place and room. -/
def summary (r : Result × List Gap) : Result × List Row :=
  (r.1, r.2.map fun g => ⟨g.kind, g.length, g.coords, g.normal⟩)

example : summary (distribute eCore [bare .subtractive (1 / 1000)]) =
    (.ok, [⟨.subtractive, 1 / 1000, some (0, 1 / 2000, 0), some (15 / 2000)⟩,
           ⟨.residual, residualLength, some (14 / 1000, 0, 0), some (7997500 / 1000000000)⟩,
           ⟨.residual, residualLength, some (-14 / 1000, 0, 0), some (7997500 / 1000000000)⟩]) := by decide +kernel

example : (eCore.columns.filter fun col => col.place = .central).length ≤ 1 := by decide

example : summary (distribute uCore [bare .additive (1 / 1000)]) =
    (.ok, [⟨.additive, 1 / 1000, some (0, 0, 0), some (19 / 2000)⟩,
           ⟨.additive, 1 / 1000, some (30 / 1000, 0, 0), some (19 / 2000)⟩]) := by decide +kernel

/-- **C99, spacers.** A spacer of one thickness, written once or once per column or anything in between, separates every
column by it. Part of the claim that a spacer separates every column: it is false when residual gaps are written too, see
`spacer_with_residuals`, and when there are more spacers than columns, see `surplus_spacers`. -/
theorem spacer_separates_partial (c : Core) (n : Nat) (len : ℚ) (out : List Gap) (hn : 0 < n) (hn' : n ≤ c.columns.length)
    (h : distribute c (List.replicate n (bare .additive len)) = (.ok, out)) :
    out.length = c.columns.length ∧ ∀ (i : Nat) (col : Column), c.columns[i]? = some col →
      ∃ g, out[i]? = some g ∧ Centred g col ∧ g.says = (.additive, len) := by
  have hk : ∀ g ∈ List.replicate n (bare .additive len), g = bare .additive len := fun g hg => (List.mem_replicate.mp hg).2
  have hspec := one_gap_per_column c _ out (by
    rcases Nat.lt_or_eq_of_le hn' with h1 | h1
    · exact Or.inl ⟨by simpa using h1, fun g hg => by rw [hk g hg]; simp [bare]⟩
    · exact Or.inr (Or.inl ⟨by simpa using h1, fun g hg => by rw [hk g hg]; rfl⟩)) h
  refine ⟨hspec.1, ?_⟩
  intro i col hc
  obtain ⟨g, hg, hcen, hs⟩ := hspec.2 i col hc
  refine ⟨g, hg, hcen, ?_⟩
  rw [hs]
  unfold intended
  have hne : List.replicate n (bare .additive len) ≠ [] := by simp; omega
  rw [List.getLast?_eq_some_getLast hne]
  simp only
  cases hi : (List.replicate n (bare .additive len))[i]? with
  | none =>
    simp only
    rw [hk _ (List.getLast_mem hne)]; rfl
  | some g' =>
    simp only
    rw [hk _ (List.mem_of_getElem? hi)]; rfl

example : (distribute eCore (List.replicate 2 (bare .additive (1 / 1000)))).1 = .ok := by decide +kernel

/-- **C99, spacers.** A spacer written with the residual gaps of the other columns, as a ground gap would be, separates the
central column only; written alone it separates the three. -/
theorem spacer_with_residuals :
    ((distribute eCore [bare .additive (1 / 1000)]).2.map Gap.says = List.replicate 3 (.additive, 1 / 1000)) ∧
    ((distribute eCore [bare .additive (1 / 1000), bare .residual residualLength, bare .residual residualLength]).2.map
      Gap.says = [(.additive, 1 / 1000), (.residual, residualLength), (.residual, residualLength)]) := by decide +kernel

/-- **C99, spacers.** More spacers than columns are laid down the central column as if they were ground. -/
theorem surplus_spacers :
    (distribute eCore (List.replicate 4 (bare .additive (1 / 1000)))).2.map (fun g => (g.kind, g.coords.map Prod.fst)) =
      [(.additive, some 0), (.additive, some 0), (.additive, some 0), (.additive, some 0),
       (.residual, some (14 / 1000)), (.residual, some (-14 / 1000))] := by decide +kernel

/-! ## C100: several gaps down one column -/

theorem overColumns_get {c : Core} {nr residuals out : List Gap} (h : overColumns c nr residuals = .ok out) :
    ∃ (wind : Column) (w : Option ℚ) (g0 : Gap), windingColumn c = some wind ∧ nr.head? = some g0 ∧
      c.windows.head? = some w ∧
      (∀ j, j < nr.length → 0 ≤ distAt nr.length (startOf wind nr g0.length).1 (startOf wind nr g0.length).2.2 j) ∧
      ∀ (i : Nat) (g : Gap), nr[i]? = some g → out[i]? = some
        (laid w wind g.kind g.length
          (wind.x, wind.y + ((startOf wind nr g0.length).2.1 + (i : ℚ) * rd (wind.height / ((nr.length : ℚ) + 1))), wind.z)
          (distAt nr.length (startOf wind nr g0.length).1 (startOf wind nr g0.length).2.2 i)) := by
  obtain ⟨wind, returns, g0, w, others, hs, hg, hw, hpos, _, rfl⟩ := overColumns_ok h
  rw [splitColumns_spec] at hs
  simp only [Option.map_eq_some_iff, Prod.mk.injEq] at hs
  obtain ⟨wind', hwind, rfl, rfl⟩ := hs
  refine ⟨wind', w, g0, hwind, hg, hw, hpos, ?_⟩
  intro i g hi
  have hil : i < nr.length := (List.getElem?_eq_some_iff.mp hi).1
  rw [List.getElem?_append_left (by rw [downList_length]; exact hil)]
  exact downList_get hi

/-- Gaps with one ground, or more that are not residual than columns, go down the winding column. -/
theorem distribute_over {c : Core} {gaps out : List Gap} (hsub : ∃ g ∈ gaps, g.kind = .subtractive)
    (h : distribute c gaps = (.ok, out)) :
    overColumns c (ofKind .subtractive gaps ++ ofKind .additive gaps) (ofKind .residual gaps) = .ok out := by
  rw [distribute_ok] at h
  obtain ⟨s, hs, hk⟩ := hsub
  have ht : trimmed c gaps = gaps := by
    unfold trimmed
    rw [if_neg]
    rintro ⟨hall, _⟩
    have := List.all_eq_true.mp hall s hs
    simp [hk] at this
  rw [ht] at h
  rcases layout_cases h with ⟨e, _⟩ | ⟨_, _, hn, _⟩ | ⟨_, _, hn | hn, _⟩ | ⟨_, h⟩
  · rw [e] at hs; simp at hs
  · exact absurd hk (hn s hs)
  · rw [hn s hs] at hk; simp at hk
  · rw [hn s hs] at hk; simp at hk
  · exact h

/-- The gaps that are not residual: ground ones, then spacers. -/
def worked (gaps : List Gap) : List Gap :=
  (gaps.filter fun g => g.kind = .subtractive) ++ gaps.filter fun g => g.kind = .additive

theorem eps_pos : (0 : ℚ) < 1 / (2 * 10 ^ 9) := by positivity

/-- **C100.** Two gaps or more ground into a core are spread along its winding column: one step after the other, the step
being the height divided by their number and one, and symmetrically about the middle, within a nanometre. When all have
the same length, the room each says it leaves is the room it leaves, within what rounding to nanometres adds. -/
theorem distributed_along_column (c : Core) (gaps out : List Gap) (hsub : ∃ g ∈ gaps, g.kind = .subtractive)
    (hk : 2 ≤ (worked gaps).length) (h : distribute c gaps = (.ok, out)) :
    ∃ (wind : Column) (y : Nat → ℚ), windingColumn c = some wind ∧
      (∀ i, i < (worked gaps).length → ∃ g, out[i]? = some g ∧ g.coords = some (wind.x, wind.y + y i, wind.z)) ∧
      (∀ i, |y (i + 1) - y i - wind.height / ((worked gaps).length + 1)| ≤ 1 / (2 * 10 ^ 9)) ∧
      (∀ i, i < (worked gaps).length → |y i + y ((worked gaps).length - 1 - i)| ≤ 1 / 10 ^ 9) ∧
      (0 ≤ wind.height → ∀ len : ℚ, (∀ g ∈ worked gaps, g.length = len) → ∀ i, i < (worked gaps).length →
        ∃ g d, out[i]? = some g ∧ g.normal = some d ∧
          |d - roomAt wind.height (y i) len| ≤ ((worked gaps).length + 5) / (4 * 10 ^ 9)) := by
  have hov := distribute_over hsub h
  obtain ⟨wind, w, g0, hwind, hg0, _, _, hget⟩ := overColumns_get hov
  have e : ofKind .subtractive gaps ++ ofKind .additive gaps = worked gaps := rfl
  rw [e] at hget hg0
  set nr := worked gaps with hnr
  have hk1 : nr.length ≠ 1 := by omega
  set step := rd (wind.height / ((nr.length : ℚ) + 1)) with hstep
  have hst : startOf wind nr g0.length = (step, rd (-step * ((nr.length : ℚ) - 1) / 2), rd (step - g0.length / 2)) := by
    unfold startOf; rw [if_neg hk1]
  rw [hst] at hget
  set o := rd (-step * ((nr.length : ℚ) - 1) / 2) with ho
  have hoe := rd_near (-step * ((nr.length : ℚ) - 1) / 2)
  rw [← ho] at hoe
  have hse := rd_near (wind.height / ((nr.length : ℚ) + 1))
  rw [← hstep] at hse
  refine ⟨wind, fun i => o + (i : ℚ) * step, hwind, ?_, ?_, ?_, ?_⟩
  · intro i hi
    exact ⟨_, hget i nr[i] (List.getElem?_eq_getElem hi), rfl⟩
  · intro i
    have : o + ((i + 1 : Nat) : ℚ) * step - (o + (i : ℚ) * step) = step := by push_cast; ring
    rw [this]
    exact hse
  · intro i hi
    have hcast : ((nr.length - 1 - i : Nat) : ℚ) = (nr.length : ℚ) - 1 - i := by
      rw [Nat.cast_sub (by omega), Nat.cast_sub (by omega)]; simp
    have : o + (i : ℚ) * step + (o + ((nr.length - 1 - i : Nat) : ℚ) * step) =
        2 * (o - (-step * ((nr.length : ℚ) - 1) / 2)) := by rw [hcast]; ring
    simp only [this, abs_mul]
    rw [abs_of_pos (by norm_num : (0 : ℚ) < 2)]
    calc 2 * |o - -step * ((nr.length : ℚ) - 1) / 2| ≤ 2 * (1 / (2 * 10 ^ 9)) :=
          mul_le_mul_of_nonneg_left hoe (by norm_num)
      _ = 1 / 10 ^ 9 := by norm_num
  · intro hh len hlen i hi
    refine ⟨_, _, hget i nr[i] (List.getElem?_eq_getElem hi), rfl, ?_⟩
    have hg0len : g0.length = len := by
      apply hlen
      exact List.mem_of_mem_head? hg0
    have hs0 : 0 ≤ step := rd_nonneg (div_nonneg hh (by positivity))
    have hde := rd_near (step - g0.length / 2)
    rw [hg0len] at hde ⊢
    set m := min i (nr.length - 1 - i) with hm
    simp only [distAt, ← hm]
    -- the height of the gap, about the middle
    have habs : |(|o + (i : ℚ) * step|) - step * (((nr.length : ℚ) - 1) / 2 - m)| ≤ 1 / (2 * 10 ^ 9) := by
      have hy : o + (i : ℚ) * step = step * ((i : ℚ) - ((nr.length : ℚ) - 1) / 2) +
          (o - (-step * ((nr.length : ℚ) - 1) / 2)) := by ring
      have hcast : ((nr.length - 1 - i : Nat) : ℚ) = (nr.length : ℚ) - 1 - i := by
        rw [Nat.cast_sub (by omega), Nat.cast_sub (by omega)]; simp
      have hmid : |step * ((i : ℚ) - ((nr.length : ℚ) - 1) / 2)| = step * (((nr.length : ℚ) - 1) / 2 - m) := by
        rw [abs_mul, abs_of_nonneg hs0]
        congr 1
        by_cases hle : i ≤ nr.length - 1 - i
        · have hmi : m = i := by rw [hm]; exact min_eq_left hle
          have h2 : (i : ℚ) ≤ (nr.length : ℚ) - 1 - i := by rw [← hcast]; exact_mod_cast hle
          rw [hmi, abs_of_nonpos (by linarith)]; ring
        · have hmi : m = nr.length - 1 - i := by rw [hm]; exact min_eq_right (by omega)
          have h2 : (nr.length : ℚ) - 1 - i ≤ (i : ℚ) := by rw [← hcast]; exact_mod_cast (by omega : nr.length - 1 - i ≤ i)
          rw [hmi, hcast, abs_of_nonneg (by linarith)]; ring
      rw [← hmid, hy]
      refine le_trans (abs_abs_sub_abs_le_abs_sub _ _) ?_
      rw [add_sub_cancel_left]
      exact hoe
    have hkpos : (0 : ℚ) < (nr.length : ℚ) + 1 := by positivity
    have key : rd (step - len / 2) + step * (m : ℚ) - roomAt wind.height (o + (i : ℚ) * step) len =
        (rd (step - len / 2) - (step - len / 2)) +
        (|o + (i : ℚ) * step| - step * (((nr.length : ℚ) - 1) / 2 - m)) +
        ((nr.length : ℚ) + 1) / 2 * (step - wind.height / ((nr.length : ℚ) + 1)) := by
      unfold roomAt
      field_simp
      ring
    rw [key]
    have hthird : |((nr.length : ℚ) + 1) / 2 * (step - wind.height / ((nr.length : ℚ) + 1))| ≤
        ((nr.length : ℚ) + 1) / 2 * (1 / (2 * 10 ^ 9)) := by
      rw [abs_mul, abs_of_pos (by positivity : (0 : ℚ) < ((nr.length : ℚ) + 1) / 2)]
      exact mul_le_mul_of_nonneg_left hse (by positivity)
    refine le_trans (abs_add_three _ _ _) ?_
    calc _ ≤ 1 / (2 * 10 ^ 9) + 1 / (2 * 10 ^ 9) + ((nr.length : ℚ) + 1) / 2 * (1 / (2 * 10 ^ 9)) :=
          add_le_add (add_le_add hde habs) hthird
      _ = _ := by ring

example : summary (distribute eCore (List.replicate 3 (bare .subtractive (1 / 1000)))) =
    (.ok, [⟨.subtractive, 1 / 1000, some (0, -4 / 1000, 0), some (35 / 10000)⟩,
           ⟨.subtractive, 1 / 1000, some (0, 0, 0), some (75 / 10000)⟩,
           ⟨.subtractive, 1 / 1000, some (0, 4 / 1000, 0), some (35 / 10000)⟩,
           ⟨.residual, residualLength, some (14 / 1000, 0, 0), some (7997500 / 1000000000)⟩,
           ⟨.residual, residualLength, some (-14 / 1000, 0, 0), some (7997500 / 1000000000)⟩]) := by decide +kernel

/-- **C100.** Gaps are only checked against the ends of the column, not one against another: three gaps of 7 mm are
accepted down a column of 16 mm, where they overlap. -/
theorem overlapping_gaps_accepted :
    (distribute eCore (List.replicate 3 (bare .subtractive (7 / 1000)))).1 = .ok ∧
    (((distribute eCore (List.replicate 3 (bare .subtractive (7 / 1000)))).2.take 3).map fun g => (g.length, g.coords)) =
      [(7 / 1000, some (0, -4 / 1000, 0)), (7 / 1000, some (0, 0, 0)), (7 / 1000, some (0, 4 / 1000, 0))] ∧
    Overlap (-4 / 1000) (7 / 1000) 0 (7 / 1000) := by
  refine ⟨by decide +kernel, by decide +kernel, ?_⟩
  unfold Overlap
  rw [abs_of_neg (by norm_num)]
  norm_num

/-- **C100.** Gaps of different lengths all take the length of the first one for the room they leave: a gap of 14 mm
after one of 0.1 mm is said to leave 5.283 mm in a column of 16 mm where it sticks out. -/
theorem room_of_first_length :
    (((distribute eCore [bare .subtractive (1 / 10000), bare .subtractive (14 / 1000)]).2.take 2).map
      fun g => (g.length, g.coords, g.normal)) =
      [(1 / 10000, some (0, -2666667 / 1000000000, 0), some (5283333 / 1000000000)),
       (14 / 1000, some (0, 2666666 / 1000000000, 0), some (5283333 / 1000000000))] ∧
    roomAt (16 / 1000) (2666666 / 1000000000) (14 / 1000) < 0 := by
  refine ⟨by decide +kernel, ?_⟩
  unfold roomAt
  rw [abs_of_pos (by norm_num)]
  norm_num

end Verif.Gapping
