import Verif.WireByDim.Model

/-! # Loop invariant of the search -/

set_option linter.unusedSectionVars false

namespace Verif.WireByDim

variable {K : Type} [Field K] [LinearOrder K] [IsStrictOrderedRing K]

/-- Candidates of the search with their conducting dimension. -/
def Cand (type : Option WireType) (standard : Option String) (w : Wire K) (x : K) : Prop :=
  eligible type standard w = true ∧ conducting w = some (some x)

/-- Invariant after having seen `seen`. -/
def Inv (type : Option WireType) (standard : Option String) (d : K) (seen : List (Wire K)) (st : St K) : Prop :=
  match st.1 with
  | none => st.2 = [] ∧ ∀ w ∈ seen, ∀ x, ¬ Cand type standard w x
  | some (m, c) =>
    (∀ t ∈ c :: st.2, t ∈ seen ∧ ∃ x, Cand type standard t x ∧ distance d x = m) ∧
    ∀ w ∈ seen, ∀ x, Cand type standard w x → m ≤ distance d x ∧ (distance d x = m → w ∈ c :: st.2)

theorem loop_inv {type : Option WireType} {standard : Option String} {d : K} {seen ws : List (Wire K)}
    {st st' : St K} (hi : Inv type standard d seen st) (h : loop type standard d ws st = some st') :
    Inv type standard d (seen ++ ws) st' := by
  induction ws generalizing seen st with
  | nil => simp only [loop, Option.some.injEq] at h; subst h; simpa using hi
  | cons w ws ih =>
    have skip : (∀ x, ¬ Cand type standard w x) → Inv type standard d (seen ++ [w]) st := by
      intro hn
      unfold Inv at hi ⊢
      cases hst : st.1 with
      | none =>
        rw [hst] at hi
        refine ⟨hi.1, fun v hv => ?_⟩
        rcases List.mem_append.mp hv with hv | hv
        · exact hi.2 v hv
        · rw [List.mem_singleton.mp hv]; exact hn
      | some mc =>
        obtain ⟨m, c⟩ := mc
        rw [hst] at hi
        refine ⟨fun t ht => ⟨List.mem_append_left _ (hi.1 t ht).1, (hi.1 t ht).2⟩, fun v hv x hx => ?_⟩
        rcases List.mem_append.mp hv with hv | hv
        · exact hi.2 v hv x hx
        · rw [List.mem_singleton.mp hv] at hx; exact absurd hx (hn x)
    have step : ∀ {st1 : St K}, Inv type standard d (seen ++ [w]) st1 → loop type standard d ws st1 = some st' →
        Inv type standard d (seen ++ w :: ws) st' := by
      intro st1 h1 h2
      have := ih h1 h2
      simpa using this
    simp only [loop] at h
    by_cases he : eligible type standard w = false
    · rw [if_pos he] at h
      exact step (skip (fun x hx => by rw [hx.1] at he; cases he)) h
    · rw [if_neg he] at h
      have he : eligible type standard w = true := by simpa using he
      cases hc : conducting w with
      | none =>
        rw [hc] at h
        exact step (skip (fun x hx => by rw [hx.2] at hc; cases hc)) h
      | some o =>
        cases o with
        | none => rw [hc] at h; cases h
        | some x =>
          rw [hc] at h
          simp only at h
          have hx : Cand type standard w x := ⟨he, hc⟩
          have huniq : ∀ y, Cand type standard w y → y = x := by
            intro y hy; have := hy.2; rw [hc] at this; cases this; rfl
          have reset : (∀ v ∈ seen, ∀ y, Cand type standard v y → distance d x < distance d y) →
              Inv type standard d (seen ++ [w]) (some (distance d x, w), []) := by
            intro hlt
            unfold Inv
            refine ⟨fun t ht => ?_, fun v hv y hy => ?_⟩
            · simp only [List.mem_cons, List.not_mem_nil, or_false] at ht
              subst ht
              exact ⟨by simp, x, hx, rfl⟩
            · rcases List.mem_append.mp hv with hv | hv
              · have := hlt v hv y hy
                exact ⟨this.le, fun e => absurd this (by rw [e]; exact lt_irrefl _)⟩
              · have e := List.mem_singleton.mp hv
                subst e
                rw [huniq y hy]
                exact ⟨le_rfl, fun _ => by simp⟩
          cases hst : st.1 with
          | none =>
            rw [hst] at h
            simp only at h
            unfold Inv at hi
            rw [hst] at hi
            exact step (reset (fun v hv y hy => absurd hy (hi.2 v hv y))) h
          | some mc =>
            obtain ⟨m, c⟩ := mc
            rw [hst] at h
            simp only at h
            unfold Inv at hi
            rw [hst] at hi
            by_cases h1 : distance d x < m
            · rw [if_pos h1] at h
              exact step (reset (fun v hv y hy => lt_of_lt_of_le h1 (hi.2 v hv y hy).1)) h
            · rw [if_neg h1] at h
              by_cases h2 : distance d x = m
              · rw [if_pos h2] at h
                refine step ?_ h
                unfold Inv
                refine ⟨fun t ht => ?_, fun v hv y hy => ?_⟩
                · have ht' : t ∈ c :: st.2 ∨ t = w := by
                    simp only [List.mem_cons, List.mem_append, List.not_mem_nil, or_false] at ht ⊢
                    tauto
                  rcases ht' with ht' | rfl
                  · exact ⟨List.mem_append_left _ (hi.1 t ht').1, (hi.1 t ht').2⟩
                  · exact ⟨by simp, x, hx, h2⟩
                · rcases List.mem_append.mp hv with hv | hv
                  · obtain ⟨a, b⟩ := hi.2 v hv y hy
                    refine ⟨a, fun e => ?_⟩
                    have := b e
                    simp only [List.mem_cons, List.mem_append, List.not_mem_nil, or_false] at this ⊢
                    tauto
                  · have e := List.mem_singleton.mp hv
                    subst e
                    rw [huniq y hy]
                    exact ⟨h2.ge, fun _ => by simp⟩
              · rw [if_neg h2] at h
                refine step ?_ h
                unfold Inv
                rw [hst]
                refine ⟨fun t ht => ⟨List.mem_append_left _ (hi.1 t ht).1, (hi.1 t ht).2⟩, fun v hv y hy => ?_⟩
                rcases List.mem_append.mp hv with hv | hv
                · exact hi.2 v hv y hy
                · have e := List.mem_singleton.mp hv
                  subst e
                  rw [huniq y hy]
                  exact ⟨not_lt.mp h1, fun e => absurd e h2⟩

theorem loop_none_iff {type : Option WireType} {standard : Option String} {d : K} {ws : List (Wire K)}
    {st : St K} : loop type standard d ws st = none ↔
      ∃ w ∈ ws, eligible type standard w = true ∧ conducting w = some none := by
  induction ws generalizing st with
  | nil => simp [loop]
  | cons w ws ih =>
    simp only [loop, List.mem_cons, exists_eq_or_imp]
    by_cases he : eligible type standard w = false
    · rw [if_pos he, ih]; simp [he]
    · rw [if_neg he]
      have he' : eligible type standard w = true := by simpa using he
      cases hc : conducting w with
      | none => simp only [ih]; simp
      | some o =>
        cases o with
        | none => simp [he']
        | some x =>
          simp only
          have : ∀ st1 : St K, (loop type standard d ws st1 = none ↔
              (eligible type standard w = true ∧ some (some x) = some (none : Option K)) ∨
                ∃ a ∈ ws, eligible type standard a = true ∧ conducting a = some none) := by
            intro st1; rw [ih]; simp
          cases hst : st.1 with
          | none => exact this _
          | some mc =>
            simp only
            split
            · exact this _
            · split
              · exact this _
              · exact this _

theorem tieBreak_spec (b : Wire K) (ws : List (Wire K)) :
    tieBreak b ws ∈ b :: ws ∧ ∀ t ∈ b :: ws, (tieBreak b ws).outer ≤ t.outer := by
  induction ws generalizing b with
  | nil => simp [tieBreak]
  | cons w ws ih =>
    simp only [tieBreak]
    obtain ⟨h1, h2⟩ := ih (if w.outer < b.outer then w else b)
    have hh := h2 _ List.mem_cons_self
    have hh' : (tieBreak (if w.outer < b.outer then w else b) ws).outer ≤ b.outer ∧
        (tieBreak (if w.outer < b.outer then w else b) ws).outer ≤ w.outer := by
      by_cases hc : w.outer < b.outer
      · simp only [if_pos hc] at hh ⊢
        exact ⟨le_trans hh hc.le, hh⟩
      · simp only [if_neg hc] at hh ⊢
        exact ⟨hh, le_trans hh (not_lt.mp hc)⟩
    obtain ⟨hb, hw⟩ := hh'
    constructor
    · rcases List.mem_cons.mp h1 with h1 | h1
      · rw [h1]; split <;> simp
      · exact List.mem_cons_of_mem _ (List.mem_cons_of_mem _ h1)
    · intro t ht
      rcases List.mem_cons.mp ht with rfl | ht
      · exact hb
      · rcases List.mem_cons.mp ht with rfl | ht
        · exact hw
        · exact h2 t (List.mem_cons_of_mem _ ht)

end Verif.WireByDim
