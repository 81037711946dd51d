import Verif.Advice.Restore
import Mathlib.Tactic.NormNum

/-!
# Designing a magnetic leaves settings and catalogues in order: C211–C214
-/

set_option linter.unusedSimpArgs false

namespace Verif.Advice.Restore

/-! ## Specification -/

/-- A catalogue agrees with the settings: what was loaded was loaded under settings that let the same parts through. The filter on stock
is not read for shapes. -/
def CoresAgree (w : World) : Prop := ∀ f, w.cores = .loaded f → f = w.flags

@[inherit_doc CoresAgree]
def ShapesAgree (w : World) : Prop :=
  ∀ f, w.shapes = .loaded f → f.toroidal = w.flags.toroidal ∧ f.concentric = w.flags.concentric

/-! ## Lemmas -/

theorem next_world {r : Step} {f : World → Step} {P : World → Prop} (h1 : P r.1) (h2 : ∀ w, P w → P (f w).1) : P (r.next f).1 := by
  unfold Step.next
  split
  · exact h1
  · exact h2 _ h1

theorem clearCores_kept (w : World) : (clearCores w).1.frozen = w.frozen ∧ (clearCores w).1.inScope = w.inScope ∧
    (clearCores w).1.flags = w.flags := by
  unfold clearCores; split <;> simp

theorem clearShapes_kept (w : World) : (clearShapes w).1.frozen = w.frozen ∧ (clearShapes w).1.inScope = w.inScope ∧
    (clearShapes w).1.flags = w.flags := by
  unfold clearShapes; split <;> simp

theorem loadCores_kept (w : World) : (loadCores w).1.frozen = w.frozen ∧ (loadCores w).1.inScope = w.inScope ∧
    (loadCores w).1.flags = w.flags := by
  unfold loadCores; split
  · split <;> simp
  · simp

theorem loadShapes_kept (w : World) : (loadShapes w).1.frozen = w.frozen ∧ (loadShapes w).1.inScope = w.inScope ∧
    (loadShapes w).1.flags = w.flags := by
  unfold loadShapes; split
  · split <;> simp
  · simp

/-- Neither freezing nor scopes change in a call. -/
def Same (w0 w : World) : Prop := w.frozen = w0.frozen ∧ w.inScope = w0.inScope

theorem search_same (s : Search) (w0 w : World) (h : Same w0 w) : Same w0 (search s w).1 := by
  unfold search fill
  refine next_world (next_world ?_ ?_) ?_
  · split
    · exact ⟨(loadShapes_kept w).1.trans h.1, (loadShapes_kept w).2.1.trans h.2⟩
    · exact h
  · intro w' h'
    split
    · exact ⟨(loadCores_kept w').1.trans h'.1, (loadCores_kept w').2.1.trans h'.2⟩
    · exact h'
  · intro w' h'; exact h'

theorem clear_same (w0 w : World) (h : Same w0 w) : Same w0 ((clearCores w).next clearShapes).1 :=
  next_world ⟨(clearCores_kept w).1.trans h.1, (clearCores_kept w).2.1.trans h.2⟩
    fun w' h' => ⟨(clearShapes_kept w').1.trans h'.1, (clearShapes_kept w').2.1.trans h'.2⟩

theorem body_same (w : World) (c : Call) : Same w (body w c).1 := by
  unfold body
  refine next_world (next_world ?_ fun w' h' => search_same _ _ _ h') ?_
  · unfold prepare
    refine next_world (next_world ?_ ?_) fun w' h' => ⟨(loadCores_kept w').1.trans h'.1, (loadCores_kept w').2.1.trans h'.2⟩
    · split
      · exact clear_same w _ ⟨rfl, rfl⟩
      · exact ⟨rfl, rfl⟩
    · intro w' h'
      split
      · exact clear_same w _ h'
      · exact h'
  · intro w' h'
    split
    · unfold retry
      refine next_world ?_ fun w' h' => search_same _ _ _ h'
      have := clearCores_kept { w' with flags := { w'.flags with toroidal := false } }
      exact ⟨this.1.trans h'.1, this.2.1.trans h'.2⟩
    · exact h'

theorem restore_flags (saved : Flags) (w : World) : (restore saved w).1.flags = saved := by
  unfold restore
  split
  · assumption
  · refine next_world (P := fun w => w.flags = saved) ((clearCores_kept _).2.2) ?_
    intro w' h'
    rw [(clearShapes_kept w').2.2]; exact h'

theorem restore_same (saved : Flags) (w : World) : Same w (restore saved w).1 := by
  unfold restore
  split
  · exact ⟨rfl, rfl⟩
  · exact clear_same w _ ⟨rfl, rfl⟩

/-- Once cleared the catalogues agree with whatever is set. -/
def Agree (w : World) : Prop := CoresAgree w ∧ ShapesAgree w

theorem clear_agree (w : World) (hf : w.frozen = false) : ((clearCores w).next clearShapes).2 = false ∧
    ((clearCores w).next clearShapes).1 = { w with cores := .empty, shapes := .empty } := by
  simp [clearCores, clearShapes, Step.next, hf]

theorem empty_agree (w : World) : Agree { w with cores := .empty, shapes := .empty } :=
  ⟨fun f h => by simp at h, fun f h => by simp at h⟩

theorem clear_agrees (w : World) (ha : w.frozen = true → Agree w) : Agree ((clearCores w).next clearShapes).1 := by
  cases hf : w.frozen with
  | false => rw [(clear_agree w hf).2]; exact empty_agree w
  | true =>
    have : (clearCores w).next clearShapes = (w, true) := by simp [clearCores, Step.next, hf]
    rw [this]
    exact ha hf

theorem loadCores_agree (w : World) (h : Agree w) : Agree (loadCores w).1 := by
  unfold loadCores
  split
  · split
    · exact h
    · refine ⟨fun f hf => ?_, fun f hf => h.2 f hf⟩
      simp only [Parts.loaded.injEq] at hf
      exact hf.symm
  · exact h

theorem loadShapes_agree (w : World) (h : Agree w) : Agree (loadShapes w).1 := by
  unfold loadShapes
  split
  · split
    · exact h
    · refine ⟨fun f hf => h.1 f hf, fun f hf => ?_⟩
      simp only [Parts.loaded.injEq] at hf
      rw [← hf]
      exact ⟨rfl, rfl⟩
  · exact h

theorem search_agree (s : Search) (w : World) (h : Agree w) : Agree (search s w).1 := by
  unfold search fill
  refine next_world (next_world ?_ ?_) fun w' h' => h'
  · split
    · exact loadShapes_agree w h
    · exact h
  · intro w' h'
    split
    · exact loadCores_agree w' h'
    · exact h'

theorem search_flags (s : Search) (w : World) : (search s w).1.flags = w.flags := by
  unfold search fill
  refine next_world (P := fun w' => w'.flags = w.flags) (next_world (P := fun w' => w'.flags = w.flags) ?_ ?_) fun w' h' => h'
  · split
    · exact (loadShapes_kept w).2.2
    · rfl
  · intro w' h'
    split
    · exact (loadCores_kept w').2.2.trans h'
    · exact h'

/-- A frozen catalogue stays as it is. -/
def Kept (w w' : World) : Prop := w'.frozen = true ∧ w'.cores = w.cores ∧ w'.shapes = w.shapes

theorem clearCores_frozen {w w' : World} (h : Kept w w') : Kept w (clearCores w').1 := by
  simp only [clearCores, h.1, if_true]; exact h

theorem clearShapes_frozen {w w' : World} (h : Kept w w') : Kept w (clearShapes w').1 := by
  simp only [clearShapes, h.1, if_true]; exact h

theorem loadCores_frozen {w w' : World} (h : Kept w w') : Kept w (loadCores w').1 := by
  simp only [loadCores, h.1, if_true]; split <;> exact h

theorem loadShapes_frozen {w w' : World} (h : Kept w w') : Kept w (loadShapes w').1 := by
  simp only [loadShapes, h.1, if_true]; split <;> exact h

theorem search_frozen {w w' : World} (s : Search) (h : Kept w w') : Kept w (search s w').1 := by
  unfold search fill
  refine next_world (P := Kept w) (next_world (P := Kept w) ?_ ?_) fun w' h' => h'
  · split
    · exact loadShapes_frozen h
    · exact h
  · intro w' h'
    split
    · exact loadCores_frozen h'
    · exact h'

theorem clear_frozen {w w' : World} (h : Kept w w') : Kept w ((clearCores w').next clearShapes).1 :=
  next_world (P := Kept w) (clearCores_frozen h) fun _ h' => clearShapes_frozen h'

theorem frozen_body (w : World) (c : Call) (hf : w.frozen = true) : Kept w (body w c).1 := by
  unfold body
  refine next_world (P := Kept w) (next_world (P := Kept w) ?_ fun w' h' => search_frozen _ h') ?_
  · unfold prepare
    refine next_world (P := Kept w) (next_world (P := Kept w) ?_ ?_) fun w' h' => loadCores_frozen h'
    · split
      · exact clear_frozen (w' := { w with flags := _ }) ⟨hf, rfl, rfl⟩
      · exact ⟨hf, rfl, rfl⟩
    · intro w' h'
      split
      · exact clear_frozen (w' := { w' with flags := _ }) h'
      · exact h'
  · intro w' h'
    split
    · exact next_world (P := Kept w) (clearCores_frozen (w' := { w' with flags := _ }) h') fun w' h' => search_frozen _ h'
    · exact h'

/-- If the settings are in the end those of before, so are the catalogues in order. -/
theorem body_end (w : World) (c : Call) (h : Agree w) (hsame : (body w c).1.flags = w.flags) : Agree (body w c).1 := by
  cases hf : w.frozen with
  | true =>
    have hb := frozen_body w c hf
    exact ⟨fun f hf => by rw [hsame]; exact h.1 f (hb.2.1 ▸ hf), fun f hf => by rw [hsame]; exact h.2 f (hb.2.2 ▸ hf)⟩
  | false =>
    have hprep : Agree (prepare w c).1 := by
      unfold prepare
      refine next_world (P := Agree) ?_ fun w' h' => loadCores_agree w' h'
      have hstep : ∀ w' : World, w'.frozen = false → Agree w' →
          Agree (if c.suppression then (clearCores { w' with flags := chokeFlags }).next clearShapes else (w', false) : Step).1 := by
        intro w' hw' ha
        split
        · exact clear_agrees _ fun h => by rw [show w'.frozen = true from h] at hw'; exact absurd hw' (by decide)
        · exact ha
      by_cases hv : highVoltage w c = true
      · rw [if_pos hv]
        have := clear_agree { w with flags := { w.flags with toroidal := false } } hf
        unfold Step.next at this ⊢
        rw [if_neg (by rw [this.1]; decide)]
        rw [this.2]
        exact hstep _ hf (empty_agree _)
      · rw [if_neg hv]
        simp only [Step.next, Bool.false_eq_true, if_false]
        exact hstep w hf h
    have h1 : Agree ((prepare w c).next (search c.first)).1 := next_world hprep fun w' h' => search_agree _ w' h'
    by_cases ht : ((prepare w c).next (search c.first)).2 = true
    · have : body w c = (prepare w c).next (search c.first) := by
        unfold body
        generalize (prepare w c).next (search c.first) = r at ht
        simp [Step.next, ht]
      rw [this]; exact h1
    · by_cases hr : c.first.found = false ∧ w.flags.toroidal = true ∧ highVoltage w c = false
      · -- the retry has the toroids off
        exfalso
        have hb : body w c = retry c ((prepare w c).next (search c.first)).1 := by
          unfold body
          generalize (prepare w c).next (search c.first) = r at ht
          unfold Step.next
          rw [if_neg ht]
          exact if_pos hr
        have : (body w c).1.flags.toroidal = false := by
          rw [hb]
          unfold retry
          refine next_world (P := fun w' => w'.flags.toroidal = false) ?_ ?_
          · rw [(clearCores_kept _).2.2]
          · intro w' h'; rw [search_flags]; exact h'
        rw [hsame, hr.2.1] at this
        exact absurd this (by decide)
      · have : body w c = (((prepare w c).next (search c.first)).1, false) := by
          unfold body
          generalize (prepare w c).next (search c.first) = r at ht
          unfold Step.next
          rw [if_neg ht]
          exact if_neg hr
        rw [this]
        exact h1

/-! ## C211: settings and catalogues after a call -/

/-- **C211.** However a call ends, the settings are those of before, and neither freezing nor scopes change. -/
theorem settings_restored (w : World) (c : Call) : (call w c).1.flags = w.flags ∧ (call w c).1.frozen = w.frozen ∧
    (call w c).1.inScope = w.inScope := by
  have h1 := restore_flags w.flags (body w c).1
  have h2 := restore_same w.flags (body w c).1
  have h3 := body_same w c
  unfold call
  split <;> exact ⟨h1, h2.1.trans h3.1, h2.2.trans h3.2⟩

/-- **C211.** Over any number of calls, however they end, a catalogue that was loaded under the settings in force, or was empty, is so
afterwards: no call leaves behind the cores or the shapes that its own settings filtered. -/
theorem catalogues_agree (cs : List Call) (w : World) (hc : CoresAgree w) (hs : ShapesAgree w) :
    CoresAgree (cs.foldl (fun w c => (call w c).1) w) ∧ ShapesAgree (cs.foldl (fun w c => (call w c).1) w) ∧
      (cs.foldl (fun w c => (call w c).1) w).flags = w.flags := by
  induction cs generalizing w with
  | nil => exact ⟨hc, hs, rfl⟩
  | cons c cs ih =>
    have hfl := (settings_restored w c).1
    have key : Agree (call w c).1 := by
      have hr : Agree (restore w.flags (body w c).1).1 := by
        unfold restore
        by_cases he : (body w c).1.flags = w.flags
        · rw [if_pos he]; exact body_end w c ⟨hc, hs⟩ he
        · rw [if_neg he]
          by_cases hf : (body w c).1.frozen = true
          · have hb := frozen_body w c ((body_same w c).1.symm.trans hf)
            exact clear_agrees { (body w c).1 with flags := w.flags }
              fun _ => ⟨fun f h => hc f (hb.2.1 ▸ h), fun f h => hs f (hb.2.2 ▸ h)⟩
          · exact clear_agrees { (body w c).1 with flags := w.flags } fun h => absurd h hf
      unfold call
      split <;> exact hr
    have := ih (call w c).1 key.1 key.2
    simp only [List.foldl_cons]
    exact ⟨this.1, this.2.1, this.2.2.trans hfl⟩

/-- Settings and catalogues of a process that has just loaded everything (src/support/Settings.h:31-32, 67). -/
def fresh (frozen inScope : Bool) (parts : Parts) : World := ⟨⟨true, true, true⟩, parts, parts, frozen, inScope⟩

/-- A design that looks at the shapes. -/
def ordinary (found : Bool) : Call := ⟨none, false, ⟨true, false, false, found⟩, ⟨true, false, false, true⟩⟩

/-- Case of `settings_restored` and `catalogues_agree`: a choke, designed in between, leaves empty catalogues behind; a plain design leaves
them as they were, and one at high voltage that throws empties them. -/
example : (call (fresh false false (.loaded ⟨true, true, true⟩)) ⟨none, true, ⟨false, true, false, true⟩, ⟨false, true, false, true⟩⟩).1 =
      fresh false false .empty ∧
    (call (fresh false false (.loaded ⟨true, true, true⟩)) (ordinary true)).1 = fresh false false (.loaded ⟨true, true, true⟩) ∧
    call (fresh false false (.loaded ⟨true, true, true⟩)) ⟨some (some 650, none, none), false, ⟨true, false, true, false⟩, ⟨true, false, false, true⟩⟩ =
      (fresh false false .empty, .threw) ∧
    CoresAgree (fresh false false (.loaded ⟨true, true, true⟩)) ∧ ShapesAgree (fresh false false (.loaded ⟨true, true, true⟩)) :=
  ⟨by decide +kernel, by decide +kernel, by decide +kernel, fun f h => by simp [fresh] at h; exact h ▸ rfl,
    fun f h => by simp [fresh] at h; subst h; exact ⟨rfl, rfl⟩⟩

/-! ## C212: frozen catalogues -/

/-- **C212.** Frozen catalogues are not changed by any call. -/
theorem frozen_untouched (w : World) (c : Call) (hf : w.frozen = true) : (call w c).1 = w := by
  have hb := frozen_body w c hf
  have hs := body_same w c
  have hr : (restore w.flags (body w c).1).1 = w := by
    have e : ∀ w' : World, Kept w w' → Same w w' → w'.flags = w.flags → w' = w := by
      rintro ⟨a, b, d, e, f⟩ ⟨h1, h2, h3⟩ ⟨h4, h5⟩ h6
      obtain ⟨a', b', d', e', f'⟩ := w
      simp only at h1 h2 h3 h4 h5 h6
      simp [h2, h3, h4, h5, h6]
    refine e _ ?_ ?_ (restore_flags _ _)
    · unfold restore
      split
      · exact hb
      · exact clear_frozen (w' := { (body w c).1 with flags := w.flags }) hb
    · have := restore_same w.flags (body w c).1
      exact ⟨this.1.trans hs.1, this.2.trans hs.2⟩
  unfold call
  split <;> exact hr

/-- **C212.** A call that is not in a frozen region never ends the process. -/
theorem unfrozen_never_terminates (w : World) (c : Call) (hf : w.frozen = false) : (call w c).2 ≠ .terminated := by
  have hb := (body_same w c).1.trans hf
  have : (restore w.flags (body w c).1).2 = false := by
    unfold restore
    split
    · rfl
    · exact (clear_agree { (body w c).1 with flags := w.flags } hb).1
  unfold call
  rw [if_neg (by rw [this]; decide)]
  simp only
  split <;> simp

/-- What a search needs is there. -/
def Served (w : World) (s : Search) : Prop :=
  (s.shapes = true → w.shapes ≠ .empty) ∧ (s.cores = true → w.cores ≠ .empty ∨ w.inScope = true)

theorem search_served (w : World) (s : Search) (hf : w.frozen = true) :
    (search s w).2 = false ↔ Served w s ∧ s.throws = false := by
  obtain ⟨fl, co, sh, fr, sc⟩ := w
  obtain ⟨a, b, t, fo⟩ := s
  simp only at hf
  subst hf
  cases a <;> cases b <;> cases t <;> cases sc <;> by_cases hc : co = .empty <;> by_cases hsh : sh = .empty <;>
    simp [search, fill, loadShapes, loadCores, Step.next, Served, hc, hsh]

/-- **C212, C213.** The supply counts as above 600 V exactly when there is one and its nominal, its minimum or its maximum is. -/
theorem above_600 (supply : Option (Option ℚ × Option ℚ × Option ℚ)) :
    600 < maxVoltage supply ↔
      ∃ n m x : Option ℚ, supply = some (n, m, x) ∧ ∃ v : ℚ, (n = some v ∨ m = some v ∨ x = some v) ∧ 600 < v := by
  rcases supply with _ | ⟨n, m, x⟩
  · refine iff_of_false ?_ (by simp)
    show ¬ (600 : ℚ) < 0
    norm_num
  · show 600 < max (max (n.getD 0) (m.getD 0)) (x.getD 0) ↔ _
    have key : ∀ o : Option ℚ, 600 < o.getD 0 ↔ ∃ v, o = some v ∧ 600 < v := by
      intro o
      cases o with
      | none => refine iff_of_false ?_ (by simp); show ¬ (600 : ℚ) < 0; norm_num
      | some v => simp
    rw [lt_max_iff, lt_max_iff, key, key, key]
    constructor
    · rintro ((⟨v, h, hv⟩ | ⟨v, h, hv⟩) | ⟨v, h, hv⟩)
      · exact ⟨n, m, x, rfl, v, .inl h, hv⟩
      · exact ⟨n, m, x, rfl, v, .inr (.inl h), hv⟩
      · exact ⟨n, m, x, rfl, v, .inr (.inr h), hv⟩
    · rintro ⟨n', m', x', h, v, hv, h6⟩
      simp only [Option.some.injEq, Prod.mk.injEq] at h
      obtain ⟨rfl, rfl, rfl⟩ := h
      rcases hv with hv | hv | hv
      · exact .inl (.inl ⟨v, hv, h6⟩)
      · exact .inl (.inr ⟨v, hv, h6⟩)
      · exact .inr ⟨v, hv, h6⟩

/-- Case of `above_600`. -/
example : 600 < maxVoltage (some (some 300, none, some 750)) := by decide +kernel

/-- **C212.** In a frozen region a call ends the process exactly when the supply is above 600 V while toroids are enabled, or the application
is suppression and the settings are not those of suppression, or a search that goes well finds nothing while toroids are enabled. -/
theorem terminated_iff (w : World) (c : Call) (hf : w.frozen = true) :
    (call w c).2 = .terminated ↔
      (w.flags.toroidal = true ∧ 600 < maxVoltage c.supply) ∨ (c.suppression = true ∧ w.flags ≠ ⟨true, false, false⟩) ∨
        (c.suppression = false ∧ w.flags.toroidal = true ∧ (w.cores ≠ .empty ∨ w.inScope = true) ∧ Served w c.first ∧
          c.first.throws = false ∧ c.first.found = false) := by
  have hcall : (call w c).2 = .terminated ↔ (body w c).1.flags ≠ w.flags := by
    have hb := frozen_body w c hf
    unfold call restore
    by_cases he : (body w c).1.flags = w.flags
    · rw [if_pos he, if_neg (by simp)]
      refine iff_of_false ?_ (not_not.mpr he)
      cases (body w c).2 <;> simp
    · have : (clearCores { (body w c).1 with flags := w.flags }).next clearShapes =
          ({ (body w c).1 with flags := w.flags }, true) := by simp [clearCores, Step.next, hb.1]
      simp [if_neg he, this, he]
  rw [hcall]
  by_cases hv : w.flags.toroidal = true ∧ 600 < maxVoltage c.supply
  · have hh : highVoltage w c = true := by simp [highVoltage, hv.1, hv.2]
    have : body w c = ({ w with flags := { w.flags with toroidal := false } }, true) := by
      simp [body, prepare, hh, clearCores, hf, Step.next]
    rw [this]
    refine iff_of_true ?_ (Or.inl hv)
    intro h
    have := congrArg Flags.toroidal h
    rw [hv.1] at this
    simp at this
  · have hh : highVoltage w c = false := by
      unfold highVoltage
      by_contra hc
      rw [Bool.not_eq_false, Bool.and_eq_true, decide_eq_true_eq] at hc
      exact hv hc
    cases hsup : c.suppression with
    | true =>
      have : body w c = ({ w with flags := chokeFlags }, true) := by
        simp [body, prepare, hh, hsup, clearCores, hf, Step.next]
      rw [this]
      simp only [chokeFlags, ne_eq, true_and, Bool.true_eq_false, false_and, or_false, hv, false_or]
      exact not_congr eq_comm
    | false =>
      have hp : prepare w c = loadCores w := by simp [prepare, hh, hsup, Step.next]
      by_cases hl : w.cores = .empty ∧ w.inScope = false
      · have : body w c = (w, true) := by
          unfold body
          rw [hp]
          simp [loadCores, hl, hf, Step.next]
        rw [this]
        refine iff_of_false (by simp) ?_
        rintro (h | h | h)
        · exact hv h
        · exact absurd h.1 (by decide)
        · rcases h.2.2.1 with h | h
          · exact h hl.1
          · rw [hl.2] at h; exact absurd h (by decide)
      · have hl' : w.cores ≠ .empty ∨ w.inScope = true := by
          by_cases h1 : w.cores = .empty
          · right
            cases h2 : w.inScope with
            | true => rfl
            | false => exact absurd ⟨h1, h2⟩ hl
          · exact Or.inl h1
        have hlc : loadCores w = (w, false) := by simp only [loadCores, if_neg hl]
        have hsw : (search c.first w).1 = w := by
          have hk := search_frozen (w := w) (w' := w) c.first ⟨hf, rfl, rfl⟩
          have hfl := search_flags c.first w
          have hsm := search_same c.first w w ⟨rfl, rfl⟩
          revert hk hfl hsm
          generalize (search c.first w).1 = w'
          rintro ⟨h1, h2, h3⟩ h6 ⟨h4, h5⟩
          obtain ⟨a, b, d, e, f⟩ := w
          obtain ⟨a', b', d', e', f'⟩ := w'
          simp only at h1 h2 h3 h4 h5 h6
          simp [h2, h3, h4, h5, h6]
        have hb : body w c = (search c.first w).next fun w' =>
            if c.first.found = false ∧ w.flags.toroidal = true ∧ highVoltage w c = false then retry c w' else (w', false) := by
          unfold body
          rw [hp, hlc]
          rfl
        rw [hb]
        by_cases hth : (search c.first w).2 = false
        · have hserved := (search_served w c.first hf).mp hth
          unfold Step.next
          rw [if_neg (by rw [hth]; decide), hsw]
          simp only
          by_cases hr : c.first.found = false ∧ w.flags.toroidal = true ∧ highVoltage w c = false
          · rw [if_pos hr]
            have hret : retry c w = ({ w with flags := { w.flags with toroidal := false } }, true) := by
              simp [retry, clearCores, hf, Step.next]
            rw [hret]
            refine iff_of_true ?_ (Or.inr (Or.inr ⟨by trivial, hr.2.1, hl', hserved.1, hserved.2, hr.1⟩))
            intro h
            have := congrArg Flags.toroidal h
            rw [hr.2.1] at this
            simp at this
          · rw [if_neg hr]
            refine iff_of_false (by simp) ?_
            rintro (h | h | h)
            · exact hv h
            · exact absurd h.1 (by decide)
            · exact hr ⟨h.2.2.2.2.2, h.2.1, hh⟩
        · unfold Step.next
          rw [if_pos (by simpa using hth), hsw]
          refine iff_of_false (by simp) ?_
          rintro (h | h | h)
          · exact hv h
          · exact absurd h.1 (by decide)
          · exact hth ((search_served w c.first hf).mpr ⟨h.2.2.2.1, h.2.2.2.2.1⟩)

/-- **C212.** With everything loaded before the region was frozen and the default settings, a plain design that finds nothing ends the
process instead of answering an empty list. -/
theorem nothing_found_terminates : (call (fresh true false (.loaded ⟨true, true, true⟩)) (ordinary false)).2 = .terminated ∧
    (call (fresh true false (.loaded ⟨true, true, true⟩)) (ordinary true)).2 = .returned ∧
    (call (fresh false false (.loaded ⟨true, true, true⟩)) (ordinary false)).2 = .returned := by decide +kernel

/-! ## C213: scopes of a library -/

/-- What the first search finds in the catalogues, when it is reached. -/
def seen (w : World) (c : Call) : Option World :=
  if ((prepare w c).next (fill c.first)).2 then none else some ((prepare w c).next (fill c.first)).1

/-- **C213.** In the scope of a library, a search finds its cores and shapes as long as neither the supply is above 600 V with toroids enabled
nor the application is suppression.

Partial: otherwise it does not, see `scope_loses_inventory`. -/
theorem scope_seen_partial (w : World) (c : Call) (hs : w.inScope = true) (hc : w.cores = .inventory) (hsh : w.shapes = .inventory)
    (hv : w.flags.toroidal = false ∨ maxVoltage c.supply ≤ 600) (hsup : c.suppression = false) : seen w c = some w := by
  have hh : highVoltage w c = false := by
    unfold highVoltage
    rcases hv with hv | hv
    · rw [hv]; rfl
    · rw [decide_eq_false (not_lt.mpr hv), Bool.and_false]
  obtain ⟨fl, co, sh, fr, sc⟩ := w
  simp only at hs hc hsh
  subst hs; subst hc; subst hsh
  cases h1 : c.first.shapes <;> cases h2 : c.first.cores <;>
    simp [seen, prepare, hh, hsup, Step.next, loadCores, fill, loadShapes, h1, h2]

/-- **C213.** In the scope of a library, above 600 V with toroids enabled or for suppression, a search never finds the inventory: it finds no
cores at all, and, if it looks at the shapes, the public ones. -/
theorem scope_loses_inventory (w : World) (c : Call) (hf : w.frozen = false) (hs : w.inScope = true)
    (h : (w.flags.toroidal = true ∧ 600 < maxVoltage c.supply) ∨ c.suppression = true) :
    ∃ w', seen w c = some w' ∧ w'.cores = .empty ∧
      w'.shapes = if c.first.shapes then .loaded w'.flags else .empty := by
  obtain ⟨fl, co, sh, fr, sc⟩ := w
  simp only at hf hs
  subst hf; subst hs
  cases hv : highVoltage ⟨fl, co, sh, false, true⟩ c <;> cases hsup : c.suppression
  · exfalso
    rcases h with h | h
    · rw [show highVoltage ⟨fl, co, sh, false, true⟩ c = true by
        have h1 : fl.toroidal = true := h.1
        simp [highVoltage, h1, h.2]] at hv
      exact absurd hv (by decide)
    · rw [hsup] at h; exact absurd h (by decide)
  all_goals
    cases h1 : c.first.shapes <;> cases h2 : c.first.cores <;>
      simp [seen, prepare, hv, hsup, Step.next, clearCores, clearShapes, loadCores, fill, loadShapes, h1, h2]

/-- **C213.** After a search that finds nothing, the rest of the scope has no cores: the retry without toroids empties the inventory and
does not refill it. -/
theorem scope_emptied (w : World) (c : Call) (hf : w.frozen = false) (hs : w.inScope = true) (hc : w.cores = .inventory)
    (hsh : w.shapes = .inventory) (ht : w.flags.toroidal = true) (hv : maxVoltage c.supply ≤ 600) (hsup : c.suppression = false)
    (hthrow : c.first.throws = false) (hfound : c.first.found = false) :
    (call w c).1 = { w with cores := .empty, shapes := .empty } := by
  have hh : highVoltage w c = false := by
    unfold highVoltage
    rw [decide_eq_false (not_lt.mpr hv), Bool.and_false]
  obtain ⟨⟨f1, f2, f3⟩, co, sh, fr, sc⟩ := w
  simp only at hs hc hsh hf ht
  subst hs; subst hc; subst hsh; subst hf; subst ht
  cases h1 : c.first.shapes <;> cases h2 : c.first.cores <;> cases h3 : c.second.shapes <;> cases h4 : c.second.cores <;>
    simp [call, restore, body, retry, search, prepare, hh, hsup, Step.next, loadCores, fill, loadShapes, clearCores, clearShapes, h1, h2, h3, h4,
      hthrow, hfound]

/-- Case of `scope_seen_partial`, `scope_loses_inventory` and `scope_emptied`. -/
example : seen (fresh false true .inventory) (ordinary true) = some (fresh false true .inventory) ∧
    seen (fresh false true .inventory) { ordinary true with supply := some (none, none, some 750) } =
      some ⟨⟨false, true, true⟩, .empty, .loaded ⟨false, true, true⟩, false, true⟩ ∧
    (call (fresh false true .inventory) (ordinary false)).1 = fresh false true .empty := by decide +kernel

/-! ## C214: the application -/

/-- **C214.** An adviser whose application is not power keeps it, and its mode, for every request, known or not. -/
theorem application_kept (parse : String → Option Application) (a : Adviser) (h : a.application ≠ .power) (r : Option String) :
    adopt parse a r = some a := by
  cases r with
  | none => rfl
  | some name => simp only [adopt, if_neg h]

/-- **C214.** After the first design of an adviser for another application than power, all its designs are for that application, whatever they
ask for. -/
theorem application_sticks (parse : String → Option Application) (a : Adviser) (first : String) (app : Application)
    (hp : a.application = .power) (hparse : parse first = some app) (happ : app ≠ .power) (rs : List (Option String)) :
    designs parse a (some first :: rs) = List.replicate (rs.length + 1) (some app) := by
  have hstay : ∀ (rs : List (Option String)) (a : Adviser), a.application = app →
      designs parse a rs = List.replicate rs.length (some app) := by
    intro rs
    induction rs with
    | nil => intro a _; rfl
    | cons r rs ih =>
      intro a ha
      have := application_kept parse a (by rw [ha]; exact happ) r
      simp only [designs, this, ih a ha, List.length_cons, List.replicate_succ, ha]
  simp only [designs, adopt, if_pos hp, hparse, Option.map_some, List.replicate_succ]
  rw [hstay rs _ rfl]

/-- What each request asks for: power when it does not say. -/
def asked (parse : String → Option Application) : Option String → Option Application
  | none => some .power
  | some name => parse name

/-- **C214.** As long as every request before it was for power, or failed, a design is for the application it asks for.

Partial: after one that was not, see `application_sticks`. -/
theorem application_as_asked_partial (parse : String → Option Application) (before : List (Option String)) (r : Option String)
    (h : ∀ b ∈ before, asked parse b = some .power ∨ asked parse b = none) (mode : Mode) :
    designs parse ⟨.power, mode⟩ (before ++ [r]) = before.map (asked parse) ++ [asked parse r] := by
  induction before generalizing mode with
  | nil =>
    cases r with
    | none => rfl
    | some name =>
      simp only [List.nil_append, designs, adopt, if_true, asked, List.map_nil]
      cases hp : parse name <;> simp
  | cons b before ih =>
    have hb := h b (by simp)
    have ih' := fun mode => ih (fun b' hb' => h b' (by simp [hb'])) mode
    cases b with
    | none =>
      simp only [List.cons_append, designs, adopt, List.map_cons, asked, ih']
    | some name =>
      simp only [asked] at hb
      simp only [List.cons_append, designs, adopt, if_true, List.map_cons, asked]
      rcases hb with hb | hb
      · simp only [hb, Option.map_some, ih', List.cons_append]
        rfl
      · simp only [hb, Option.map_none, ih', List.cons_append]
        rfl

/-- The names of the applications (src/advisers/MagneticAdviser.cpp:580 for suppression; the others are those of the schema). -/
def names : String → Option Application
  | "power" => some .power
  | "interferenceSuppression" => some .suppression
  | "signalProcessing" => some .signal
  | _ => none

/-- **C214.** The same power design is for power with a new adviser and for suppression with one that designed a choke before; and the cores
it may choose from changed too. -/
theorem choke_before_power :
    designs names .new [some "power"] = [some .power] ∧
      designs names .new [some "interferenceSuppression", some "power"] = [some .suppression, some .suppression] ∧
      adopt names .new (some "interferenceSuppression") = some ⟨.suppression, .available⟩ := by decide +kernel

/-- Case of `application_as_asked_partial`: two power designs, an unknown application and a choke. -/
example : designs names .new [some "power", none, some "unheard of", some "interferenceSuppression"] =
    [some .power, some .power, none, some .suppression] := by decide +kernel

end Verif.Advice.Restore
